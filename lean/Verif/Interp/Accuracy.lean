import Verif.Interp.Props
import Mathlib.Analysis.Convex.Deriv
import Mathlib.Analysis.Calculus.Deriv.Mul
import Mathlib.Analysis.Calculus.Deriv.Pow
import Mathlib.Analysis.Normed.Module.DoubleDual
import Mathlib.Analysis.SpecialFunctions.Trigonometric.Deriv

/-! # Accuracy of the fields between the nodes of a grid (C153) -/

set_option linter.unusedSectionVars false

namespace WakeT.Interp

section

variable {E : Type*} [NormedAddCommGroup E] [NormedSpace ℝ E]

/-! ### Specification -/

/-- The function is differentiable twice and its second derivative is at most `M`. -/
def Curved (M : ℝ) (f : ℝ → E) : Prop :=
  ∃ f' f'' : ℝ → E, (∀ x, HasDerivAt f (f' x) x) ∧ (∀ x, HasDerivAt f' (f'' x) x) ∧ ∀ x, ‖f'' x‖ ≤ M

/-- The second derivatives of the field along `z` and `r` are at most `Mz` and `Mr`. -/
def Smooth (Mz Mr : ℝ) (f : ℝ → ℝ → E) : Prop := (∀ r, Curved Mz fun z => f z r) ∧ ∀ z, Curved Mr (f z)

/-- Radial and azimuthal components change sign across the axis. -/
def OddR (f : ℝ → ℝ → ℝ) : Prop := ∀ z r, f z (-r) = -f z r

/-- Scalars and longitudinal components do not. -/
def EvenR (f : ℝ → ℝ → ℝ) : Prop := ∀ z r, f z (-r) = f z r

/-! ### One dimension -/

theorem convex_of_deriv2 {g g' g'' : ℝ → ℝ} (h1 : ∀ x, HasDerivAt g (g' x) x) (h2 : ∀ x, HasDerivAt g' (g'' x) x)
    (h3 : ∀ x, 0 ≤ g'' x) : ConvexOn ℝ Set.univ g := by
  have e : deriv g = g' := funext fun x => (h1 x).deriv
  refine convexOn_univ_of_deriv2_nonneg (fun x => (h1 x).differentiableAt) ?_ fun x => ?_
  · rw [e]; exact fun x => (h2 x).differentiableAt
  · show 0 ≤ deriv (deriv g) x
    rw [e, (h2 x).deriv]
    exact h3 x

/-- A chord of a convex function is above it between its ends and below it elsewhere. -/
theorem convex_chord {g : ℝ → ℝ} (hg : ConvexOn ℝ Set.univ g) (a h θ : ℝ) :
    (0 ≤ θ ∧ θ ≤ 1 → g (a + θ * h) ≤ (1 - θ) * g a + θ * g (a + h)) ∧
    (θ ≤ 0 ∨ 1 ≤ θ → (1 - θ) * g a + θ * g (a + h) ≤ g (a + θ * h)) := by
  have key : ∀ x y t : ℝ, 0 ≤ t → t ≤ 1 → g ((1 - t) * x + t * y) ≤ (1 - t) * g x + t * g y := fun x y t h0 h1 =>
    hg.2 (Set.mem_univ x) (Set.mem_univ y) (by linarith) h0 (by ring)
  refine ⟨fun ⟨h0, h1⟩ => ?_, fun hc => ?_⟩
  · have := key a (a + h) θ h0 h1
    rwa [show (1 - θ) * a + θ * (a + h) = a + θ * h by ring] at this
  · rcases hc with hc | hc
    · -- `a` is between `a + θ h` and `a + h`
      have hp : 0 < 1 - θ := by linarith
      have := key (a + h) (a + θ * h) (1 / (1 - θ)) (by positivity) (by rw [div_le_one hp]; linarith)
      rw [show (1 - 1 / (1 - θ)) * (a + h) + 1 / (1 - θ) * (a + θ * h) = a by field_simp; ring] at this
      have := mul_le_mul_of_nonneg_left this hp.le
      rw [show (1 - θ) * ((1 - 1 / (1 - θ)) * g (a + h) + 1 / (1 - θ) * g (a + θ * h)) =
        -θ * g (a + h) + g (a + θ * h) by field_simp; ring] at this
      linarith
    · have hp : 0 < θ := by linarith
      have := key a (a + θ * h) (1 / θ) (by positivity) (by rw [div_le_one hp]; linarith)
      rw [show (1 - 1 / θ) * a + 1 / θ * (a + θ * h) = a + h by field_simp; ring] at this
      have := mul_le_mul_of_nonneg_left this hp.le
      rw [show θ * ((1 - 1 / θ) * g a + 1 / θ * g (a + θ * h)) =
        (θ - 1) * g a + g (a + θ * h) by field_simp] at this
      linarith

theorem linear_real {M : ℝ} {f : ℝ → ℝ} (hf : Curved M f) (a h θ : ℝ) :
    |(1 - θ) * f a + θ * f (a + h) - f (a + θ * h)| ≤ M * h ^ 2 * |θ * (1 - θ)| / 2 := by
  obtain ⟨f', f'', h1, h2, h3⟩ := hf
  have d1 : ∀ s : ℝ, ∀ x, HasDerivAt (fun x => M / 2 * x ^ 2 + s * f x) (M * x + s * f' x) x := fun s x => by
    have := ((hasDerivAt_pow 2 x).const_mul (M / 2)).add ((h1 x).const_mul s)
    refine this.congr_deriv ?_
    norm_num; ring
  have d2 : ∀ s : ℝ, ∀ x, HasDerivAt (fun x => M * x + s * f' x) (M + s * f'' x) x := fun s x => by
    have := ((hasDerivAt_id x).const_mul M).add ((h2 x).const_mul s)
    refine this.congr_deriv ?_
    simp
  have c1 := convex_chord (convex_of_deriv2 (d1 1) (d2 1) fun x => by
    have := (abs_le.mp (h3 x)).1; linarith) a h θ
  have c2 := convex_chord (convex_of_deriv2 (d1 (-1)) (d2 (-1)) fun x => by
    have := (abs_le.mp (h3 x)).2; linarith) a h θ
  by_cases hc : 0 ≤ θ ∧ θ ≤ 1
  · have e1 := c1.1 hc
    have e2 := c2.1 hc
    rw [abs_of_nonneg (show 0 ≤ θ * (1 - θ) from mul_nonneg hc.1 (by linarith))]
    exact abs_le.mpr ⟨by nlinarith, by nlinarith⟩
  · have hc' : θ ≤ 0 ∨ 1 ≤ θ := by
      by_contra hn
      push Not at hn
      exact hc ⟨hn.1.le, hn.2.le⟩
    have e1 := c1.2 hc'
    have e2 := c2.2 hc'
    have hneg : θ * (1 - θ) ≤ 0 := by
      rcases hc' with h | h
      · exact mul_nonpos_of_nonpos_of_nonneg h (by linarith)
      · exact mul_nonpos_of_nonneg_of_nonpos (by linarith) (by linarith)
    rw [abs_of_nonpos hneg]
    exact abs_le.mpr ⟨by nlinarith, by nlinarith⟩

/-- Linear interpolation and extrapolation. -/
theorem linear_error {M : ℝ} {f : ℝ → E} (hf : Curved M f) (a h θ : ℝ) :
    ‖(1 - θ) • f a + θ • f (a + h) - f (a + θ * h)‖ ≤ M * h ^ 2 * |θ * (1 - θ)| / 2 := by
  obtain ⟨f', f'', h1, h2, h3⟩ := hf
  have hM : 0 ≤ M := (norm_nonneg _).trans (h3 0)
  refine NormedSpace.norm_le_dual_bound ℝ _ (by positivity) fun φ => ?_
  have hc : Curved (M * ‖φ‖) fun x => φ (f x) := by
    refine ⟨fun x => φ (f' x), fun x => φ (f'' x), fun x => ?_, fun x => ?_, fun x => ?_⟩
    · exact φ.hasFDerivAt.comp_hasDerivAt x (h1 x)
    · exact φ.hasFDerivAt.comp_hasDerivAt x (h2 x)
    · refine (φ.le_opNorm _).trans ?_
      rw [mul_comm]
      exact mul_le_mul_of_nonneg_right (h3 x) (norm_nonneg _)
  have := linear_real hc a h θ
  rw [map_sub, map_add, map_smul, map_smul, Real.norm_eq_abs, smul_eq_mul, smul_eq_mul]
  refine this.trans (le_of_eq ?_)
  ring

end


/-! ### Gathering -/

theorem quarter {θ : ℝ} (h0 : 0 ≤ θ) (h1 : θ ≤ 1) : |θ * (1 - θ)| ≤ 1 / 4 := by
  rw [abs_of_nonneg (mul_nonneg h0 (by linarith))]
  nlinarith [sq_nonneg (2 * θ - 1)]

theorem curved_nonneg {E : Type*} [NormedAddCommGroup E] [NormedSpace ℝ E] {M : ℝ} {f : ℝ → E} (h : Curved M f) :
    0 ≤ M := by
  obtain ⟨_, f'', _, _, h⟩ := h
  exact (norm_nonneg _).trans (h 0)

theorem chord_le {M : ℝ} {f : ℝ → ℝ} (hf : Curved M f) (a h : ℝ) {θ : ℝ} (h0 : 0 ≤ θ) (h1 : θ ≤ 1) :
    |(1 - θ) * f a + θ * f (a + h) - f (a + θ * h)| ≤ M * h ^ 2 / 8 := by
  have hM : 0 ≤ M * h ^ 2 := mul_nonneg (curved_nonneg hf) (sq_nonneg h)
  have := mul_le_mul_of_nonneg_left (quarter h0 h1) hM
  have := linear_real hf a h θ
  linarith

theorem mix_le {θ p q P Q ε : ℝ} (h0 : 0 ≤ θ) (h1 : θ ≤ 1) (hp : |p - P| ≤ ε) (hq : |q - Q| ≤ ε) :
    |((1 - θ) * p + θ * q) - ((1 - θ) * P + θ * Q)| ≤ ε := by
  rw [abs_le] at *
  have h1' : 0 ≤ 1 - θ := by linarith
  constructor
  · nlinarith [mul_le_mul_of_nonneg_left hp.1 h1', mul_le_mul_of_nonneg_left hq.1 h0]
  · nlinarith [mul_le_mul_of_nonneg_left hp.2 h1', mul_le_mul_of_nonneg_left hq.2 h0]

/-- Interpolation of a field with the given symmetry across the axis. -/
theorem cellInterp_accuracy {b : Box} {nz nr : ℕ} (hb : b.IsGrid nz nr) {a : Arr ℝ} (ha : OnGrid a nz nr) {s : ℝ}
    {f : ℝ → ℝ → ℝ} (hs : ∀ z r, f z (-r) = s * f z r) (hss : |s| = 1) {Mz Mr : ℝ} (hm : Smooth Mz Mr f)
    (hf : Holds b nz nr a f) {r z : ℝ} (hr : 0 ≤ r) (h : b.Has r z) :
    ∃ v, cellInterp b s a r z = some v ∧ |v - f z r| ≤ (Mz * b.dz ^ 2 + Mr * b.dr ^ 2) / 8 := by
  obtain ⟨x, y, i, j, ex, ey, hi1, hi2, hx1, hx2, hxe, hc⟩ := cellInterp_eq hb s ha hr h
  have hMz : 0 ≤ Mz * b.dz ^ 2 := mul_nonneg (curved_nonneg (hm.1 0)) (sq_nonneg _)
  have hMr : 0 ≤ Mr * b.dr ^ 2 := mul_nonneg (curved_nonneg (hm.2 0)) (sq_nonneg _)
  have hnr : (1 : ℤ) ≤ nr := by
    rcases hc with h | ⟨-, hy1, hy2, -⟩
    · omega
    · by_contra hcon
      have h0 : nr = 0 := by omega
      have := h.2.2
      rw [hb.rMax, h0] at this
      have := hb.dr
      push_cast at *
      nlinarith
  have hz : ∀ m : ℤ, 2 ≤ m → m < nr + 2 →
      |((i + 1 - x) * a.val i m + (x - i) * a.val (i + 1) m) - f z (b.rNode m)| ≤ Mz * b.dz ^ 2 / 8 := by
    intro m hm1 hm2
    rw [hf i m hi1 hi2 hm1 hm2]
    by_cases he : i + 1 = nz + 2
    · have : z = b.zNode i := by rw [ex, hxe he]; rfl
      rw [hxe he, this]
      ring_nf
      rw [abs_zero]
      linarith
    · rw [hf (i + 1) m (by omega) (by omega) hm1 hm2]
      have := chord_le (hm.1 (b.rNode m)) (b.zNode i) b.dz (θ := x - i) (by linarith) (by linarith)
      rw [show b.zNode i + b.dz = b.zNode (i + 1) by unfold Box.zNode; push_cast; ring,
        show b.zNode i + (x - i) * b.dz = z by rw [ex]; unfold Box.zNode; ring,
        show (1 : ℝ) - (x - i) = i + 1 - x by ring] at this
      exact this
  rcases hc with ⟨hj1, hj2, hy1, hy2, hye, hval⟩ | ⟨hj, hy1, hy2, hval⟩ <;> refine ⟨_, hval, ?_⟩
  · by_cases he : j + 1 = nr + 2
    · have : r = b.rNode j := by rw [ey, hye he]; rfl
      have h1 := hz j hj1 hj2
      rw [hye he, this, show (j : ℝ) + 1 - j = 1 by ring, sub_self, zero_mul, add_zero, one_mul]
      linarith
    · have h1 := mix_le (θ := y - j) (by linarith) (by linarith) (hz j hj1 hj2) (hz (j + 1) (by omega) (by omega))
      have h2 := chord_le (hm.2 z) (b.rNode j) b.dr (θ := y - j) (by linarith) (by linarith)
      rw [show b.rNode j + b.dr = b.rNode (j + 1) by unfold Box.rNode; push_cast; ring,
        show b.rNode j + (y - j) * b.dr = r by rw [ey]; unfold Box.rNode; ring] at h2
      rw [show (j : ℝ) + 1 - y = 1 - (y - j) by ring]
      rw [abs_le] at *
      constructor <;> linarith [h1.1, h1.2, h2.1, h2.2]
  · have h1 := hz 2 le_rfl (by omega)
    have e2 : b.rNode 2 = b.dr / 2 := by unfold Box.rNode; rw [hb.rMin]; push_cast; ring
    rw [e2] at h1
    generalize (i + 1 - x) * a.val i 2 + (x - i) * a.val (i + 1) 2 = w at *
    have h1s : |w * s - f z (-(b.dr / 2))| ≤ Mz * b.dz ^ 2 / 8 := by
      rw [hs, show w * s - s * f z (b.dr / 2) = s * (w - f z (b.dr / 2)) by ring, abs_mul, hss, one_mul]
      exact h1
    have h2 := chord_le (hm.2 z) (-(b.dr / 2)) b.dr (θ := y - 1) (by linarith) (by linarith)
    rw [show -(b.dr / 2) + b.dr = b.dr / 2 by ring,
      show -(b.dr / 2) + (y - 1) * b.dr = r by rw [ey, hb.rMin]; ring] at h2
    have h3 := mix_le (θ := y - 1) (by linarith) (by linarith) h1s h1
    rw [show (2 : ℝ) - y = 1 - (y - 1) by ring]
    rw [abs_le] at *
    constructor <;> linarith [h3.1, h3.2, h2.1, h2.2]

theorem odd_scaled {f : ℝ → ℝ → ℝ} (h : OddR f) : ∀ z r, f z (-r) = (-1) * f z r := fun z r => by rw [h]; ring

theorem even_scaled {f : ℝ → ℝ → ℝ} (h : EvenR f) : ∀ z r, f z (-r) = 1 * f z r := fun z r => by rw [h]; ring

/-- **C153 (i)**: the fields that a grid hands to a beam particle off the axis, anywhere in the box, differ from
the smooth fields whose values the grid holds by at most an eighth of the second differences, whatever the
guard cells contain. -/
theorem gather_accuracy {b : Box} {nz nr : ℕ} (hb : b.IsGrid nz nr) {er ez bt : Arr ℝ} (h1 : OnGrid er nz nr)
    (h2 : OnGrid ez nz nr) (h3 : OnGrid bt nz nr) {fr fz ft : ℝ → ℝ → ℝ} (hr : OddR fr) (hz : EvenR fz)
    (ht : OddR ft) {Mz Mr : ℝ} (mr : Smooth Mz Mr fr) (mz : Smooth Mz Mr fz) (mt : Smooth Mz Mr ft)
    (er_holds : Holds b nz nr er fr) (ez_holds : Holds b nz nr ez fz) (bt_holds : Holds b nz nr bt ft) (x y z : ℝ)
    (hxy : ¬ (x = 0 ∧ y = 0)) (hin : b.zMin ≤ z ∧ z ≤ b.zMax ∧ √(x ^ 2 + y ^ 2) ≤ b.rMax) (v : Fields.EB ℝ) :
    ∃ w : Fields.EB ℝ, gatherMain1 b er ez bt x y z v = .ok w ∧
      let r := √(x ^ 2 + y ^ 2)
      let ε := (Mz * b.dz ^ 2 + Mr * b.dr ^ 2) / 8
      |w.ex - (v.ex + fr z r * (x / r))| ≤ ε ∧ |w.ey - (v.ey + fr z r * (y / r))| ≤ ε ∧
      |w.ez - (v.ez + fz z r)| ≤ ε ∧
      |w.bx - (v.bx - ft z r * (y / r))| ≤ ε ∧ |w.b_y - (v.b_y + ft z r * (x / r))| ≤ ε ∧ w.bz = v.bz := by
  have hpos : 0 < √(x ^ 2 + y ^ 2) := by
    refine Real.sqrt_pos.mpr ?_
    by_contra hcon
    exact hxy ⟨by nlinarith [sq_nonneg x, sq_nonneg y], by nlinarith [sq_nonneg x, sq_nonneg y]⟩
  have hin' : b.Has (√(x ^ 2 + y ^ 2)) z := hin
  obtain ⟨w1, e1, b1⟩ := cellInterp_accuracy hb h1 (odd_scaled hr) (by norm_num) mr er_holds (Real.sqrt_nonneg _) hin'
  obtain ⟨w2, e2, b2⟩ := cellInterp_accuracy hb h3 (odd_scaled ht) (by norm_num) mt bt_holds (Real.sqrt_nonneg _) hin'
  obtain ⟨w3, e3, b3⟩ := cellInterp_accuracy hb h2 (even_scaled hz) (by norm_num) mz ez_holds (Real.sqrt_nonneg _) hin'
  have hx : |x / √(x ^ 2 + y ^ 2)| ≤ 1 := by
    rw [abs_div, abs_of_pos hpos, div_le_one hpos]
    exact Real.abs_le_sqrt (by nlinarith [sq_nonneg y])
  have hy : |y / √(x ^ 2 + y ^ 2)| ≤ 1 := by
    rw [abs_div, abs_of_pos hpos, div_le_one hpos]
    exact Real.abs_le_sqrt (by nlinarith [sq_nonneg x])
  have key : ∀ {w f c : ℝ}, |w - f| ≤ (Mz * b.dz ^ 2 + Mr * b.dr ^ 2) / 8 → |c| ≤ 1 →
      |(w - f) * c| ≤ (Mz * b.dz ^ 2 + Mr * b.dr ^ 2) / 8 := fun {w f c} hw hc => by
    rw [abs_mul]
    exact (mul_le_mul hw hc (abs_nonneg _) ((abs_nonneg _).trans hw)).trans (by rw [mul_one])
  unfold gatherMain1
  dsimp only
  rw [if_neg hpos.ne', if_pos hin', e1, e2, e3]
  refine ⟨_, rfl, ?_⟩
  dsimp only
  refine ⟨?_, ?_, ?_, ?_, ?_, ?_⟩
  · convert key b1 hx using 2; ring
  · convert key b1 hy using 2; ring
  · convert b3 using 2; ring
  · convert key b2 (c := -(y / √(x ^ 2 + y ^ 2))) (by rwa [abs_neg]) using 2; ring
  · convert key b2 hx using 2; ring
  · simp

/-- **C153 (ii)**: the same for the laser and beam sources at the plasma particles. -/
theorem sources_accuracy {b : Box} {nz nr : ℕ} (hb : b.IsGrid nz nr) {a2 na2 bt0 : Arr ℝ} (h1 : OnGrid a2 nz nr)
    (h2 : OnGrid na2 nz nr) (h3 : OnGrid bt0 nz nr) {fa fg ft : ℝ → ℝ → ℝ} (ha : EvenR fa) (hg : OddR fg)
    (ht : OddR ft) {Mz Mr : ℝ} (ma : Smooth Mz Mr fa) (mg : Smooth Mz Mr fg) (mt : Smooth Mz Mr ft)
    (a_holds : Holds b nz nr a2 fa) (g_holds : Holds b nz nr na2 fg) (t_holds : Holds b nz nr bt0 ft) (r z : ℝ)
    (hr : 0 ≤ r) (hin : b.zMin ≤ z ∧ z ≤ b.zMax ∧ r ≤ b.rMax) (old : Src) :
    ∃ s : Src, gatherSources1 b a2 na2 bt0 r z old = some s ∧
      let ε := (Mz * b.dz ^ 2 + Mr * b.dr ^ 2) / 8
      |s.a2 - fa z r| ≤ ε ∧ |s.nablaA2 - fg z r| ≤ ε ∧ |s.bTheta0 - ft z r| ≤ ε := by
  have hin' : b.Has r z := hin
  obtain ⟨w1, e1, b1⟩ := cellInterp_accuracy hb h1 (even_scaled ha) (by norm_num) ma a_holds hr hin'
  obtain ⟨w2, e2, b2⟩ := cellInterp_accuracy hb h2 (odd_scaled hg) (by norm_num) mg g_holds hr hin'
  obtain ⟨w3, e3, b3⟩ := cellInterp_accuracy hb h3 (odd_scaled ht) (by norm_num) mt t_holds hr hin'
  unfold gatherSources1
  rw [if_pos hin', e1, e2, e3]
  exact ⟨_, rfl, b1, b2, b3⟩

/-! ### Regridding -/

section

variable {E : Type*} [NormedAddCommGroup E] [NormedSpace ℝ E]

theorem norm_mix_le {θ ε : ℝ} {p q P Q : E} (hp : ‖p - P‖ ≤ ε) (hq : ‖q - Q‖ ≤ ε) :
    ‖((1 - θ) • p + θ • q) - ((1 - θ) • P + θ • Q)‖ ≤ (|1 - θ| + |θ|) * ε := by
  rw [show ((1 - θ) • p + θ • q) - ((1 - θ) • P + θ • Q) = (1 - θ) • (p - P) + θ • (q - Q) by module]
  refine (norm_add_le _ _).trans ?_
  rw [norm_smul, norm_smul, Real.norm_eq_abs, Real.norm_eq_abs, add_mul]
  exact add_le_add (mul_le_mul_of_nonneg_left hp (abs_nonneg _)) (mul_le_mul_of_nonneg_left hq (abs_nonneg _))

/-- Interpolation between `a` and `a + h` or extrapolation by half a cell. -/
theorem half_cell {θ : ℝ} (h0 : -(1 / 2) ≤ θ) (h1 : θ ≤ 3 / 2) : |θ * (1 - θ)| ≤ 3 / 4 ∧ |1 - θ| + |θ| ≤ 2 := by
  constructor
  · rw [abs_le]
    constructor <;> nlinarith [sq_nonneg (2 * θ - 1)]
  · rcases abs_cases (1 - θ) with ⟨e, _⟩ | ⟨e, _⟩ <;> rcases abs_cases θ with ⟨e', _⟩ | ⟨e', _⟩ <;> rw [e, e'] <;> linarith

theorem inner_cell {θ : ℝ} (h0 : 0 ≤ θ) (h1 : θ ≤ 1) : |1 - θ| + |θ| = 1 := by
  rw [abs_of_nonneg h0, abs_of_nonneg (by linarith)]; ring

/-- **C153 (iii)**: moving a smooth field to other grid points is accurate to second order: an eighth of the second
differences between the first and the last radial node, and up to three times as much from the axis to the first
node and from the last node to the outer radius, where the field is extrapolated. -/
theorem regrid_accuracy (fld : Arr E) {zMin rMin dz dr : ℝ} (hdz : 0 < dz) (hdr : 0 < dr) (hr : rMin = dr / 2)
    (hn : 2 ≤ fld.nj) {f : ℝ → ℝ → E} {Mz Mr : ℝ} (hm : Smooth Mz Mr f)
    (hf : ∀ i j : ℤ, 0 ≤ i → i < fld.ni → 0 ≤ j → j < fld.nj → fld.val i j = f (zMin + i * dz) (rMin + j * dr))
    (z r : ℝ) (hin : InBox fld zMin dz dr z r) :
    ∃ v, interpPoint fld zMin rMin dz dr z r = some v ∧
      ‖v - f z r‖ ≤ Mz * dz ^ 2 / 4 + 3 * (Mr * dr ^ 2) / 8 ∧
      (rMin ≤ r → r ≤ rMin + ((fld.nj : ℝ) - 1) * dr → ‖v - f z r‖ ≤ (Mz * dz ^ 2 + Mr * dr ^ 2) / 8) := by
  obtain ⟨h1, h2, h3, h4⟩ := hin
  obtain ⟨x, y, i, i', j, ex, ey, hi0, hi1, hix, hix', hi', hj0, hj1, hj2, hval⟩ :=
    interpPoint_eq fld hdz hdr hr hn h1 h2 h3 h4
  have hMz : 0 ≤ Mz * dz ^ 2 := mul_nonneg (curved_nonneg (hm.1 0)) (sq_nonneg _)
  have hMr : 0 ≤ Mr * dr ^ 2 := mul_nonneg (curved_nonneg (hm.2 0)) (sq_nonneg _)
  have hyu : y ≤ (fld.nj : ℝ) - 1 / 2 := by
    rw [ey, hr] at h4
    have : (y + 1 / 2) * dr ≤ fld.nj * dr := by linarith
    have := le_of_mul_le_mul_right this hdr
    linarith
  have hyl : (j : ℝ) - 1 / 2 ≤ y := by
    rcases hj2 with h | ⟨h, h'⟩
    · linarith
    · rw [h]; push_cast; linarith
  have hz : ∀ m : ℤ, 0 ≤ m → m < fld.nj →
      ‖((i + 1 - x) • fld.val i m + (x - i) • fld.val i' m) - f z (rMin + m * dr)‖ ≤ Mz * dz ^ 2 / 8 := by
    intro m hm1 hm2
    rw [hf i m hi0 hi1 hm1 hm2]
    rcases hi' with ⟨e, e'⟩ | ⟨e, -, e'⟩
    · subst e
      rw [hf (i + 1) m (by omega) (by omega) hm1 hm2]
      have := linear_error (hm.1 (rMin + m * dr)) (zMin + i * dz) dz (x - i)
      rw [show zMin + (i : ℝ) * dz + dz = zMin + ((i + 1 : ℤ) : ℝ) * dz by push_cast; ring,
        show zMin + (i : ℝ) * dz + (x - i) * dz = z by rw [ex]; ring,
        show (1 : ℝ) - (x - i) = i + 1 - x by ring] at this
      have hq := mul_le_mul_of_nonneg_left (quarter (θ := x - i) (by linarith) (by linarith)) hMz
      rw [show (1 : ℝ) - (x - i) = i + 1 - x by ring] at hq
      linarith
    · subst e
      rw [hf i' m hi0 hi1 hm1 hm2, ex, e', sub_self, zero_smul, add_zero,
        show (i' : ℝ) + 1 - i' = 1 by ring, one_smul, sub_self, norm_zero]
      linarith
  -- the two rows used and the position with respect to the first of them
  obtain ⟨m, hm0, hm1, hθ0, hθ1, v, hv, ev, hins⟩ : ∃ m : ℤ, 0 ≤ m ∧ m + 1 < fld.nj ∧ -(1 / 2) ≤ y - m ∧ y - m ≤ 3 / 2 ∧
      ∃ v, interpPoint fld zMin rMin dz dr z r = some v ∧
        v = (1 - (y - m)) • ((i + 1 - x) • fld.val i m + (x - i) • fld.val i' m) +
          (y - m) • ((i + 1 - x) • fld.val i (m + 1) + (x - i) • fld.val i' (m + 1)) ∧
        (0 ≤ y → y ≤ (fld.nj : ℝ) - 1 → 0 ≤ y - m ∧ y - m ≤ 1) := by
    rcases hval with ⟨hj, hval⟩ | ⟨hj, hval⟩
    · refine ⟨j, hj0, hj, by linarith, by linarith, _, hval, ?_, fun hy0 _ => ⟨?_, by linarith⟩⟩
      · rw [show (1 : ℝ) - (y - j) = j + 1 - y by ring]
      · rcases hj2 with h | ⟨h, _⟩
        · linarith
        · rw [h]; push_cast; linarith
    · have hjn : (j : ℝ) + 1 = fld.nj := by exact_mod_cast hj
      refine ⟨j - 1, by omega, by omega, by push_cast; linarith, by push_cast; linarith, _, hval, ?_, fun _ hy1 => ⟨?_, ?_⟩⟩
      · rw [show j - 1 + 1 = j by ring]
        push_cast
        module
      · push_cast; linarith
      · push_cast; linarith
  have r1 := norm_mix_le (θ := y - m) (hz m hm0 (by omega)) (hz (m + 1) (by omega) hm1)
  have r2 := linear_error (hm.2 z) (rMin + m * dr) dr (y - m)
  rw [show rMin + (m : ℝ) * dr + dr = rMin + ((m + 1 : ℤ) : ℝ) * dr by push_cast; ring,
    show rMin + (m : ℝ) * dr + (y - m) * dr = r by rw [ey]; ring] at r2
  rw [← ev] at r1
  have r3 := norm_sub_le_norm_sub_add_norm_sub v
    ((1 - (y - m)) • f z (rMin + m * dr) + (y - m) • f z (rMin + ((m + 1 : ℤ) : ℝ) * dr)) (f z r)
  refine ⟨v, hv, ?_, fun hr1 hr2 => ?_⟩
  · obtain ⟨q1, q2⟩ := half_cell hθ0 hθ1
    have q1' := mul_le_mul_of_nonneg_left q1 hMr
    have q2' := mul_le_mul_of_nonneg_right q2 hMz
    linarith
  · obtain ⟨t0, t1⟩ := hins (by
      by_contra hcon
      push Not at hcon
      nlinarith) (by
      have : y * dr ≤ ((fld.nj : ℝ) - 1) * dr := by linarith
      exact le_of_mul_le_mul_right this hdr)
    rw [inner_cell t0 t1] at r1
    have q1' := mul_le_mul_of_nonneg_left (quarter t0 t1) hMr
    linarith

end

/-! ### The hypotheses can be met -/

/-- Fields that are not reproduced exactly, with their curvatures. -/
theorem demo_smooth : OddR (fun _ r => Real.sin r) ∧ Smooth 1 1 (fun _ r => Real.sin r) ∧
    EvenR (fun z _ => Real.cos z) ∧ Smooth 1 1 (fun z _ => Real.cos z) := by
  have c0 : ∀ c : ℝ, Curved 1 fun _ : ℝ => c := fun c =>
    ⟨fun _ => 0, fun _ => 0, fun x => hasDerivAt_const x c, fun x => hasDerivAt_const x 0, fun _ => by norm_num⟩
  refine ⟨fun _ r => Real.sin_neg r, ⟨fun r => c0 _, fun _ => ?_⟩, fun _ _ => rfl, ⟨fun _ => ?_, fun z => c0 _⟩⟩
  · exact ⟨Real.cos, fun x => -Real.sin x, Real.hasDerivAt_sin, Real.hasDerivAt_cos, fun x => by
      rw [norm_neg]; exact Real.abs_sin_le_one x⟩
  · exact ⟨fun x => -Real.sin x, fun x => -Real.cos x, Real.hasDerivAt_cos, fun x => (Real.hasDerivAt_sin x).neg, fun x => by
      rw [norm_neg]; exact Real.abs_cos_le_one x⟩

/-- A grid that holds a field, with arbitrary guard cells. -/
noncomputable def demoHold (f : ℝ → ℝ → ℝ) : Arr ℝ := ⟨6, 7, fun i j =>
  if 2 ≤ i ∧ i < 4 ∧ 2 ≤ j ∧ j < 5 then f (demoBox.zNode i) (demoBox.rNode j) else 17⟩

example : demoBox.IsGrid 2 3 ∧ ∀ f, OnGrid (demoHold f) 2 3 ∧ Holds demoBox 2 3 (demoHold f) f := by
  refine ⟨⟨?_, ?_, ?_, ?_, ?_⟩, fun f => ⟨⟨rfl, rfl⟩, ?_⟩⟩
  · norm_num [demoBox]
  · norm_num [demoBox]
  · norm_num [demoBox]
  · norm_num [demoBox]
  · norm_num [demoBox]
  · intro i j h1 h2 h3 h4
    simp only [demoHold]
    rw [if_pos ⟨h1, by omega, h3, by omega⟩]

end WakeT.Interp
