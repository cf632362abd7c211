import Verif.Plasma.SolverLemmas
import Verif.Interp.Accuracy
import Verif.Laser.Truncation
import Verif.Util.RadialGradient
import Mathlib.Analysis.Calculus.MeanValue

/-! # Accuracy of the ponderomotive force (C179)

The gradient of the laser intensity that pushes a plasma particle, which is obtained from differences between the nodes
and interpolated to the particle. -/

set_option linter.unusedSectionVars false

namespace WakeT.Interp

/-- Arrays that are close to each other at the nodes up to number `m` are interpolated to close values inside of this node. -/
theorem cellInterp_close {b : Box} {nz nr : ℕ} (hb : b.IsGrid nz nr) {a a' : Arr ℝ} (ha : OnGrid a nz nr)
    (ha' : OnGrid a' nz nr) {s : ℝ} (hss : |s| = 1) {m : ℤ} (hm : 2 ≤ m) (hmn : m < nr + 2) {ε : ℝ}
    (hε : ∀ i j : ℤ, 2 ≤ i → i < nz + 2 → 2 ≤ j → j ≤ m → |a.val i j - a'.val i j| ≤ ε) {r z : ℝ} (hr : 0 ≤ r)
    (h : b.Has r z) (hrm : r ≤ b.rNode m) {v v' : ℝ} (hv : cellInterp b s a r z = some v)
    (hv' : cellInterp b s a' r z = some v') : |v - v'| ≤ ε := by
  have hdr := hb.dr
  have hdz := hb.dz
  obtain ⟨x, y, i, j, ex, ey, hi1, hi2, hx1, hx2, hxe, hc⟩ := cellInterp_eq hb s ha hr h
  obtain ⟨x', y', i', j', ex', ey', hi1', hi2', hx1', hx2', hxe', hc'⟩ := cellInterp_eq hb s ha' hr h
  have exx : x' = x := by
    have : (x' - x) * b.dz = 0 := by linear_combination ex - ex'
    rcases mul_eq_zero.mp this with h | h
    · linarith
    · exact absurd h hdz.ne'
  have eyy : y' = y := by
    have : (y' - y) * b.dr = 0 := by linear_combination ey - ey'
    rcases mul_eq_zero.mp this with h | h
    · linarith
    · exact absurd h hdr.ne'
  have floor_unique : ∀ {p q : ℤ} {t : ℝ}, (p : ℝ) ≤ t → t < p + 1 → (q : ℝ) ≤ t → t < q + 1 → q = p := by
    intro p q t h1 h2 h3 h4
    have a1 : (q : ℝ) < p + 1 := by linarith
    have a2 : (p : ℝ) < q + 1 := by linarith
    have b1 : q < p + 1 := by exact_mod_cast a1
    have b2 : p < q + 1 := by exact_mod_cast a2
    omega
  rw [exx] at hx1' hx2'
  have hii : i' = i := floor_unique hx1 hx2 hx1' hx2'
  rw [exx, eyy, hii] at hc'
  have hym : y ≤ m := by
    have h1 : b.rMin + (y - 2) * b.dr ≤ b.rMin + ((m : ℝ) - 2) * b.dr := by rw [← ey]; exact hrm
    have h2 : (y - 2) * b.dr ≤ ((m : ℝ) - 2) * b.dr := by linarith
    have := le_of_mul_le_mul_right h2 hdr
    linarith
  have hz : ∀ k : ℤ, 2 ≤ k → k ≤ m → |((i + 1 - x) * a.val i k + (x - i) * a.val (i + 1) k) -
      ((i + 1 - x) * a'.val i k + (x - i) * a'.val (i + 1) k)| ≤ ε := by
    intro k h1 h2
    have e1 := hε i k hi1 hi2 h1 h2
    by_cases he : i + 1 = nz + 2
    · rw [hxe he, show (i : ℝ) + 1 - i = 1 by ring, sub_self, zero_mul, zero_mul, add_zero, add_zero, one_mul, one_mul]
      exact e1
    · have := mix_le (θ := x - i) (by linarith) (by linarith) e1 (hε (i + 1) k (by omega) (by omega) h1 h2)
      rwa [show (1 : ℝ) - (x - i) = i + 1 - x by ring] at this
  rcases hc with ⟨hj1, hj2, hy1, hy2, hye, hval⟩ | ⟨hj, hy1, hy2, hval⟩ <;>
    rcases hc' with ⟨hj1', hj2', hy1', hy2', hye', hval'⟩ | ⟨hj', hy1', hy2', hval'⟩
  · have hjj : j' = j := floor_unique hy1 hy2 hy1' hy2'
    rw [hjj] at hval'
    rw [hv] at hval
    rw [hv'] at hval'
    rw [Option.some.inj hval, Option.some.inj hval']
    have hjm : j ≤ m := by
      have : (j : ℝ) ≤ m := hy1.trans hym
      exact_mod_cast this
    rcases eq_or_lt_of_le hjm with e | hlt
    · have hyj : y = j := le_antisymm (by rw [e]; exact hym) hy1
      rw [hyj, show (j : ℝ) + 1 - j = 1 by ring, sub_self, zero_mul, zero_mul, add_zero, add_zero, one_mul, one_mul]
      exact hz j hj1 hjm
    · have := mix_le (θ := y - j) (by linarith) (by linarith) (hz j hj1 hjm) (hz (j + 1) (by omega) (by omega))
      rwa [show (1 : ℝ) - (y - j) = j + 1 - y by ring] at this
  · have : (2 : ℝ) ≤ j := by exact_mod_cast hj1
    linarith
  · have : (2 : ℝ) ≤ j' := by exact_mod_cast hj1'
    linarith
  · rw [hv] at hval
    rw [hv'] at hval'
    rw [Option.some.inj hval, Option.some.inj hval']
    have h1 := hz 2 le_rfl hm
    generalize (i + 1 - x) * a.val i 2 + (x - i) * a.val (i + 1) 2 = w at *
    generalize (i + 1 - x) * a'.val i 2 + (x - i) * a'.val (i + 1) 2 = w' at *
    have h1s : |w * s - w' * s| ≤ ε := by
      rw [← sub_mul, abs_mul, hss, mul_one]
      exact h1
    have := mix_le (θ := y - 1) (by linarith) (by linarith) h1s h1
    rwa [show (1 : ℝ) - (y - 1) = 2 - y by ring] at this

/-- Central difference of a function whose derivative is curved by at most `M`. -/
theorem central_curved {f g : ℝ → ℝ} {M : ℝ} (hfg : ∀ x, HasDerivAt f (g x) x) (hg : Curved M g) (x : ℝ) {h : ℝ}
    (hh : 0 < h) : |(f (x + h) - f (x - h)) / (2 * h) - g x| ≤ M * h ^ 2 := by
  obtain ⟨g', g'', h1, h2, h3⟩ := hg
  let F : ℕ → ℝ → ℂ := fun k y => ((match k with | 0 => f y | 1 => g y | 2 => g' y | _ => g'' y : ℝ) : ℂ)
  have := Laser.central_err (f := F) (x := x) (h := h) (M := M) hh (fun k hk y => by
    interval_cases k
    · exact (hfg y).ofReal_comp
    · exact (h1 y).ofReal_comp
    · exact (h2 y).ofReal_comp) (fun y _ => by
      show ‖((g'' y : ℝ) : ℂ)‖ ≤ M
      rw [Complex.norm_real]
      exact h3 y)
  have e : (F 0 (x + h) - F 0 (x - h)) / (2 * h) - F 1 x = (((f (x + h) - f (x - h)) / (2 * h) - g x : ℝ) : ℂ) := by
    show ((f (x + h) : ℝ) - (f (x - h) : ℝ) : ℂ) / (2 * h) - (g x : ℝ) = _
    push_cast
    ring
  rw [e, Complex.norm_real] at this
  exact this

/-- One-sided difference of a curved function. -/
theorem backward_curved {f g : ℝ → ℝ} {M : ℝ} (hfg : ∀ x, HasDerivAt f (g x) x) (hf : Curved M f) (x : ℝ) {h : ℝ}
    (hh : 0 < h) : |(f x - f (x - h)) / h - g x| ≤ M * h := by
  obtain ⟨f', f'', h1, h2, h3⟩ := hf
  have e : f' = g := funext fun y => (h1 y).unique (hfg y)
  subst e
  obtain ⟨c, hc, hval⟩ := exists_hasDerivAt_eq_slope f f' (show x - h < x by linarith)
    (fun y _ => (hfg y).continuousAt.continuousWithinAt) (fun y _ => hfg y)
  rw [sub_sub_cancel] at hval
  rw [← hval, ← Real.norm_eq_abs]
  have hM : 0 ≤ M := (norm_nonneg _).trans (h3 0)
  have := Convex.norm_image_sub_le_of_norm_hasDerivWithin_le (f := f') (f' := f'') (s := Set.univ) (C := M) (x := x) (y := c)
    (fun y _ => (h2 y).hasDerivWithinAt) (fun y _ => h3 y) convex_univ (Set.mem_univ _) (Set.mem_univ _)
  refine this.trans (mul_le_mul_of_nonneg_left ?_ hM)
  rw [Real.norm_eq_abs, abs_le]
  constructor <;> linarith [hc.1, hc.2]

end WakeT.Interp

namespace WakeT.Plasma

open WakeT.Interp WakeT.Base WakeT.Util

namespace QS
variable {c : QS}

/-- The gradient computed at a node. -/
theorem node_gradient (hr : 0 < c.dr) {fa fg : ℝ → ℝ → ℝ} (ha : EvenR fa) (hd : ∀ z r, HasDerivAt (fa z) (fg z r) r)
    {Mz Mr Nz Nr : ℝ} (ma : Smooth Mz Mr fa) (mg : Smooth Nz Nr fg) (z : ℝ) (k : ℕ) (hk : k < c.nR) :
    |radialGradient c.nR c.dr (fun j => fa z (((j : ℝ) + 1 / 2) * c.dr)) k - fg z (((k : ℝ) + 1 / 2) * c.dr)| ≤
      if k + 1 = c.nR then Mr * c.dr else Nr * c.dr ^ 2 := by
  have prev : (if k = 0 then fa z ((((0 : ℕ) : ℝ) + 1 / 2) * c.dr) else fa z ((((k - 1 : ℕ) : ℝ) + 1 / 2) * c.dr)) =
      fa z (((k : ℝ) + 1 / 2) * c.dr - c.dr) := by
    by_cases h : k = 0
    · rw [if_pos h, h, ← ha]
      congr 1
      push_cast
      ring
    · rw [if_neg h, Nat.cast_sub (by omega)]
      congr 1
      push_cast
      ring
  rw [radialGradient_eq _ _ _ _ hk, prev]
  by_cases h : k + 1 = c.nR
  · rw [if_pos h, if_pos h]
    exact backward_curved (hd z) (ma.2 z) _ hr
  · rw [if_neg h, if_neg h]
    rw [show (((k + 1 : ℕ) : ℝ) + 1 / 2) * c.dr = ((k : ℝ) + 1 / 2) * c.dr + c.dr by push_cast; ring]
    exact central_curved (hd z) (mg.2 z) _ hr

/-- **C179**: plasma particles of the quasi-static model in a laser pulse with intensity `fa` on the nodes.  The intensity and
its radial gradient, which is the ponderomotive force, are those of the pulse up to terms of second order in the steps of
the grid; within the last cell of the grid the gradient is so up to terms of first order. -/
theorem ponderomotive (hdz : 0 < c.dxi) (hdr : 0 < c.dr) {fa fg : ℝ → ℝ → ℝ} (ha : EvenR fa)
    (hd : ∀ z r, HasDerivAt (fa z) (fg z r) r) {Mz Mr Nz Nr : ℝ} (ma : Smooth Mz Mr fa) (mg : Smooth Nz Nr fg)
    {laserA2 : ℕ → ℕ → ℝ} (hl : ∀ i < c.nXi, ∀ j < c.nR, laserA2 i j = fa (c.xiMin + i * c.dxi) (((j : ℝ) + 1 / 2) * c.dr))
    (bTBeam : ℕ → ℕ → ℝ) (r : ℕ → ℝ) (hr : ∀ p < c.n, 0 ≤ r p) (xi : ℝ) (h1 : c.xiMin ≤ xi)
    (h2 : xi ≤ c.xiMin + ((c.nXi : ℝ) - 1) * c.dxi) (old : ℕ → Src) :
    ∃ src, c.gather (c.sources laserA2 bTBeam) r xi old = some src ∧
      ∀ p < c.n, r p ≤ ((c.nR : ℝ) - 1 / 2) * c.dr →
        |(src p).a2 - fa xi (r p)| ≤ (Mz * c.dxi ^ 2 + Mr * c.dr ^ 2) / 8 ∧
        |(src p).nablaA2 - fg xi (r p)| ≤ (Nz * c.dxi ^ 2 + 9 * Nr * c.dr ^ 2) / 8 + Mr * c.dr ∧
        (r p ≤ ((c.nR : ℝ) - 3 / 2) * c.dr →
          |(src p).nablaA2 - fg xi (r p)| ≤ (Nz * c.dxi ^ 2 + 9 * Nr * c.dr ^ 2) / 8) := by
  have hb := box_isGrid (c := c) hdz hdr
  obtain ⟨src, hsrc⟩ := gather_ends hdz hdr (sources_onGrid (c := c) laserA2 bTBeam) r xi hr old
  refine ⟨src, hsrc, fun p hp hrp => ?_⟩
  have hg : OddR fg := fun z x => by
    have e1 : HasDerivAt (fun y => fa z (-y)) (fg z (-x) * (-1)) x := (hd z (-x)).comp x (hasDerivAt_neg x)
    rw [show (fun y => fa z (-y)) = fa z from funext fun y => ha z y] at e1
    have := e1.unique (hd z x)
    linarith
  have hMr : 0 ≤ Mr := curved_nonneg (ma.2 0)
  have hNr : 0 ≤ Nr := curved_nonneg (mg.2 0)
  have hin : c.box.Has (r p) xi := ⟨h1, h2, hrp⟩
  have hnodez : ∀ i : ℤ, 2 ≤ i → c.box.zNode i = c.xiMin + ((i - 2).toNat : ℝ) * c.dxi := by
    intro i hi
    have : (((i - 2).toNat : ℤ) : ℝ) = (i : ℝ) - 2 := by rw [Int.toNat_of_nonneg (by omega)]; push_cast; ring
    rw [show (((i - 2).toNat : ℕ) : ℝ) = (((i - 2).toNat : ℤ) : ℝ) by push_cast; rfl, this]
    rfl
  have hnoder : ∀ j : ℤ, 2 ≤ j → c.box.rNode j = (((j - 2).toNat : ℝ) + 1 / 2) * c.dr := by
    intro j hj
    have : (((j - 2).toNat : ℤ) : ℝ) = (j : ℝ) - 2 := by rw [Int.toNat_of_nonneg (by omega)]; push_cast; ring
    rw [show (((j - 2).toNat : ℕ) : ℝ) = (((j - 2).toNat : ℤ) : ℝ) by push_cast; rfl, this]
    show c.dr / 2 + ((j : ℝ) - 2) * c.dr = _
    ring
  -- the arrays
  have holdsA : Holds c.box c.nXi c.nR (c.sources laserA2 bTBeam).a2 fa := by
    intro i j a1 a2 a3 a4
    show (if 2 ≤ i ∧ i < c.nXi + 2 ∧ 2 ≤ j ∧ j < c.nR + 2 then laserA2 (i - 2).toNat (j - 2).toNat else 0) = _
    rw [if_pos ⟨a1, a2, a3, a4⟩, hl _ (by omega) _ (by omega), hnodez i a1, hnoder j a3]
  let exact' : Arr ℝ := padded c.nXi c.nR fun i j => fg (c.xiMin + i * c.dxi) (((j : ℝ) + 1 / 2) * c.dr)
  have holdsG : Holds c.box c.nXi c.nR exact' fg := by
    intro i j a1 a2 a3 a4
    show (if 2 ≤ i ∧ i < c.nXi + 2 ∧ 2 ≤ j ∧ j < c.nR + 2 then
      fg (c.xiMin + ((i - 2).toNat : ℝ) * c.dxi) ((((j - 2).toNat : ℝ) + 1 / 2) * c.dr) else 0) = _
    rw [if_pos ⟨a1, a2, a3, a4⟩, hnodez i a1, hnoder j a3]
  have node : ∀ i j : ℤ, 2 ≤ i → i < c.nXi + 2 → 2 ≤ j → j < c.nR + 2 →
      |(c.sources laserA2 bTBeam).nablaA2.val i j - exact'.val i j| ≤
        if (j - 2).toNat + 1 = c.nR then Mr * c.dr else Nr * c.dr ^ 2 := by
    intro i j a1 a2 a3 a4
    have e1 : (c.sources laserA2 bTBeam).nablaA2.val i j =
        radialGradient c.nR c.dr (laserA2 (i - 2).toNat) (j - 2).toNat := if_pos ⟨a1, a2, a3, a4⟩
    have e2 : exact'.val i j = fg (c.xiMin + ((i - 2).toNat : ℝ) * c.dxi) ((((j - 2).toNat : ℝ) + 1 / 2) * c.dr) :=
      if_pos ⟨a1, a2, a3, a4⟩
    have hk : (j - 2).toNat < c.nR := by omega
    rw [e1, e2]
    have := node_gradient hdr ha hd ma mg (c.xiMin + ((i - 2).toNat : ℝ) * c.dxi) (j - 2).toNat hk
    rw [radialGradient_eq _ _ _ _ hk] at this ⊢
    have hl' := hl (i - 2).toNat (by omega)
    rw [hl' _ hk, hl' 0 (by omega), hl' ((j - 2).toNat - 1) (by omega)]
    by_cases h : (j - 2).toNat + 1 = c.nR
    · rw [if_pos h] at this ⊢
      exact this
    · rw [if_neg h] at this ⊢
      rw [hl' ((j - 2).toNat + 1) (by omega)]
      exact this
  -- what is gathered
  obtain ⟨w1, e1, b1⟩ := cellInterp_accuracy hb ⟨rfl, rfl⟩ (even_scaled ha) (by norm_num) ma holdsA (hr p hp) hin
  obtain ⟨w2, e2, b2⟩ := cellInterp_accuracy hb (a := exact') ⟨rfl, rfl⟩ (odd_scaled hg) (by norm_num) mg holdsG (hr p hp) hin
  obtain ⟨w3, e3⟩ : ∃ w, cellInterp c.box (-1) (c.sources laserA2 bTBeam).nablaA2 (r p) xi = some w := by
    obtain ⟨_, _, _, _, -, -, -, -, -, -, -, h | h⟩ :=
      cellInterp_eq hb (-1) (a := (c.sources laserA2 bTBeam).nablaA2) ⟨rfl, rfl⟩ (hr p hp) hin
    · exact ⟨_, h.2.2.2.2.2⟩
    · exact ⟨_, h.2.2.2⟩
  obtain ⟨w4, e4⟩ : ∃ w, cellInterp c.box (-1) (c.sources laserA2 bTBeam).bT0 (r p) xi = some w := by
    obtain ⟨_, _, _, _, -, -, -, -, -, -, -, h | h⟩ :=
      cellInterp_eq hb (-1) (a := (c.sources laserA2 bTBeam).bT0) ⟨rfl, rfl⟩ (hr p hp) hin
    · exact ⟨_, h.2.2.2.2.2⟩
    · exact ⟨_, h.2.2.2⟩
  have hs : src p = ⟨w1, w3, w4⟩ := by
    have h := hsrc
    unfold gather at h
    dsimp only at h
    split_ifs at h
    rw [← Option.some.inj h]
    dsimp only
    unfold gatherSources1
    rw [if_pos hin, e1, e3, e4]
    rfl
  rw [hs]
  dsimp only
  have hn1 : 1 ≤ c.nR := by
    by_contra hcon
    have h0 : c.nR = 0 := by omega
    have := hr p hp
    rw [h0] at hrp
    push_cast at hrp
    nlinarith
  refine ⟨b1, ?_, fun hri => ?_⟩
  · have := cellInterp_close hb (a := (c.sources laserA2 bTBeam).nablaA2) (a' := exact') ⟨rfl, rfl⟩ ⟨rfl, rfl⟩
      (s := -1) (by norm_num) (m := c.nR + 1) (by omega) (by omega) (ε := Nr * c.dr ^ 2 + Mr * c.dr) (fun i j a1 a2 a3 a4 => by
        refine (node i j a1 a2 a3 (by omega)).trans ?_
        have q1 := mul_nonneg hMr hdr.le
        have q2 := mul_nonneg hNr (sq_nonneg c.dr)
        split_ifs <;> linarith) (hr p hp) hin (by
        show r p ≤ c.dr / 2 + ((((c.nR : ℤ) + 1 : ℤ) : ℝ) - 2) * c.dr
        push_cast
        linarith) e3 e2
    have b2' : |w2 - fg xi (r p)| ≤ (Nz * c.dxi ^ 2 + Nr * c.dr ^ 2) / 8 := b2
    rw [abs_le] at *
    constructor <;> linarith [this.1, this.2, b2'.1, b2'.2]
  · have hn2 : 2 ≤ c.nR := by
      by_contra hcon
      have h0 : c.nR = 1 := by omega
      have := hr p hp
      rw [h0] at hri
      push_cast at hri
      nlinarith
    have := cellInterp_close hb (a := (c.sources laserA2 bTBeam).nablaA2) (a' := exact') ⟨rfl, rfl⟩ ⟨rfl, rfl⟩
      (s := -1) (by norm_num) (m := c.nR) (by omega) (by omega) (ε := Nr * c.dr ^ 2) (fun i j a1 a2 a3 a4 => by
        have := node i j a1 a2 a3 (by omega)
        rwa [if_neg (by omega)] at this) (hr p hp) hin (by
        show r p ≤ c.dr / 2 + (((c.nR : ℤ) : ℝ) - 2) * c.dr
        push_cast
        linarith) e3 e2
    have b2' : |w2 - fg xi (r p)| ≤ (Nz * c.dxi ^ 2 + Nr * c.dr ^ 2) / 8 := b2
    rw [abs_le] at *
    constructor <;> linarith [this.1, this.2, b2'.1, b2'.2]

/-- A pulse to which the theorem applies. -/
example : EvenR (fun _ r => Real.cos r) ∧ (∀ z r : ℝ, HasDerivAt ((fun _ r => Real.cos r : ℝ → ℝ → ℝ) z) (-Real.sin r) r) ∧
    Smooth 1 1 (fun _ r => Real.cos r) ∧ Smooth 1 1 (fun _ r => -Real.sin r) := by
  have c0 : ∀ c : ℝ, Curved 1 fun _ : ℝ => c := fun c =>
    ⟨fun _ => 0, fun _ => 0, fun x => hasDerivAt_const x c, fun x => hasDerivAt_const x 0, fun _ => by norm_num⟩
  refine ⟨fun _ r => Real.cos_neg r, fun _ r => Real.hasDerivAt_cos r, ⟨fun _ => c0 _, fun _ => ?_⟩, fun _ => c0 _, fun _ => ?_⟩
  · exact ⟨fun x => -Real.sin x, fun x => -Real.cos x, Real.hasDerivAt_cos, fun x => (Real.hasDerivAt_sin x).neg, fun x => by
      rw [norm_neg]; exact Real.abs_cos_le_one x⟩
  · exact ⟨fun x => -Real.cos x, fun x => -(-Real.sin x), fun x => (Real.hasDerivAt_sin x).neg,
      fun x => (Real.hasDerivAt_cos x).neg, fun x => by
      show ‖- -Real.sin x‖ ≤ 1
      rw [neg_neg]; exact Real.abs_sin_le_one x⟩

end QS

end WakeT.Plasma
