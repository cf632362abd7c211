import Verif.Laser.Stability
import Verif.Laser.Truncation
import Verif.Laser.Unstable
import Mathlib.Analysis.MeanInequalities
import Mathlib.Analysis.SpecialFunctions.SmoothTransition

/-! # Convergence of the laser solver (C178) -/

set_option linter.unusedSectionVars false

namespace WakeT.Laser

open Complex (I)

/-! ### Specification -/

/-- `(∫∫ |d|² r dr dz)^(1/2)` over the box. -/
noncomputable def sizeN (p : EnvParams) (d : ℕ → ℕ → ℝ) : ℝ :=
  √(∑ j ∈ Finset.range p.nz, ∑ k ∈ Finset.range p.nr, ((k : ℝ) + 1 / 2) * d j k ^ 2)

/-- The largest possible contribution of the edge of the grid. -/
noncomputable def edgeN (p : EnvParams) (new : GridC) (j k : ℕ) : ℝ := if k + 1 = p.nr then edgeBound p new j else 0

/-- The difference of two fields on the grid. -/
def gsub (a b : GridC) : GridC := fun j k => a j k - b j k

/-! ### One step -/

theorem pair_le (p : EnvParams) (u : ℕ → ℕ → ℝ) (a b : GridC) :
    ∑ j ∈ Finset.range p.nz, ∑ k ∈ Finset.range p.nr, ((k : ℝ) + 1 / 2) * (u j k * ‖a j k - b j k‖) ≤ sizeN p u * √(distE p a b) := by
  unfold sizeN distE
  rw [← Finset.sum_product', ← Finset.sum_product', ← Finset.sum_product']
  have h := Real.sum_mul_le_sqrt_mul_sqrt (Finset.range p.nz ×ˢ Finset.range p.nr) (fun x : ℕ × ℕ => √((x.2 : ℝ) + 1 / 2) * u x.1 x.2)
    fun x : ℕ × ℕ => √((x.2 : ℝ) + 1 / 2) * ‖a x.1 x.2 - b x.1 x.2‖
  have hs : ∀ x : ℕ, √((x : ℝ) + 1 / 2) * √((x : ℝ) + 1 / 2) = (x : ℝ) + 1 / 2 := fun x => Real.mul_self_sqrt (by positivity)
  have e1 : ∀ x : ℕ × ℕ, √((x.2 : ℝ) + 1 / 2) * u x.1 x.2 * (√((x.2 : ℝ) + 1 / 2) * ‖a x.1 x.2 - b x.1 x.2‖) =
      ((x.2 : ℝ) + 1 / 2) * (u x.1 x.2 * ‖a x.1 x.2 - b x.1 x.2‖) := fun x => by linear_combination (u x.1 x.2 * ‖a x.1 x.2 - b x.1 x.2‖) * hs x.2
  have e2 : ∀ (x : ℕ × ℕ) (y : ℝ), (√((x.2 : ℝ) + 1 / 2) * y) ^ 2 = ((x.2 : ℝ) + 1 / 2) * y ^ 2 := fun x y => by rw [mul_pow, sq, hs]
  simp only [e1, e2] at h
  exact h

theorem energy_nonneg (p : EnvParams) {chi : ℕ → ℕ → ℝ} (hchi : ∀ j k, 0 ≤ chi j k) (b : GridC) : 0 ≤ fieldE p chi b :=
  Finset.sum_nonneg fun i _ => add_nonneg (Finset.sum_nonneg fun m _ => by positivity) (Finset.sum_nonneg fun m _ => by have := hchi i m; positivity)

theorem dist_le (p : EnvParams) (ht : 0 < p.dtn) {chi : ℕ → ℕ → ℝ} (hchi : ∀ j k, 0 ≤ chi j k) (old new : GridC) :
    √(distE p new old) ≤ p.dtn * √(levelE p chi old new) := by
  rw [show p.dtn * √(levelE p chi old new) = √(p.dtn ^ 2 * levelE p chi old new) by
    rw [Real.sqrt_mul (by positivity), Real.sqrt_sq ht.le]]
  refine Real.sqrt_le_sqrt ?_
  have h1 := energy_nonneg p hchi new
  have h2 := energy_nonneg p hchi old
  unfold levelE
  have : p.dtn ^ 2 * ((fieldE p chi new + fieldE p chi old) / 2 + distE p new old / p.dtn ^ 2) =
      p.dtn ^ 2 * ((fieldE p chi new + fieldE p chi old) / 2) + distE p new old := by field_simp
  rw [this]
  have : 0 ≤ p.dtn ^ 2 * ((fieldE p chi new + fieldE p chi old) / 2) := by positivity
  linarith

/-- What a defect of the equations does to the energy in one step. -/
theorem energy_step (p : EnvParams) (hz : 0 < p.dz) (hr : 0 < p.dr) (ht : 0 < p.dtn) {chi : ℕ → ℕ → ℝ} (hchi : ∀ j k, 0 ≤ chi j k) (ph : ℕ → ℝ)
    (old mid new : GridC) (h1 : new p.nz = old p.nz) (h2 : new (p.nz + 1) = old (p.nz + 1)) (u v : ℕ → ℕ → ℝ)
    (hd : ∀ j < p.nz, ∀ k < p.nr, ‖defect p chi ph old mid new j k‖ ≤ u j k + v j k) :
    √(levelE p chi mid new) ≤ √(levelE p chi old mid) + p.dtn * (sizeN p u + sizeN p v) := by
  have h := balance p hz hr ht chi ph old mid new h1 h2
  have hb : -∑ j ∈ Finset.range p.nz, ∑ k ∈ Finset.range p.nr, ((k : ℝ) + 1 / 2) * (defect p chi ph old mid new j k * star (new j k - old j k)).re ≤
      (sizeN p u + sizeN p v) * (√(distE p new mid) + √(distE p mid old)) := by
    have hle : ∀ j ∈ Finset.range p.nz, ∀ k ∈ Finset.range p.nr,
        -(((k : ℝ) + 1 / 2) * (defect p chi ph old mid new j k * star (new j k - old j k)).re) ≤
        (((k : ℝ) + 1 / 2) * (u j k * ‖new j k - mid j k‖) + ((k : ℝ) + 1 / 2) * (u j k * ‖mid j k - old j k‖)) +
        (((k : ℝ) + 1 / 2) * (v j k * ‖new j k - mid j k‖) + ((k : ℝ) + 1 / 2) * (v j k * ‖mid j k - old j k‖)) := by
      intro j hj k hk
      have a1 := hd j (Finset.mem_range.mp hj) k (Finset.mem_range.mp hk)
      have a2 : -(defect p chi ph old mid new j k * star (new j k - old j k)).re ≤ ‖defect p chi ph old mid new j k‖ * ‖new j k - old j k‖ := by
        refine (neg_le_abs _).trans ((Complex.abs_re_le_norm _).trans ?_)
        rw [norm_mul, norm_star]
      have a3 : ‖new j k - old j k‖ ≤ ‖new j k - mid j k‖ + ‖mid j k - old j k‖ := norm_sub_le_norm_sub_add_norm_sub _ _ _
      have a4 : ‖defect p chi ph old mid new j k‖ * ‖new j k - old j k‖ ≤ (u j k + v j k) * (‖new j k - mid j k‖ + ‖mid j k - old j k‖) :=
        mul_le_mul a1 a3 (norm_nonneg _) ((norm_nonneg _).trans a1)
      have a5 := mul_le_mul_of_nonneg_left (a2.trans a4) (show 0 ≤ (k : ℝ) + 1 / 2 by positivity)
      linarith only [a5]
    rw [← Finset.sum_neg_distrib]
    refine (Finset.sum_le_sum (g := fun j => ∑ k ∈ Finset.range p.nr,
        ((((k : ℝ) + 1 / 2) * (u j k * ‖new j k - mid j k‖) + ((k : ℝ) + 1 / 2) * (u j k * ‖mid j k - old j k‖)) +
        (((k : ℝ) + 1 / 2) * (v j k * ‖new j k - mid j k‖) + ((k : ℝ) + 1 / 2) * (v j k * ‖mid j k - old j k‖)))) fun j hj => ?_).trans ?_
    · rw [← Finset.sum_neg_distrib]
      exact Finset.sum_le_sum (hle j hj)
    · simp only [Finset.sum_add_distrib]
      have b1 := pair_le p u new mid
      have b2 := pair_le p u mid old
      have b3 := pair_le p v new mid
      have b4 := pair_le p v mid old
      linarith only [b1, b2, b3, b4]
  have hN : 0 ≤ sizeN p u + sizeN p v := add_nonneg (Real.sqrt_nonneg _) (Real.sqrt_nonneg _)
  have g1 := dist_le p ht hchi mid new
  have g2 := dist_le p ht hchi old mid
  have g3 : (sizeN p u + sizeN p v) * (√(distE p new mid) + √(distE p mid old)) ≤
      (sizeN p u + sizeN p v) * (p.dtn * √(levelE p chi mid new) + p.dtn * √(levelE p chi old mid)) := mul_le_mul_of_nonneg_left (add_le_add g1 g2) hN
  have d0 : ∀ x y : GridC, 0 ≤ distE p x y := fun x y => Finset.sum_nonneg fun i _ => Finset.sum_nonneg fun m _ => by positivity
  have l0 : ∀ x y : GridC, 0 ≤ levelE p chi x y := fun x y => by
    have e1 := energy_nonneg p hchi x
    have e2 := energy_nonneg p hchi y
    have := d0 y x
    unfold levelE
    positivity
  have hE : levelE p chi mid new - levelE p chi old mid =
      (fieldE p chi new - fieldE p chi old) / 2 + (distE p new mid - distE p mid old) / p.dtn ^ 2 := by
    unfold levelE
    ring
  have s1 := Real.sq_sqrt (l0 mid new)
  have s2 := Real.sq_sqrt (l0 old mid)
  have p1 := Real.sqrt_nonneg (levelE p chi mid new)
  have p2 := Real.sqrt_nonneg (levelE p chi old mid)
  generalize √(levelE p chi mid new) = x at *
  generalize √(levelE p chi old mid) = y at *
  generalize sizeN p u + sizeN p v = N at *
  have key : x ^ 2 - y ^ 2 ≤ N * p.dtn * (x + y) := by
    have := h.trans (hb.trans g3)
    rw [← hE, ← s1, ← s2] at this
    linarith only [this]
  by_contra hc
  have hc : y + p.dtn * N < x := not_le.mp hc
  have hpos : 0 ≤ p.dtn * N := by positivity
  nlinarith

/-! ### All steps -/

theorem defect_gsub (p : EnvParams) (chi : ℕ → ℕ → ℝ) (ph : ℕ → ℝ) (old mid new old' mid' new' : GridC) (j k : ℕ) :
    defect p chi ph (gsub old old') (gsub mid mid') (gsub new new') j k = defect p chi ph old mid new j k - defect p chi ph old' mid' new' j k := by
  unfold defect lapl diffZ gsub
  dsimp only
  split_ifs <;> ring

/-- **C178.** The computed levels of the envelope compared to given fields `B n` that vanish in front of the box: the energy of the difference grows per step at most by the amount to
which the given fields fail to satisfy the discretised equation, and by what happens at the two outermost radial points (because of C48). -/
theorem laser_error {p : EnvParams} (hp : p.Ok) {chi : ℕ → ℕ → ℝ} (hchi : ∀ j k, 0 ≤ chi j k) (a aOld : GridC)
    (h0 : ∀ i, p.nz ≤ i → a i = 0 ∧ aOld i = 0) :
    ∃ lev : ℕ → GridC, lev 0 = aOld ∧ lev 1 = a ∧
      (∀ i < p.nz, (p.evolve true chi (a, aOld)).1 i = lev (p.nt + 1) i ∧ (p.evolve true chi (a, aOld)).2 i = lev p.nt i) ∧
      ∀ B : ℕ → GridC, (∀ n i, p.nz ≤ i → B n i = 0) → ∀ n,
        √(levelE p chi (gsub (lev n) (B n)) (gsub (lev (n + 1)) (B (n + 1)))) ≤ √(levelE p chi (gsub aOld (B 0)) (gsub a (B 1))) +
          p.dtn * ∑ m ∈ Finset.range n, (sizeN p (edgeN p (lev (m + 2))) +
            sizeN p fun j k => ‖defect p chi (EnvParams.phases (lev (m + 1))) (B m) (B (m + 1)) (B (m + 2)) j k‖) := by
  obtain ⟨lev, h, -⟩ := levels_exist p true chi a aOld
  obtain ⟨g1, g2⟩ := evolve_two_level p true chi a aOld lev h
  have hz : ∀ n i, p.nz ≤ i → lev n i = 0 := by
    intro n i hi
    match n with
    | 0 => rw [h.zero]; exact (h0 i hi).2
    | 1 => rw [h.one]; exact (h0 i hi).1
    | n + 2 => exact (h.next n).outside i hi
  obtain ⟨hz', hr, ht⟩ := hp.pos
  refine ⟨lev, h.zero, h.one, fun i hi => ⟨g1 i (by omega), g2 i (by omega)⟩, fun B hB n => ?_⟩
  have hg : ∀ n i, p.nz ≤ i → gsub (lev n) (B n) i = 0 := by
    intro n i hi
    funext k
    unfold gsub
    rw [hz n i hi, hB n i hi]
    exact sub_zero _
  induction n with
  | zero => rw [Finset.sum_range_zero, mul_zero, add_zero, h.zero, h.one]
  | succ n ih =>
    have hs := energy_step p hz' hr ht hchi (EnvParams.phases (lev (n + 1))) (gsub (lev n) (B n)) (gsub (lev (n + 1)) (B (n + 1)))
      (gsub (lev (n + 2)) (B (n + 2))) (by rw [hg _ _ le_rfl, hg _ _ le_rfl]) (by rw [hg _ _ (by omega), hg _ _ (by omega)])
      (edgeN p (lev (n + 2))) (fun j k => ‖defect p chi (EnvParams.phases (lev (n + 1))) (B n) (B (n + 1)) (B (n + 2)) j k‖) (by
        intro j hj k hk
        rw [defect_gsub]
        refine (norm_sub_le _ _).trans (add_le_add_left ?_ _)
        unfold edgeN
        split_ifs with hk1
        · have hk2 : k = p.nr - 1 := by omega
          rw [hk2]
          exact defect_edge_le hp hchi (h.next n) hj
        · rw [defect_inside hp hchi (h.next n) hj (by omega), norm_zero])
    rw [Finset.sum_range_succ, mul_add]
    linarith only [hs, ih]

/-! ### Convergence -/

/-- The size of the difference of two levels (`old`, `new`) from two others, in units that do not depend on the grid: the square root of
`∫∫ (|∂e/∂r|² + χ |e|² + |∂e/∂t|²) r dr dz`. -/
noncomputable def errorN (p : EnvParams) (chi : ℕ → ℕ → ℝ) (old new old' new' : GridC) : ℝ :=
  √(p.dr ^ 2 * p.dz) * √(levelE p chi (gsub old old') (gsub new new'))

theorem half_sum (n : ℕ) : ∑ k ∈ Finset.range n, ((k : ℝ) + 1 / 2) = (n : ℝ) ^ 2 / 2 := by
  induction n with
  | zero => simp
  | succ n ih => rw [Finset.sum_range_succ, ih]; push_cast; ring

theorem sizeN_le (p : EnvParams) {d : ℕ → ℕ → ℝ} {c e : ℝ} (hc : 0 ≤ c) (he : 0 ≤ e)
    (h : ∀ j < p.nz, ∀ k < p.nr, 0 ≤ d j k ∧ d j k ≤ c + if k + 1 = p.nr then e else 0) :
    sizeN p d ≤ c * (√p.nz * p.nr) + e * √(2 * (p.nz * p.nr)) := by
  have h1 : ∑ j ∈ Finset.range p.nz, ∑ k ∈ Finset.range p.nr, ((k : ℝ) + 1 / 2) * d j k ^ 2 ≤
      (c * (√p.nz * p.nr)) ^ 2 + (e * √(2 * (p.nz * p.nr))) ^ 2 := by
    have hj : ∀ j ∈ Finset.range p.nz, ∑ k ∈ Finset.range p.nr, ((k : ℝ) + 1 / 2) * d j k ^ 2 ≤ c ^ 2 * p.nr ^ 2 + 2 * e ^ 2 * p.nr := by
      intro j hj
      have hk : ∀ k ∈ Finset.range p.nr, ((k : ℝ) + 1 / 2) * d j k ^ 2 ≤
          2 * c ^ 2 * ((k : ℝ) + 1 / 2) + if k = p.nr - 1 then 2 * e ^ 2 * p.nr else 0 := by
        intro k hk
        have hk' := Finset.mem_range.mp hk
        obtain ⟨a1, a2⟩ := h j (Finset.mem_range.mp hj) k hk'
        have hk0 : (0 : ℝ) ≤ k := Nat.cast_nonneg k
        by_cases hl : k + 1 = p.nr
        · rw [if_pos hl] at a2
          rw [if_pos (by omega)]
          have a3 : d j k ^ 2 ≤ (c + e) ^ 2 := pow_le_pow_left₀ a1 a2 2
          have a4 : (k : ℝ) + 1 / 2 ≤ p.nr := by
            have : (k : ℝ) + 1 = p.nr := by exact_mod_cast hl
            linarith
          have a5 : (c + e) ^ 2 ≤ 2 * c ^ 2 + 2 * e ^ 2 := by nlinarith only [sq_nonneg (c - e)]
          have a6 := mul_le_mul_of_nonneg_left (a3.trans a5) (show 0 ≤ (k : ℝ) + 1 / 2 by positivity)
          have a7 := mul_le_mul_of_nonneg_right a4 (show 0 ≤ 2 * e ^ 2 by positivity)
          linarith only [a6, a7]
        · rw [if_neg hl, add_zero] at a2
          rw [if_neg (by omega), add_zero]
          have a3 : d j k ^ 2 ≤ c ^ 2 := pow_le_pow_left₀ a1 a2 2
          have a6 := mul_le_mul_of_nonneg_left a3 (show 0 ≤ (k : ℝ) + 1 / 2 by positivity)
          have a7 : 0 ≤ ((k : ℝ) + 1 / 2) * c ^ 2 := by positivity
          linarith only [a6, a7]
      refine (Finset.sum_le_sum hk).trans ?_
      rw [Finset.sum_add_distrib, ← Finset.mul_sum, half_sum, Finset.sum_ite_eq']
      split_ifs
      · linarith
      · have : 0 ≤ 2 * e ^ 2 * (p.nr : ℝ) := by positivity
        linarith
    refine (Finset.sum_le_sum hj).trans ?_
    rw [Finset.sum_const, Finset.card_range, nsmul_eq_mul, mul_pow, mul_pow, mul_pow, Real.sq_sqrt (Nat.cast_nonneg _), Real.sq_sqrt (by positivity)]
    apply le_of_eq
    ring
  unfold sizeN
  refine (Real.sqrt_le_sqrt h1).trans ?_
  have x0 : 0 ≤ c * (√p.nz * p.nr) := by positivity
  have y0 : 0 ≤ e * √(2 * (p.nz * p.nr)) := by positivity
  generalize c * (√p.nz * p.nr) = x at *
  generalize e * √(2 * (p.nz * p.nr)) = y at *
  rw [Real.sqrt_le_left (by positivity)]
  nlinarith only [x0, y0, mul_nonneg x0 y0]

theorem defect_residual (p : EnvParams) {κ : ℝ} (hκ : p.k0 / p.kp = κ) (chi : ℕ → ℕ → ℝ) (ph : ℕ → ℝ) (old mid new : GridC) (j k : ℕ) :
    defect p chi ph old mid new j k = residual p.nr κ p.dtn p.dz p.dr (chi j k) (p.theta ph j) new mid old j k := by
  unfold defect residual
  rw [← hκ]
  push_cast
  rfl

/-- The last radial point: the solver takes the field beyond as zero. -/
theorem residual_last {n k : ℕ} (hk : k + 1 = n) (κ dt dz : ℝ) {dr : ℝ} (hdr : 0 < dr) (χ : ℝ) (th : ℝ × ℝ) (new cur old : GridC) {j : ℕ} {ε : ℝ}
    (h1 : ‖new j n‖ ≤ ε) (h2 : ‖old j n‖ ≤ ε) :
    ‖residual n κ dt dz dr χ th new cur old j k‖ ≤ ‖residual (n + 1) κ dt dz dr χ th new cur old j k‖ + 2 * ε / dr ^ 2 := by
  set f : RowC := fun k => (new j k + old j k) / 2 with hf
  have e : residual n κ dt dz dr χ th new cur old j k = residual (n + 1) κ dt dz dr χ th new cur old j k - (lapl (n + 1) dr f k - lapl n dr f k) := by
    unfold residual
    dsimp only
    ring
  have hfn : ‖f n‖ ≤ ε := by
    have := norm_add_le (new j n) (old j n)
    rw [hf]
    dsimp only
    rw [norm_div, Complex.norm_ofNat]
    linarith
  have hl : lapl (n + 1) dr f k - lapl n dr f k = (((1 + 1 / (2 * k + 1)) / dr ^ 2 : ℝ) : ℂ) * f n := by
    have hd : (dr : ℂ) ≠ 0 := by exact_mod_cast hdr.ne'
    have hk1 : (2 * (k : ℂ) + 1) ≠ 0 := by exact_mod_cast (by positivity : (2 * (k : ℝ) + 1) ≠ 0)
    have hk2 : ((k : ℂ) + 1 / 2) ≠ 0 := fun h => hk1 (by linear_combination 2 * h)
    unfold lapl
    dsimp only
    rw [hk, if_pos (Nat.lt_succ_self n), if_neg (lt_irrefl n)]
    push_cast
    field_simp
    ring
  rw [e]
  refine (norm_sub_le _ _).trans (add_le_add_right ?_ _)
  rw [hl, norm_mul, Complex.norm_real, Real.norm_eq_abs, abs_of_nonneg (by positivity)]
  have hc : (1 + 1 / (2 * (k : ℝ) + 1)) ≤ 2 := by
    have : 1 / (2 * (k : ℝ) + 1) ≤ 1 := by
      rw [div_le_one (by positivity)]
      have : (0 : ℝ) ≤ k := Nat.cast_nonneg k
      linarith
    linarith
  calc (1 + 1 / (2 * (k : ℝ) + 1)) / dr ^ 2 * ‖f n‖ ≤ 2 / dr ^ 2 * ε :=
        mul_le_mul (div_le_div_of_nonneg_right hc (by positivity)) hfn (norm_nonneg _) (by positivity)
    _ = 2 * ε / dr ^ 2 := by ring

/-- A grid and a time span within the region in which the field is known. -/
structure Covers (t0 t1 z0 z1 R t zmin : ℝ) (p : EnvParams) : Prop where
  first : t0 ≤ t
  last : t + (p.nt + 1) * p.dtn ≤ t1
  left : z0 ≤ zmin
  right : zmin + (p.nz + 1) * p.dz ≤ z1
  radius : (p.nr + 1 / 2) * p.dr ≤ R

/-- **C178, partial.** Let `A` be a smooth solution of the envelope equation that vanishes in front of the box.  The pulse computed without use of the phase, from two levels
close to `A`, differs from `A` after any number of steps at most by the initial difference and terms of second order in the steps, and terms of the size `ε` of both fields at the edge of the
grid.  Missing: the computed values at the edge are not bounded by themselves (C48, C176); use of the phase. -/
theorem laser_converges_partial {A : ℝ → ℝ → ℝ → ℂ} (hA : Smooth A) (heven : ∀ t z r, A t z (-r) = A t z r) (κ X t0 t1 z0 z1 R : ℝ) :
    ∃ K δ : ℝ, 0 ≤ K ∧ 0 < δ ∧ ∀ (p : EnvParams) (chi : ℕ → ℕ → ℝ) (t zmin ε : ℝ) (a aOld : GridC), p.Ok → p.usePhase = false → p.k0 / p.kp = κ →
      (∀ j k, 0 ≤ chi j k ∧ chi j k ≤ X) → p.dz < δ → Covers t0 t1 z0 z1 R t zmin p → 0 ≤ ε →
      (∀ n j k : ℕ, 0 < n → n ≤ p.nt → j < p.nz → k < p.nr → Envelope κ (chi j k) A (t + n * p.dtn) (zmin + j * p.dz) ((k + 1 / 2) * p.dr)) →
      (∀ s z r, zmin + p.nz * p.dz ≤ z → A s z r = 0) →
      (∀ n j : ℕ, n ≤ p.nt + 1 → j < p.nz → ‖A (t + n * p.dtn) (zmin + j * p.dz) ((p.nr + 1 / 2) * p.dr)‖ ≤ ε) →
      (∀ i, p.nz ≤ i → a i = 0 ∧ aOld i = 0) →
      ∃ lev : ℕ → GridC, lev 0 = aOld ∧ lev 1 = a ∧
        (∀ i < p.nz, (p.evolve true chi (a, aOld)).1 i = lev (p.nt + 1) i ∧ (p.evolve true chi (a, aOld)).2 i = lev p.nt i) ∧
        ((∀ n j : ℕ, n ≤ p.nt + 1 → j < p.nz → ‖lev n j (p.nr - 2)‖ ≤ ε ∧ ‖lev n j (p.nr - 1)‖ ≤ ε) →
          errorN p chi (lev p.nt) (lev (p.nt + 1)) (onGrid A (t + p.nt * p.dtn) zmin p.dz p.dr) (onGrid A (t + (p.nt + 1) * p.dtn) zmin p.dz p.dr) ≤
            errorN p chi aOld a (onGrid A t zmin p.dz p.dr) (onGrid A (t + p.dtn) zmin p.dz p.dr) +
              K * (p.dtn ^ 2 + p.dz ^ 2 + p.dr ^ 2 + ε / (p.dr * √p.dr))) := by
  have hΦ : Smooth (fun _ _ _ => (0 : ℝ)) := contDiff_const
  obtain ⟨K0, δ, hδ, hK⟩ := scheme_consistent hA heven hΦ false κ X t0 t1 z0 z1 R (fun h => by cases h)
  refine ⟨|t1 - t0| * (|K0| * (√|z1 - z0| * |R|) + 4 * √(2 * (|z1 - z0| * |R|))), δ, by positivity, hδ, ?_⟩
  intro p chi t zmin ε a aOld hp hu hκ hchi hdz hcov hε henv hfront hedge h0
  obtain ⟨hz, hr, ht⟩ := hp.pos
  have hnr := hp.nr
  obtain ⟨lev, l0, l1, l2, l3⟩ := laser_error hp (fun j k => (hchi j k).1) a aOld h0
  refine ⟨lev, l0, l1, l2, fun hcomp => ?_⟩
  set B : ℕ → GridC := fun n => onGrid A (t + n * p.dtn) zmin p.dz p.dr with hB
  have hBz : ∀ n i, p.nz ≤ i → B n i = 0 := by
    intro n i hi
    funext k
    refine hfront _ _ _ ?_
    have : (p.nz : ℝ) ≤ i := by exact_mod_cast hi
    nlinarith
  have hmain := l3 B hBz p.nt
  set H := p.dtn ^ 2 + p.dz ^ 2 + p.dr ^ 2 with hH
  have hH0 : 0 ≤ H := by positivity
  -- the defects of the exact field
  have hnt0 : (0 : ℝ) ≤ p.nt := Nat.cast_nonneg _
  have hnz0 : (0 : ℝ) ≤ p.nz := Nat.cast_nonneg _
  have hnr0 : (0 : ℝ) ≤ p.nr := Nat.cast_nonneg _
  have hdef : ∀ m < p.nt, ∀ j < p.nz, ∀ k < p.nr, ∀ ph, ‖defect p chi ph (B m) (B (m + 1)) (B (m + 2)) j k‖ ≤
      |K0| * H + if k + 1 = p.nr then 2 * ε / p.dr ^ 2 else 0 := by
    intro m hm j hj k hk ph
    have hth : p.theta ph j = (0, 0) := by unfold EnvParams.theta; rw [hu]; rfl
    rw [defect_residual p hκ, hth]
    have c1 : (m : ℝ) + 1 ≤ p.nt := by exact_mod_cast hm
    have c2 : (j : ℝ) + 1 ≤ p.nz := by exact_mod_cast hj
    have c3 : (k : ℝ) + 1 ≤ p.nr := by exact_mod_cast hk
    have c4 : (0 : ℝ) ≤ m := Nat.cast_nonneg m
    have c5 : (0 : ℝ) ≤ j := Nat.cast_nonneg j
    have hin : ∀ N, k + 1 < N → Inside t0 t1 z0 z1 R (t + (m + 1 : ℕ) * p.dtn) p.dtn zmin p.dz p.dr N j k := by
      intro N hN
      refine ⟨ht, hz, hr, ?_, ?_, ?_, ?_, hN, ?_⟩
      · have := hcov.first; push_cast; nlinarith
      · have := hcov.last; push_cast; nlinarith
      · have := hcov.left; nlinarith
      · have := hcov.right; nlinarith
      · have := hcov.radius; nlinarith
    have hcons : ∀ N, k + 1 < N → ‖residual N κ p.dtn p.dz p.dr (chi j k) (0, 0) (B (m + 2)) (B (m + 1)) (B m) j k‖ ≤ |K0| * H := by
      intro N hN
      have := hK (t + (m + 1 : ℕ) * p.dtn) p.dtn zmin p.dz p.dr (chi j k) N j k (0, 0) (hin N hN) hdz
        (by rw [abs_of_nonneg (hchi j k).1]; exact (hchi j k).2) (henv (m + 1) j k (by omega) (by omega) hj hk) (fun h => by cases h) rfl
      have e1 : t + (m + 1 : ℕ) * p.dtn + p.dtn = t + (m + 2 : ℕ) * p.dtn := by push_cast; ring
      have e2 : t + (m + 1 : ℕ) * p.dtn - p.dtn = t + m * p.dtn := by push_cast; ring
      rw [e1, e2] at this
      exact this.trans (mul_le_mul_of_nonneg_right (le_abs_self K0) hH0)
    by_cases hl : k + 1 = p.nr
    · rw [if_pos hl]
      have hb : ∀ n ≤ p.nt + 1, ‖B n j p.nr‖ ≤ ε := fun n hn => hedge n j hn hj
      refine (residual_last hl κ p.dtn p.dz hr (chi j k) (0, 0) (B (m + 2)) (B (m + 1)) (B m) (hb _ (by omega)) (hb _ (by omega))).trans ?_
      exact add_le_add_left (hcons (p.nr + 1) (by omega)) _
    · rw [if_neg hl, add_zero]
      exact hcons p.nr (by omega)
  have he0 : 0 ≤ 2 * ε / p.dr ^ 2 := by positivity
  have hstep : ∀ m ∈ Finset.range p.nt, sizeN p (edgeN p (lev (m + 2))) +
      sizeN p (fun j k => ‖defect p chi (EnvParams.phases (lev (m + 1))) (B m) (B (m + 1)) (B (m + 2)) j k‖) ≤
      |K0| * H * (√p.nz * p.nr) + 2 * (2 * ε / p.dr ^ 2 * √(2 * (p.nz * p.nr))) := by
    intro m hm
    have hm := Finset.mem_range.mp hm
    have s1 := sizeN_le p (d := edgeN p (lev (m + 2))) (c := 0) (e := 2 * ε / p.dr ^ 2) le_rfl he0 (by
      intro j hj k hk
      unfold edgeN
      have hR : (3 : ℝ) ≤ p.nr := by exact_mod_cast hnr
      have d1 : 1 ≤ (2 * (p.nr : ℝ) - 1) * (2 * p.nr - 3) := by nlinarith
      obtain ⟨b1, b2⟩ := hcomp (m + 2) j (by omega) hj
      split_ifs
      · unfold edgeBound
        refine ⟨by positivity, ?_⟩
        rw [zero_add]
        refine div_le_div_of_nonneg_right ?_ (by positivity)
        have : ‖lev (m + 2) j (p.nr - 2)‖ / ((2 * p.nr - 1) * (2 * p.nr - 3)) ≤ ‖lev (m + 2) j (p.nr - 2)‖ := div_le_self (norm_nonneg _) d1
        linarith
      · exact ⟨le_rfl, by norm_num⟩)
    have s2 := sizeN_le p (d := fun j k => ‖defect p chi (EnvParams.phases (lev (m + 1))) (B m) (B (m + 1)) (B (m + 2)) j k‖) (c := |K0| * H)
      (e := 2 * ε / p.dr ^ 2) (by positivity) he0 (fun j hj k hk => ⟨norm_nonneg _, hdef m hm j hj k hk _⟩)
    rw [zero_mul, zero_add] at s1
    linarith only [s1, s2]
  have hsum := Finset.sum_le_sum hstep
  rw [Finset.sum_const, Finset.card_range, nsmul_eq_mul] at hsum
  -- units
  set S := √(p.dr ^ 2 * p.dz) with hS
  have hS0 : 0 ≤ S := Real.sqrt_nonneg _
  have hS1 : S = p.dr * √p.dz := by rw [hS, Real.sqrt_mul (by positivity), Real.sqrt_sq hr.le]
  have hzz : p.nz * p.dz ≤ |z1 - z0| := by
    refine le_trans ?_ (le_abs_self _)
    have := hcov.left
    have := hcov.right
    linarith
  have hrr : p.nr * p.dr ≤ |R| := by
    refine le_trans ?_ (le_abs_self _)
    have := hcov.radius
    linarith
  have htt : p.nt * p.dtn ≤ |t1 - t0| := by
    refine le_trans ?_ (le_abs_self _)
    have := hcov.first
    have := hcov.last
    linarith
  have u1 : S * (√p.nz * p.nr) ≤ √|z1 - z0| * |R| := by
    rw [hS1, show p.dr * √p.dz * (√p.nz * p.nr) = (√p.nz * √p.dz) * (p.nr * p.dr) by ring, ← Real.sqrt_mul hnz0]
    exact mul_le_mul (Real.sqrt_le_sqrt hzz) hrr (by positivity) (by positivity)
  have u2 : S * (2 * ε / p.dr ^ 2 * √(2 * (p.nz * p.nr))) ≤ 2 * √(2 * (|z1 - z0| * |R|)) * (ε / (p.dr * √p.dr)) := by
    have hq : √p.dr * √p.dr = p.dr := Real.mul_self_sqrt hr.le
    have hqp : 0 < √p.dr := Real.sqrt_pos.mpr hr
    have e1 : √(2 * (p.nz * p.dz * (p.nr * p.dr))) = √(2 * (p.nz * p.nr)) * √p.dz * √p.dr := by
      rw [← Real.sqrt_mul (by positivity), ← Real.sqrt_mul (by positivity)]
      congr 1
      ring
    have e2 : S * (2 * ε / p.dr ^ 2 * √(2 * (p.nz * p.nr))) = 2 * √(2 * (p.nz * p.dz * (p.nr * p.dr))) * (ε / (p.dr * √p.dr)) := by
      rw [e1, hS1]
      field_simp
    rw [e2]
    refine mul_le_mul_of_nonneg_right (mul_le_mul_of_nonneg_left (Real.sqrt_le_sqrt ?_) (by norm_num)) (by positivity)
    exact mul_le_mul_of_nonneg_left (mul_le_mul hzz hrr (by positivity) (by positivity)) (by norm_num)
  have hm1 := hmain.trans (add_le_add (le_refl (√(levelE p chi (gsub aOld (B 0)) (gsub a (B 1))))) (mul_le_mul_of_nonneg_left hsum ht.le))
  have hm2 := mul_le_mul_of_nonneg_left hm1 hS0
  have eB : B (p.nt + 1) = onGrid A (t + (p.nt + 1) * p.dtn) zmin p.dz p.dr := by rw [hB]; push_cast; rfl
  have eB0 : B 0 = onGrid A t zmin p.dz p.dr := by rw [hB]; simp
  have eB1 : B 1 = onGrid A (t + p.dtn) zmin p.dz p.dr := by rw [hB]; simp
  rw [eB, eB0, eB1] at hm2
  unfold errorN
  refine hm2.trans ?_
  rw [mul_add]
  refine add_le_add (le_refl _) ?_
  have q1 : 0 ≤ |K0| * H := by positivity
  have q2 : 0 ≤ ε / (p.dr * √p.dr) := by positivity
  have v1 := mul_le_mul_of_nonneg_left u1 q1
  have v2 : S * (|K0| * H * (√p.nz * p.nr) + 2 * (2 * ε / p.dr ^ 2 * √(2 * (p.nz * p.nr)))) ≤
      |K0| * H * (√|z1 - z0| * |R|) + 4 * √(2 * (|z1 - z0| * |R|)) * (ε / (p.dr * √p.dr)) := by linarith only [v1, u2]
  have v3 : S * (p.dtn * (p.nt * (|K0| * H * (√p.nz * p.nr) + 2 * (2 * ε / p.dr ^ 2 * √(2 * (p.nz * p.nr)))))) ≤
      |t1 - t0| * (|K0| * H * (√|z1 - z0| * |R|) + 4 * √(2 * (|z1 - z0| * |R|)) * (ε / (p.dr * √p.dr))) := by
    rw [show ∀ Y : ℝ, S * (p.dtn * (p.nt * Y)) = (p.nt * p.dtn) * (S * Y) from fun Y => by ring]
    exact mul_le_mul htt v2 (by positivity) (by positivity)
  refine v3.trans ?_
  rw [mul_assoc |t1 - t0|]
  refine mul_le_mul_of_nonneg_left ?_ (abs_nonneg (t1 - t0))
  have w1 : 0 ≤ |K0| * (√|z1 - z0| * |R|) := by positivity
  have w2 : 0 ≤ 4 * √(2 * (|z1 - z0| * |R|)) := by positivity
  nlinarith only [mul_nonneg w1 q2, mul_nonneg w2 hH0]

/-- A pulse with a front, that does not depend on the radius, solves the equation in vacuum, and the coarse grid of C176 meets the other conditions. -/
example : ∃ A : ℝ → ℝ → ℝ → ℂ, Smooth A ∧ (∀ t z r, A t z (-r) = A t z r) ∧ (∀ κ t z r, Envelope κ 0 A t z r) ∧
    (∀ s z r, -2 + (coarse 5).nz * (coarse 5).dz ≤ z → A s z r = 0) ∧ A 0 (-1) 0 = 1 ∧ (coarse 5).Ok ∧ (coarse 5).usePhase = false ∧
    Covers 0 600 (-2) 1 4 0 (-2) (coarse 5) ∧ ∀ t z r, ‖A t z r‖ ≤ 1 := by
  have hdz : (coarse 5).dz = 1 := by norm_num [coarse, EnvParams.dz]
  have hdr : (coarse 5).dr = 1 := by norm_num [coarse, EnvParams.dr]
  have hdt : (coarse 5).dtn = 100 := by norm_num [coarse, EnvParams.dtn]
  have hnz : ((coarse 5).nz : ℝ) = 2 := by norm_num [coarse]
  have hnr : ((coarse 5).nr : ℝ) = 3 := by norm_num [coarse]
  have hnt : ((coarse 5).nt : ℝ) = 5 := by norm_num [coarse]
  refine ⟨fun _ z _ => (Real.smoothTransition (-z) : ℂ), ?_, fun _ _ _ => rfl, fun κ t z r => ?_, fun s z r hz => ?_, ?_, coarse_ok 5, rfl,
    ⟨le_rfl, ?_, le_rfl, ?_, ?_⟩, fun t z r => ?_⟩
  · exact Complex.ofRealCLM.contDiff.comp (Real.smoothTransition.contDiff.comp (contDiff_fst.comp contDiff_snd).neg)
  · unfold Envelope
    simp [dT, dR, dZ]
  · rw [hdz, hnz] at hz
    dsimp only
    rw [Real.smoothTransition.zero_of_nonpos (by linarith), Complex.ofReal_zero]
  · norm_num [Real.smoothTransition.one]
  · rw [hdt, hnt]; norm_num
  · rw [hdz, hnz]; norm_num
  · rw [hdr, hnr]; norm_num
  · rw [Complex.norm_real, Real.norm_eq_abs, abs_of_nonneg (Real.smoothTransition.nonneg _)]
    exact Real.smoothTransition.le_one _

end WakeT.Laser
