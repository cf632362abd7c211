import Verif.Laser.Stability
import Mathlib.Analysis.Normed.Unbundled.RingSeminorm
import Mathlib.LinearAlgebra.Matrix.AbsoluteValue
import Mathlib.Data.Matrix.ColumnRowPartitioned
import Mathlib.LinearAlgebra.Matrix.Determinant.Basic
import Mathlib.LinearAlgebra.Matrix.Notation

/-! # An instability of the laser solver (C176)

With the last equation as the tridiagonal solver treats it (C48), the front slice of a pulse can grow without limit. -/

set_option linter.unusedSectionVars false

namespace WakeT.Laser

open Complex (I)
open Matrix

/-- A grid of two by three points with unit spacing and `k0 = 50 kp`; a step of `100 / (c kp)`. -/
noncomputable def coarse (nt : ℕ) : EnvParams := ⟨1, 50, 1, 0, 1, 2, 3, 3, 100, nt, false⟩

theorem coarse_ok (nt : ℕ) : (coarse nt).Ok := by
  constructor <;> norm_num [coarse]

/-- The main diagonal for the new level. -/
noncomputable def cB : ℂ := -10151 / 10000 + I / 2
/-- The main diagonal for the old level. -/
noncomputable def cC : ℂ := -9851 / 10000 - I / 2

theorem coarse_numbers (nt : ℕ) (th : ℝ × ℝ) (hth : th = (0, 0)) :
    (∀ j k, (coarse nt).dMain (fun _ _ => 0) th j k = cB) ∧ (coarse nt).cMinus = cC ∧ (coarse nt).dLower 0 = 1 / 3 ∧ (coarse nt).dLower 1 = 2 / 5 ∧
    (coarse nt).dUpper 0 = 1 ∧ (coarse nt).dUpper 1 = 2 / 3 ∧ (coarse nt).invDt = 1 / 100 := by
  subst hth
  have h1 : (coarse nt).invDt = 1 / 100 := by norm_num [coarse, EnvParams.invDt, EnvParams.dtn]
  have h2 : (coarse nt).invDr = 1 := by norm_num [coarse, EnvParams.invDr, EnvParams.dr]
  have h3 : (coarse nt).invDzdt = 1 / 100 := by
    unfold EnvParams.invDzdt; rw [h1]; norm_num [coarse, EnvParams.invDz, EnvParams.dz]
  have h4 : (coarse nt).k0 = 50 := rfl
  have h5 : (coarse nt).kp = 1 := rfl
  refine ⟨fun j k => ?_, ?_, ?_, ?_, ?_, ?_, h1⟩
  · unfold EnvParams.dMain EnvParams.cPlus EnvParams.bigD cB
    rw [h1, h2, h3, h4, h5]
    push_cast
    norm_num
    ring
  · unfold EnvParams.cMinus cC
    rw [h1, h2, h3, h4, h5]
    push_cast
    norm_num
    ring
  · unfold EnvParams.dLower EnvParams.lMinus; rw [h2]; norm_num
  · unfold EnvParams.dLower EnvParams.lMinus; rw [h2]; norm_num
  · unfold EnvParams.dUpper EnvParams.lPlus; rw [h2]; norm_num
  · unfold EnvParams.dUpper EnvParams.lPlus; rw [h2]; norm_num

theorem cB_ne : cB ≠ 0 := by
  intro h
  have := congrArg Complex.re h
  simp [cB] at this

theorem cB_ne' : cB ^ 2 - 1 / 3 ≠ 0 := by
  intro h
  have := congrArg Complex.im h
  simp [cB, pow_two] at this
  norm_num at this

/-- The entry of the last row of the matrix of the new level. -/
noncomputable def cE : ℂ := cB + 1 / 3 * (2 / 3 * (1 / (cB - 1 / 3 * (1 / cB))) - 1 / cB)

/-- The matrix that the solver inverts. -/
noncomputable def mA : Matrix (Fin 3) (Fin 3) ℂ := !![cB, 1, 0; 1 / 3, cB, 2 / 3; 0, 1 / 3, cE]

/-- The matrix of the old level. -/
noncomputable def mC : Matrix (Fin 3) (Fin 3) ℂ := !![cC, 1, 0; 1 / 3, cC, 2 / 3; 0, 2 / 5, cC]

theorem det_mA : mA.det = (cB ^ 2 - 1 / 3) ^ 2 / cB := by
  have h1 := cB_ne
  have h2 := cB_ne'
  have h3 : cB - 1 / 3 * (1 / cB) = (cB ^ 2 - 1 / 3) / cB := by field_simp
  have h4 : (-1 + cB ^ 2 * 3) ≠ 0 := fun h => h2 (by linear_combination h / 3)
  have h5 : cE = cB + 1 / 3 * (2 * cB / (-1 + cB ^ 2 * 3) - 1 / cB) := by
    unfold cE
    rw [h3, show cB ^ 2 - 1 / 3 = (-1 + cB ^ 2 * 3) / 3 by ring]
    field_simp
  unfold mA
  rw [h5, Matrix.det_fin_three]
  simp
  field_simp
  ring

theorem det_mC : mC.det = cC * (cC ^ 2 - 3 / 5) := by
  unfold mC
  rw [Matrix.det_fin_three]
  simp
  ring

theorem det_grows : ‖mA.det‖ < ‖mC.det‖ := by
  have h1 : 0 < ‖cB‖ := norm_pos_iff.mpr cB_ne
  rw [det_mA, det_mC, norm_div, norm_pow, norm_mul, div_lt_iff₀ h1]
  have n1 : ‖cB ^ 2 - 1 / 3‖ ^ 2 = (cB ^ 2 - 1 / 3).re * (cB ^ 2 - 1 / 3).re + (cB ^ 2 - 1 / 3).im * (cB ^ 2 - 1 / 3).im := by
    rw [← Complex.normSq_eq_norm_sq, Complex.normSq_apply]
  have n2 : ‖cC ^ 2 - 3 / 5‖ ^ 2 = (cC ^ 2 - 3 / 5).re * (cC ^ 2 - 3 / 5).re + (cC ^ 2 - 3 / 5).im * (cC ^ 2 - 3 / 5).im := by
    rw [← Complex.normSq_eq_norm_sq, Complex.normSq_apply]
  have n3 : ‖cB‖ ^ 2 = cB.re * cB.re + cB.im * cB.im := by
    rw [← Complex.normSq_eq_norm_sq, Complex.normSq_apply]
  have n4 : ‖cC‖ ^ 2 = cC.re * cC.re + cC.im * cC.im := by
    rw [← Complex.normSq_eq_norm_sq, Complex.normSq_apply]
  refine lt_of_pow_lt_pow_left₀ 2 (by positivity) ?_
  rw [mul_pow, mul_pow, n1, n2, n3, n4]
  norm_num [cB, cC, pow_two]

/-- The conditions of `laser_energy_partial` on this grid. -/
example : ∃ a aOld : GridC, (∀ i, (coarse 5).nz ≤ i → a i = 0 ∧ aOld i = 0) ∧ a 1 2 = 1 ∧ aOld 0 0 = 1 ∧ (coarse 5).Ok := by
  refine ⟨fun j _ => if j < 2 then 1 else 0, fun j _ => if j < 2 then 1 else 0, fun i hi => ?_, by norm_num, by norm_num, coarse_ok 5⟩
  have : ¬ i < 2 := not_lt.mpr hi
  constructor <;> funext k <;> simp [this]

/-! ### The front slice -/

theorem coarse_step {nt : ℕ} {old mid new : GridC} {ph : ℕ → ℝ} (h : NewLevel ((coarse nt).row true (fun _ _ => 0) ph) 2 mid old new)
    (h2 : old 2 = 0) (h3 : old 3 = 0) :
    cB * new 1 0 + new 1 1 = -(2 / 10000 * mid 1 0) - (cC * old 1 0 + old 1 1) ∧
    1 / 3 * new 1 0 + cB * new 1 1 + 2 / 3 * new 1 2 = -(2 / 10000 * mid 1 1) - (1 / 3 * old 1 0 + cC * old 1 1 + 2 / 3 * old 1 2) ∧
    1 / 3 * new 1 1 + cE * new 1 2 = -(2 / 10000 * mid 1 2) - (2 / 5 * old 1 1 + cC * old 1 2) := by
  set p := coarse nt with hp
  have hth : p.theta ph 1 = (0, 0) := rfl
  obtain ⟨c1, c2, c3, c4, c5, c6, c7⟩ := coarse_numbers nt (p.theta ph 1) hth
  rw [← hp] at c1 c2 c3 c4 c5 c6 c7
  have hpiv := (envelope_pivots (chi := fun _ _ => 0) (coarse_ok nt) (fun _ _ => le_rfl) (p.theta ph 1) 1).1
  have hnew := h.inside 1 (by norm_num)
  unfold EnvParams.row at hnew
  dsimp only at hnew
  rw [if_pos rfl, h.outside 2 le_rfl, h.outside (1 + 2) (by norm_num)] at hnew
  set d := p.rhs (fun _ _ => 0) (p.theta ph 1) mid old 0 0 1 with hd
  have hnr : p.nr = 3 := rfl
  rw [hnr] at hnew
  have r0 := tdma_partial d hpiv (i := 0) (by rw [← hp, hnr]; norm_num)
  have r1 := tdma_partial d hpiv (i := 1) (by rw [← hp, hnr]; norm_num)
  have r2 := tdma_last (by rw [← hp, hnr]) d hpiv
  rw [← hp, hnr] at r0 r1 r2
  rw [← hnew] at r0 r1 r2
  have hl0 : (p.lMinus 1 : ℂ) = 1 / 3 := c3
  have hl1 : (p.lMinus 2 : ℂ) = 2 / 5 := c4
  have hu0 : (p.lPlus 0 : ℂ) = 1 := c5
  have hu1 : (p.lPlus 1 : ℂ) = 2 / 3 := c6
  have hbig : p.bigD (p.theta ph 1) = 0 := by rw [hth]; simp [EnvParams.bigD]
  have e2 : ∀ k, old (1 + 1) k = 0 := fun k => by rw [h2]; rfl
  have e3 : ∀ k, old (1 + 2) k = 0 := fun k => by rw [h3]; rfl
  have d0 : d 0 = -(2 / 10000 * mid 1 0) - (cC * old 1 0 + old 1 1) := by
    rw [hd]; unfold EnvParams.rhs; rw [c2, c7, hbig, e2, e3, hnr]
    norm_num [hu0]; ring
  have d1 : d 1 = -(2 / 10000 * mid 1 1) - (1 / 3 * old 1 0 + cC * old 1 1 + 2 / 3 * old 1 2) := by
    rw [hd]; unfold EnvParams.rhs; rw [c2, c7, hbig, e2, e3, hnr]
    norm_num [hu1, hl0]; ring
  have d2 : d 2 = -(2 / 10000 * mid 1 2) - (2 / 5 * old 1 1 + cC * old 1 2) := by
    rw [hd]; unfold EnvParams.rhs; rw [c2, c7, hbig, e2, e3, hnr]
    norm_num [hl1]; ring
  unfold Row at r0 r1
  norm_num [c1, c3, c5, c6] at r0 r1
  norm_num [tdmaW, c1, c3, c5, c6] at r2
  rw [d0] at r0
  rw [d1] at r1
  rw [d2] at r2
  refine ⟨r0, ?_, ?_⟩
  · rw [← r1]
  · rw [← r2]; unfold cE; norm_num; ring

/-- The six pulses with a single non-zero value in the front slice, in the current or in the previous level. -/
noncomputable def single (s : Fin 3 ⊕ Fin 3) : GridC × GridC :=
  match s with
  | Sum.inl i => (0, fun j k => if j = 1 ∧ k = i then 1 else 0)
  | Sum.inr i => (fun j k => if j = 1 ∧ k = i then 1 else 0, 0)

theorem swap_norm : ‖(fromBlocks (0 : Matrix (Fin 3) (Fin 3) ℂ) 1 1 (0 : Matrix (Fin 3) (Fin 3) ℂ)).det‖ = 1 := by
  have h : (fromBlocks (0 : Matrix (Fin 3) (Fin 3) ℂ) 1 1 (0 : Matrix (Fin 3) (Fin 3) ℂ)) * (fromBlocks (0 : Matrix (Fin 3) (Fin 3) ℂ) 1 1 (0 : Matrix (Fin 3) (Fin 3) ℂ)) = 1 := by
    rw [fromBlocks_multiply]
    simp
  have h1 := congrArg (fun m => ‖Matrix.det m‖) h
  simp only [det_mul, det_one, norm_mul, norm_one] at h1
  have h2 := norm_nonneg (fromBlocks (0 : Matrix (Fin 3) (Fin 3) ℂ) 1 1 (0 : Matrix (Fin 3) (Fin 3) ℂ)).det
  nlinarith

theorem companion_norm (C D : Matrix (Fin 3) (Fin 3) ℂ) : ‖(fromBlocks (0 : Matrix (Fin 3) (Fin 3) ℂ) 1 (-C) D).det‖ = ‖C.det‖ := by
  have h : fromBlocks (0 : Matrix (Fin 3) (Fin 3) ℂ) 1 (-C) D * fromBlocks (0 : Matrix (Fin 3) (Fin 3) ℂ) 1 1 (0 : Matrix (Fin 3) (Fin 3) ℂ) = fromBlocks 1 0 D (-C) := by
    rw [fromBlocks_multiply]
    simp
  have h1 := congrArg (fun m => ‖Matrix.det m‖) h
  simp only [det_mul, norm_mul, swap_norm, mul_one, det_fromBlocks_zero₁₂, det_one, one_mul] at h1
  rw [h1, det_neg, norm_mul, norm_pow, norm_neg, norm_one, one_pow, one_mul]

/-- **C176, the violation.** On a coarse grid the front slice of a pulse grows beyond every bound as the centred solver repeats its step, in vacuum. -/
theorem laser_unstable_violated : ∃ a aOld : GridC, (∀ i, 2 ≤ i → a i = 0 ∧ aOld i = 0) ∧
    ∀ M : ℝ, ∃ nt, ∃ k < 3, M < ‖((coarse nt).evolve true (fun _ _ => 0) (a, aOld)).1 1 k‖ := by
  by_contra hno
  have hz : ∀ s i, 2 ≤ i → (single s).1 i = 0 ∧ (single s).2 i = 0 := by
    rintro (s | s) i hi <;> refine ⟨?_, ?_⟩ <;> funext k <;> simp [single] <;> omega
  choose lev hlev using fun s => (levels_exist (coarse 0) true (fun _ _ => 0) (single s).1 (single s).2).exists
  have hlev' : ∀ s nt, Levels (coarse nt) true (fun _ _ => 0) (single s).2 (single s).1 (lev s) :=
    fun s nt => ⟨(hlev s).zero, (hlev s).one, (hlev s).next⟩
  have hzero : ∀ s n i, 2 ≤ i → lev s n i = 0 := by
    intro s n i hi
    match n with
    | 0 => rw [(hlev s).zero]; exact (hz s i hi).2
    | 1 => rw [(hlev s).one]; exact (hz s i hi).1
    | n + 2 => exact ((hlev s).next n).outside i hi
  -- the bound
  have hb : ∀ s, ∃ M : ℝ, ∀ n, ∀ k < 3, ‖lev s (n + 1) 1 k‖ ≤ M := by
    intro s
    by_contra hs
    push Not at hs
    refine hno ⟨(single s).1, (single s).2, hz s, fun M => ?_⟩
    obtain ⟨n, k, hk, h⟩ := hs M
    refine ⟨n, k, hk, ?_⟩
    have := (evolve_two_level (coarse n) true (fun _ _ => 0) (single s).1 (single s).2 (lev s) (hlev' s n)).1 1 (by norm_num [coarse])
    rw [this]
    exact h
  choose M hM using hb
  -- the six solutions as one matrix
  let X : ℕ → Matrix (Fin 3) (Fin 3 ⊕ Fin 3) ℂ := fun n => Matrix.of fun k s => lev s n 1 k
  let U : ℕ → Matrix (Fin 3 ⊕ Fin 3) (Fin 3 ⊕ Fin 3) ℂ := fun n => fromRows (X n) (X (n + 1))
  have hX : ∀ n, mA * X (n + 2) = -((2 / 10000 : ℂ) • X (n + 1)) - mC * X n := by
    intro n
    ext k s
    obtain ⟨e0, e1, e2⟩ := coarse_step ((hlev s).next n) (hzero s n 2 le_rfl) (hzero s n 3 (by norm_num))
    fin_cases k
    · simp [Matrix.mul_apply, Fin.sum_univ_three, mA, mC, X, Matrix.vecHead, Matrix.vecTail]
      linear_combination e0
    · simp [Matrix.mul_apply, Fin.sum_univ_three, mA, mC, X, Matrix.vecHead, Matrix.vecTail]
      linear_combination e1
    · simp [Matrix.mul_apply, Fin.sum_univ_three, mA, mC, X, Matrix.vecHead, Matrix.vecTail]
      linear_combination e2
  have hU0 : U 0 = 1 := by
    ext k s
    rcases k with k | k <;> rcases s with s | s
    all_goals simp [U, X, (hlev _).zero, (hlev _).one, single, Matrix.one_apply, Fin.ext_iff]
  have hU : ∀ n, fromBlocks 1 0 0 mA * U (n + 1) = fromBlocks 0 1 (-mC) (-((2 / 10000 : ℂ) • 1)) * U n := by
    intro n
    dsimp only [U]
    rw [fromBlocks_mul_fromRows, fromBlocks_mul_fromRows]
    congr 1
    · simp
    · rw [Matrix.zero_mul, zero_add, hX n]
      simp
      abel
  have hA : 0 < ‖mA.det‖ := by
    rw [det_mA]
    exact norm_pos_iff.mpr (div_ne_zero (pow_ne_zero _ cB_ne') cB_ne)
  have hdet : ∀ n, ‖(U n).det‖ = (‖mC.det‖ / ‖mA.det‖) ^ n := by
    intro n
    induction n with
    | zero => rw [hU0, det_one, norm_one, pow_zero]
    | succ n ih =>
      have h1 := congrArg (fun m => ‖Matrix.det m‖) (hU n)
      simp only [det_mul, norm_mul, companion_norm, det_fromBlocks_zero₁₂, det_one, one_mul, ih] at h1
      rw [pow_succ]
      field_simp
      field_simp at h1
      linarith
  -- a bounded matrix has a bounded determinant
  set S := ∑ s, |M s| with hS
  have hbd : ∀ n i j, ‖U (n + 1) i j‖ ≤ S := by
    intro n i s
    have h1 : |M s| ≤ S := Finset.single_le_sum (f := fun s => |M s|) (fun _ _ => abs_nonneg _) (Finset.mem_univ s)
    refine le_trans ?_ ((le_abs_self _).trans h1)
    rcases i with i | i
    · exact hM s n i i.2
    · exact hM s (n + 1) i i.2
  have hd : ∀ n, ‖(U (n + 1)).det‖ ≤ (Fintype.card (Fin 3 ⊕ Fin 3)).factorial • S ^ Fintype.card (Fin 3 ⊕ Fin 3) :=
    fun n => Matrix.det_le (abv := NormedField.toAbsoluteValue ℂ) (hbd n)
  have hrho : 1 < ‖mC.det‖ / ‖mA.det‖ := by rw [lt_div_iff₀ hA, one_mul]; exact det_grows
  obtain ⟨n, hn⟩ := pow_unbounded_of_one_lt ((Fintype.card (Fin 3 ⊕ Fin 3)).factorial • S ^ Fintype.card (Fin 3 ⊕ Fin 3)) hrho
  have h1 := hd n
  rw [hdet] at h1
  have h2 : (‖mC.det‖ / ‖mA.det‖) ^ n ≤ (‖mC.det‖ / ‖mA.det‖) ^ (n + 1) := pow_le_pow_right₀ hrho.le (by omega)
  linarith

end WakeT.Laser
