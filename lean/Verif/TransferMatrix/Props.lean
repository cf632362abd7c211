import Verif.TransferMatrix.Lemmas
import Verif.TransferMatrix.Spec
import Mathlib.Analysis.Calculus.Deriv.Pow
import Mathlib.Analysis.Calculus.Deriv.Prod
import Mathlib.Analysis.SpecialFunctions.Trigonometric.Deriv

/-! # Properties of the transfer maps: C34 - C37, C77 -/

set_option linter.unusedSectionVars false

namespace WakeT.TransferMatrix

open Matrix

/-- The first-order matrix in terms of the focusing functions. -/
theorem firstOrder_eq (z L theta k1 gamma : ℝ) :
    firstOrder z L theta k1 gamma =
      let h := theta / L
      let k := k1 + h * h
      let β := beta gamma
      !![cosK k z, sinK k z, 0, 0, 0, h * dK k z / β;
         -k * sinK k z, cosK k z, 0, 0, 0, sinK k z * h / β;
         0, 0, cosK (-k1) z, sinK (-k1) z, 0, 0;
         0, 0, k1 * sinK (-k1) z, cosK (-k1) z, 0, 0;
         h * sinK k z / β, h * dK k z / β, 0, 0, 1,
           h * h * eK k z / β ^ 2 - z / β ^ 2 * igamma2 gamma;
         0, 0, 0, 0, 0, 1] := by
  unfold firstOrder
  dsimp only
  have e1 : (if csqrt (k1 + theta / L * (theta / L)) ≠ 0 then
      theta / L / (k1 + theta / L * (theta / L)) * (1 - cosK (k1 + theta / L * (theta / L)) z)
      else z * z * (theta / L) / 2) = theta / L * dK (k1 + theta / L * (theta / L)) z := by
    simp only [csqrt_ne_zero, dK]
    split_ifs <;> ring
  have e2 : ((if csqrt (k1 + theta / L * (theta / L)) ≠ 0 then
      theta / L * (theta / L) * (z - sinK (k1 + theta / L * (theta / L)) z) /
        (k1 + theta / L * (theta / L)) / beta gamma ^ 2
      else theta / L * (theta / L) * z ^ 3 / 6 / beta gamma ^ 2)
        - z / (beta gamma * beta gamma) * igamma2 gamma) =
      theta / L * (theta / L) * eK (k1 + theta / L * (theta / L)) z / beta gamma ^ 2 -
        z / beta gamma ^ 2 * igamma2 gamma := by
    simp only [csqrt_ne_zero, eK]
    split_ifs <;> ring
  rw [e1, e2, neg_neg]

/-! ### C34 -/

/-- **C34** The matrix over zero length is the identity. -/
theorem first_order_zero (L theta k1 gamma : ℝ) (_hL : L ≠ 0) (_hg : GammaOk gamma) :
    firstOrder 0 L theta k1 gamma = 1 := by
  rw [firstOrder_eq]
  ext i j
  fin_cases i <;> fin_cases j <;> simp [dK_zero, eK_zero]

set_option maxHeartbeats 1000000 in
/-- **C34** The matrix over `z1 + z2` is the product of the matrices over `z2` and
`z1`, for every curvature and every gradient. -/
theorem first_order_compose (z1 z2 L theta k1 gamma : ℝ) (_hL : L ≠ 0) (_hg : GammaOk gamma) :
    firstOrder (z1 + z2) L theta k1 gamma =
      firstOrder z2 L theta k1 gamma * firstOrder z1 L theta k1 gamma := by
  rw [firstOrder_eq, firstOrder_eq, firstOrder_eq]
  dsimp only
  generalize theta / L = h
  generalize hk : k1 + h * h = k
  generalize beta gamma = β
  have c1 := cosK_add k z1 z2
  have s1 := sinK_add k z1 z2
  have d1 := dK_add k z1 z2
  have e1 := eK_add k z1 z2
  have q1 := sinK_sq k z1
  have q2 := sinK_sq k z2
  have m1 := dK_mul k z1
  have m2 := dK_mul k z2
  have n2 := eK_mul k z2
  rw [c1, s1, d1, e1, cosK_add (-k1), sinK_add (-k1)]
  ext i j
  fin_cases i <;> fin_cases j <;> simp [Matrix.mul_apply, Fin.sum_univ_six]
  all_goals first
    | done
    | ring1
    | linear_combination (h / β) * dK k z2 * m1 - (h / β) * dK k z1 * m2
    | linear_combination (h / β) * sinK k z2 * m1
    | linear_combination (h / β) * sinK k z1 * m2
    | linear_combination (h ^ 2 / β ^ 2) * (eK k z2 * m1 - dK k z1 * n2)

/-- Non-vacuity: a thick bend with a gradient is a map of this kind, and not trivial. -/
example : (2 : ℝ) ≠ 0 ∧ GammaOk 1000 ∧
    firstOrder (1 + 2) 2 (1 / 10) 0 1000 2 3 = 3 := by
  refine ⟨by norm_num, Or.inr (by norm_num), ?_⟩
  rw [firstOrder_eq]
  simp
  norm_num

/-! ### C35 -/

set_option maxHeartbeats 1000000 in
/-- **C35** The matrix preserves the symplectic form. -/
theorem first_order_symplectic (z L theta k1 gamma : ℝ) (_hL : L ≠ 0) (_hg : GammaOk gamma) :
    (firstOrder z L theta k1 gamma)ᵀ * sympl * firstOrder z L theta k1 gamma = sympl := by
  rw [firstOrder_eq]
  dsimp only
  generalize theta / L = h
  generalize hk : k1 + h * h = k
  generalize beta gamma = β
  have q1 := sinK_sq k z
  have m1 := dK_mul k z
  have m2 := cosK_sq k z
  have m3 := cosK_sq (-k1) z
  ext i j
  fin_cases i <;> fin_cases j <;>
    simp [Matrix.mul_apply, Fin.sum_univ_six, sympl, Matrix.transpose_apply]
  all_goals first
    | done
    | ring1
    | linear_combination m2
    | linear_combination -m2
    | linear_combination m3
    | linear_combination -m3
    | linear_combination (h / β) * sinK k z * m1
    | linear_combination -(h / β) * sinK k z * m1
    | linear_combination (h / β) * q1
    | linear_combination -(h / β) * q1

/-- **C35** Unit determinant in each transverse plane. -/
theorem first_order_det (z L theta k1 gamma : ℝ) (_hL : L ≠ 0) (_hg : GammaOk gamma) :
    let M := firstOrder z L theta k1 gamma
    M 0 0 * M 1 1 - M 0 1 * M 1 0 = 1 ∧ M 2 2 * M 3 3 - M 2 3 * M 3 2 = 1 := by
  rw [firstOrder_eq]
  dsimp only
  have m2 := cosK_sq (k1 + theta / L * (theta / L)) z
  have m3 := cosK_sq (-k1) z
  constructor
  · simp; linear_combination m2
  · simp; linear_combination m3

/-- The symplectic form is non-degenerate and antisymmetric. -/
example : symplᵀ = -sympl ∧ sympl * sympl = -1 := by
  constructor <;>
  · ext i j
    fin_cases i <;> fin_cases j <;> simp [sympl, Matrix.mul_apply, Fin.sum_univ_six]

/-! ### C36 -/

/-- **C36** To Ocelot coordinates and back, for particles moving forward. -/
theorem ocelot_roundtrip (gammaRef : ℝ) (hg : 1 < gammaRef) (v : V6) (hv : 0 ≤ v 5) :
    fromOcelot gammaRef (toOcelot gammaRef v) = v := by
  have hg0 : (0 : ℝ) < gammaRef := by linarith
  have h1 : (0 : ℝ) < gammaRef ^ 2 - 1 := by nlinarith
  have hp : √(gammaRef ^ 2 - 1) ≠ 0 := (Real.sqrt_pos.mpr h1).ne'
  have h2 : (0 : ℝ) < 1 - 1 / gammaRef ^ 2 := by
    rw [sub_pos, div_lt_one (by positivity)]; nlinarith
  have hb : gammaRef * √(1 - 1 / gammaRef ^ 2) ≠ 0 := (mul_pos hg0 (Real.sqrt_pos.mpr h2)).ne'
  have hq : (0 : ℝ) ≤ 1 + v 1 ^ 2 + v 3 ^ 2 + v 5 ^ 2 := by positivity
  have hG : (√(1 + v 1 ^ 2 + v 3 ^ 2 + v 5 ^ 2) - gammaRef) /
      (gammaRef * √(1 - 1 / gammaRef ^ 2)) * gammaRef * √(1 - 1 / gammaRef ^ 2) + gammaRef =
        √(1 + v 1 ^ 2 + v 3 ^ 2 + v 5 ^ 2) := by
    rw [mul_assoc, div_mul_cancel₀ _ hb]; ring
  funext i
  fin_cases i
  · rfl
  · simp [fromOcelot, toOcelot, hp]
  · rfl
  · simp [fromOcelot, toOcelot, hp]
  · simp [fromOcelot, toOcelot]
  · change √(_ ^ 2 - _ ^ 2 - _ ^ 2 - 1) = v 5
    simp only [toOcelot, Matrix.cons_val, hG, Real.sq_sqrt hq, div_mul_cancel₀ _ hp]
    rw [show 1 + v 1 ^ 2 + v 3 ^ 2 + v 5 ^ 2 - v 1 ^ 2 - v 3 ^ 2 - 1 = v 5 ^ 2 by ring]
    exact Real.sqrt_sq hv

/-- **C36** From Ocelot coordinates and back, for coordinates of an actual particle: an
energy above rest and not less than the transverse momenta allow. -/
theorem ocelot_roundtrip' (gammaRef : ℝ) (hg : 1 < gammaRef) (v : V6)
    (hE : 0 ≤ v 5 * gammaRef * √(1 - 1 / gammaRef ^ 2) + gammaRef)
    (hT : 1 + (gammaRef ^ 2 - 1) * (v 1 ^ 2 + v 3 ^ 2) ≤
      (v 5 * gammaRef * √(1 - 1 / gammaRef ^ 2) + gammaRef) ^ 2) :
    toOcelot gammaRef (fromOcelot gammaRef v) = v := by
  have hg0 : (0 : ℝ) < gammaRef := by linarith
  have h1 : (0 : ℝ) < gammaRef ^ 2 - 1 := by nlinarith
  have hp : √(gammaRef ^ 2 - 1) ≠ 0 := (Real.sqrt_pos.mpr h1).ne'
  have hps : √(gammaRef ^ 2 - 1) ^ 2 = gammaRef ^ 2 - 1 := Real.sq_sqrt h1.le
  have h2 : (0 : ℝ) < 1 - 1 / gammaRef ^ 2 := by
    rw [sub_pos, div_lt_one (by positivity)]; nlinarith
  have hb : gammaRef * √(1 - 1 / gammaRef ^ 2) ≠ 0 := (mul_pos hg0 (Real.sqrt_pos.mpr h2)).ne'
  funext i
  fin_cases i
  · rfl
  · simp [fromOcelot, toOcelot, hp]
  · rfl
  · simp [fromOcelot, toOcelot, hp]
  · simp [fromOcelot, toOcelot]
  · change (√(1 + _ ^ 2 + _ ^ 2 + _ ^ 2) - gammaRef) / _ = v 5
    simp only [fromOcelot, Matrix.cons_val]
    rw [Real.sq_sqrt (by rw [mul_pow, mul_pow, hps]; linarith)]
    rw [show ∀ a b c : ℝ, 1 + a + b + (c - a - b - 1) = c by intros; ring, Real.sqrt_sq hE,
      add_sub_cancel_right, mul_assoc, mul_div_assoc, div_self hb, mul_one]

/-- Without the sign condition the round trip fails: a particle moving backwards comes back
moving forward. -/
theorem ocelot_roundtrip_backwards : fromOcelot 2 (toOcelot 2 ![0, 0, 0, 0, 0, -1]) 5 = 1 := by
  have := congrFun (ocelot_roundtrip 2 (by norm_num) ![0, 0, 0, 0, 0, 1] (by simp)) 5
  simpa [fromOcelot, toOcelot] using this

/-- Non-vacuity. -/
example : (1 : ℝ) < 1000 ∧ 0 ≤ (![1, 2, 3, 4, 5, 900] : V6) 5 := by
  constructor <;> simp <;> norm_num

/-! ### C37 -/

/-- **C37** Consecutive rotations add their angles. -/
theorem rotation_add (a b : ℝ) : rotXZ a * rotXZ b = rotXZ (a + b) := by
  ext i j
  fin_cases i <;> fin_cases j <;>
    simp [rotXZ, Matrix.mul_apply, Fin.sum_univ_six, Real.cos_add, Real.sin_add] <;> ring

/-- **C37** A rotation by zero is the identity. -/
theorem rotation_zero : rotXZ 0 = 1 := by
  ext i j
  fin_cases i <;> fin_cases j <;> simp [rotXZ]

/-- **C37** Rotating by an angle and back is the identity. -/
theorem rotation_back (a : ℝ) (v : V6) : rotXZ (-a) *ᵥ (rotXZ a *ᵥ v) = v := by
  rw [Matrix.mulVec_mulVec, rotation_add, neg_add_cancel, rotation_zero, Matrix.one_mulVec]

/-- **C37** A rotation preserves the distances in `x`-`xi`, the scalar products of momenta,
and leaves `y` and `py` alone. -/
theorem rotation_rigid (a : ℝ) (v w : V6) :
    let v' := rotXZ a *ᵥ v
    let w' := rotXZ a *ᵥ w
    (v' 0 - w' 0) ^ 2 + (v' 4 - w' 4) ^ 2 = (v 0 - w 0) ^ 2 + (v 4 - w 4) ^ 2 ∧
      v' 1 * w' 1 + v' 3 * w' 3 + v' 5 * w' 5 = v 1 * w 1 + v 3 * w 3 + v 5 * w 5 ∧
      v' 2 = v 2 ∧ v' 3 = v 3 := by
  have h := Real.sin_sq_add_cos_sq a
  have e0 : ∀ u : V6, (rotXZ a *ᵥ u) 0 = Real.cos a * u 0 + Real.sin a * u 4 := fun u => by
    simp [rotXZ, Matrix.mulVec, dotProduct, Fin.sum_univ_six]
  have e1 : ∀ u : V6, (rotXZ a *ᵥ u) 1 = Real.cos a * u 1 + Real.sin a * u 5 := fun u => by
    simp [rotXZ, Matrix.mulVec, dotProduct, Fin.sum_univ_six]
  have e2 : ∀ u : V6, (rotXZ a *ᵥ u) 2 = u 2 := fun u => by
    simp [rotXZ, Matrix.mulVec, dotProduct, Fin.sum_univ_six]
  have e3 : ∀ u : V6, (rotXZ a *ᵥ u) 3 = u 3 := fun u => by
    simp [rotXZ, Matrix.mulVec, dotProduct, Fin.sum_univ_six]
  have e4 : ∀ u : V6, (rotXZ a *ᵥ u) 4 = -Real.sin a * u 0 + Real.cos a * u 4 := fun u => by
    simp [rotXZ, Matrix.mulVec, dotProduct, Fin.sum_univ_six]
  have e5 : ∀ u : V6, (rotXZ a *ᵥ u) 5 = -Real.sin a * u 1 + Real.cos a * u 5 := fun u => by
    simp [rotXZ, Matrix.mulVec, dotProduct, Fin.sum_univ_six]
  dsimp only
  rw [e0, e0, e1, e1, e2, e3, e3, e4, e4, e5, e5]
  refine ⟨?_, ?_, rfl, rfl⟩
  · linear_combination ((v 0 - w 0) ^ 2 + (v 4 - w 4) ^ 2) * h
  · linear_combination (v 1 * w 1 + v 5 * w 5) * h

/-- A rotation by a quarter turn moves `xi` to `x`. -/
example : (rotXZ (Real.pi / 2) *ᵥ ![0, 0, 0, 0, 1, 0]) 0 = 1 := by
  simp [rotXZ, Matrix.mulVec, dotProduct, Fin.sum_univ_six]

/-! ### C77: equations of motion -/

theorem hasDerivAt_cosK (k z : ℝ) : HasDerivAt (cosK k) (-k * sinK k z) z := by
  have h1 : HasDerivAt (fun x : ℂ => Complex.cos (x * csqrt k))
      (-Complex.sin (z * csqrt k) * (1 * csqrt k)) (z : ℂ) :=
    HasDerivAt.ccos ((hasDerivAt_id (z : ℂ)).mul_const (csqrt k))
  have h2 := h1.real_of_complex
  have e : (-Complex.sin (z * csqrt k) * (1 * csqrt k)).re = -k * sinK k z := by
    have : -Complex.sin (z * csqrt k) * (1 * csqrt k) = ((-k * sinK k z : ℝ) : ℂ) := by
      push_cast
      rw [mul_comm (z : ℂ), ← sinK_complex, ← csqrt_sq k]
      ring
    rw [this, Complex.ofReal_re]
  rw [e] at h2
  exact h2

theorem hasDerivAt_sinK (k z : ℝ) : HasDerivAt (sinK k) (cosK k z) z := by
  by_cases hk : k = 0
  · subst hk
    have : sinK 0 = id := by funext x; simp
    rw [this, cosK_free]
    exact hasDerivAt_id z
  · have hw := (csqrt_ne_zero k).mpr hk
    have h1 : HasDerivAt (fun x : ℂ => Complex.sin (csqrt k * x) / csqrt k)
        (Complex.cos (csqrt k * z) * (csqrt k * 1) / csqrt k) (z : ℂ) :=
      (HasDerivAt.csin ((hasDerivAt_id (z : ℂ)).const_mul (csqrt k))).div_const _
    have h2 := h1.real_of_complex
    have e : (Complex.cos (csqrt k * z) * (csqrt k * 1) / csqrt k).re = cosK k z := by
      rw [mul_one, mul_div_assoc, div_self hw, mul_one, mul_comm]; rfl
    rw [e] at h2
    refine h2.congr_of_eventuallyEq (Filter.Eventually.of_forall fun x => ?_)
    simp only [sinK, if_pos hw]

theorem hasDerivAt_dK (k z : ℝ) : HasDerivAt (dK k) (sinK k z) z := by
  by_cases hk : k = 0
  · subst hk
    have : dK 0 = fun x => x * x / 2 := by funext x; simp [dK]
    rw [this, sinK_free]
    have := ((hasDerivAt_id z).fun_mul (hasDerivAt_id z)).div_const 2
    refine this.congr_deriv ?_
    simp
  · have : dK k = fun x => (1 - cosK k x) / k := by funext x; simp [dK, hk]
    rw [this]
    refine (((hasDerivAt_const z (1 : ℝ)).fun_sub (hasDerivAt_cosK k z)).div_const k).congr_deriv ?_
    field_simp
    ring

theorem hasDerivAt_eK (k z : ℝ) : HasDerivAt (eK k) (dK k z) z := by
  by_cases hk : k = 0
  · subst hk
    have : eK 0 = fun x => x * x * x / 6 := by funext x; simp [eK]
    rw [this]
    have := (((hasDerivAt_id z).fun_mul (hasDerivAt_id z)).fun_mul (hasDerivAt_id z)).div_const 6
    refine this.congr_deriv ?_
    simp [dK]
    ring
  · have : eK k = fun x => (x - sinK k x) / k := by funext x; simp [eK, hk]
    rw [this]
    refine (((hasDerivAt_id z).fun_sub (hasDerivAt_sinK k z)).div_const k).congr_deriv ?_
    simp [dK, hk]

/-- Derivative of an expression in functions with known derivatives. -/
macro "derivs" hs:term,* : tactic => do
  let alts ← hs.getElems.mapM fun h => `(tacticSeq| exact $h)
  `(tactic| repeat' first
    | exact hasDerivAt_const _ _
    | exact hasDerivAt_id' _
    $[| $alts]*
    | apply HasDerivAt.fun_add
    | apply HasDerivAt.fun_sub
    | apply HasDerivAt.fun_mul
    | apply HasDerivAt.fun_neg
    | apply HasDerivAt.div_const)

/-- Entries of the linear map, applied. -/
theorem firstOrder_mulVec (z L theta k1 gamma : ℝ) (v : V6) :
    firstOrder z L theta k1 gamma *ᵥ v =
      let h := theta / L
      let k := k1 + h * h
      let β := beta gamma
      ![cosK k z * v 0 + sinK k z * v 1 + h * dK k z / β * v 5,
        -k * sinK k z * v 0 + cosK k z * v 1 + sinK k z * h / β * v 5,
        cosK (-k1) z * v 2 + sinK (-k1) z * v 3,
        k1 * sinK (-k1) z * v 2 + cosK (-k1) z * v 3,
        h * sinK k z / β * v 0 + h * dK k z / β * v 1 + v 4 +
          (h * h * eK k z / β ^ 2 - z / β ^ 2 * igamma2 gamma) * v 5,
        v 5] := by
  rw [firstOrder_eq]
  funext i
  fin_cases i <;> simp [Matrix.mulVec, dotProduct, Fin.sum_univ_six]

set_option maxHeartbeats 1000000 in
/-- **C77** Every particle moved with the first-order matrix follows the linear equations
of motion of the element. -/
theorem first_order_motion (z L theta k1 gamma : ℝ) (_hL : L ≠ 0) (_hg : GammaOk gamma)
    (v : V6) :
    HasDerivAt (fun z => firstOrder z L theta k1 gamma *ᵥ v)
      (generator (theta / L) k1 (beta gamma) (igamma2 gamma) *ᵥ
        (firstOrder z L theta k1 gamma *ᵥ v)) z := by
  simp only [firstOrder_mulVec]
  rw [hasDerivAt_pi]
  generalize theta / L = h
  have hc := hasDerivAt_cosK (k1 + h * h) z
  have hs := hasDerivAt_sinK (k1 + h * h) z
  have hd := hasDerivAt_dK (k1 + h * h) z
  have he := hasDerivAt_eK (k1 + h * h) z
  have hC := hasDerivAt_cosK (-k1) z
  have hS := hasDerivAt_sinK (-k1) z
  have m1 := dK_mul (k1 + h * h) z
  have m2 := eK_mul (k1 + h * h) z
  generalize beta gamma = β
  intro i
  fin_cases i
  all_goals
    simp only [generator, Fin.isValue, Matrix.mulVec, dotProduct, Fin.sum_univ_six]
    simp
    apply HasDerivAt.congr_deriv
    · derivs hc, hs, hd, he, hC, hS
    · first
        | done
        | ring1
        | linear_combination (h / β * v 5) * m1
        | linear_combination -(h / β * v 5) * m1
        | linear_combination (h ^ 2 / β ^ 2 * v 5) * m2

end WakeT.TransferMatrix
