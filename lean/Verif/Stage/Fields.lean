import Verif.Stage.Props
import Verif.Fields.Model
import Mathlib.Analysis.Calculus.Deriv.Basic
import Mathlib.Analysis.Calculus.Deriv.Add
import Mathlib.Analysis.Calculus.Deriv.Mul

/-! # Fields of plasma stages, lenses and quadrupoles (C85, C86) -/

set_option linter.unusedSectionVars false

namespace WakeT.Stage

open Fields (EB LibField)

/-! ### Model -/

/-- `SimpleBlowoutWakefield._pre_gather` (simple_blowout.py 42-51); `bw` is
`laser.get_group_velocity`.  `ge.plasma_frequency` (aptools) takes a density in cm^-3. -/
noncomputable def simpleBlowoutAt (k : Const) (density : ℝ → ℝ) (bw : ℝ → ℝ) (xiC fieldOffset t : ℝ) :
    LibField ℝ :=
  let n := density (t * k.c)
  let wp := √(n * k.e ^ 2 / (k.me * k.eps0))
  let lp := 2 * Real.pi * k.c / wp
  .simpleBlowout k.c (wp ^ 2 / 2 * k.me / (k.e * k.c)) (wp ^ 2 / 2 * k.me / k.e)
    (lp / 2 - xiC - fieldOffset + (1 - bw n) * k.c * t)

/-- `CustomBlowoutWakefield._pre_gather` (custom_blowout.py 60-64). -/
noncomputable def customBlowoutAt (k : Const) (density : ℝ → ℝ) (bw : ℝ → ℝ) (foc ez0 ezp xiFields t : ℝ) :
    LibField ℝ :=
  .customBlowout k.c foc ez0 ezp (-xiFields + (1 - bw (density (t * k.c))) * k.c * t)

/-- `FocusingBlowoutField._pre_gather` (focusing_blowout.py 22-27). -/
noncomputable def focusingBlowoutAt (k : Const) (density : ℝ → ℝ) (t : ℝ) : LibField ℝ :=
  .focusingBlowout k.c fun xi =>
    (k.me / (2 * k.e * k.c)) * √(density (t * k.c + xi) * k.e ^ 2 / (k.me * k.eps0)) ^ 2

/-- `ActivePlasmaLens.__init__` (active_plasma_lens.py 111): the field of the lens. -/
noncomputable def lensField (foc : ℝ) : LibField ℝ := .linearBTheta (-foc)

/-- `FieldQuadrupole.__init__` (field_quadrupole.py 59): the field of the quadrupole. -/
def quadField (foc : ℝ) : LibField ℝ := .quadrupole foc

/-! ### Specification -/

/-- The field that a single source produces at a position. -/
noncomputable def at0 (f : LibField ℝ) (x y xi : ℝ) : EB ℝ := f.gather1 x y xi ⟨0, 0, 0, 0, 0, 0⟩

/-- Transverse Lorentz force on a charge that moves along `z` with velocity `v`. -/
noncomputable def force (q v : ℝ) (f : EB ℝ) : ℝ × ℝ := (q * (f.ex - v * f.b_y), q * (f.ey + v * f.bx))

/-! ### C85: focusing -/

/-- A plasma lens acts on a charge moving with `c` as `q c g (x, y)`: with a positive
strength it focuses negative charges in both planes, with the frequency that the automatic
step assumes. -/
theorem lens_focus (c q g x y xi : ℝ) :
    force q c (at0 (lensField g) x y xi) = (q * c * g * x, q * c * g * y) := by
  simp only [force, at0, lensField, LibField.gather1, Prod.mk.injEq]
  constructor <;> ring

/-- A quadrupole with positive strength focuses negative charges in `x` and defocuses them
in `y`. -/
theorem quad_focus (c q g x y xi : ℝ) :
    force q c (at0 (quadField g) x y xi) = (q * c * g * x, -(q * c * g * y)) := by
  simp only [force, at0, quadField, LibField.gather1, Prod.mk.injEq]
  constructor <;> ring

/-- Both blowout models act on a charge at `z = c t + xi` as the ion channel of the local density
(the simple one: the density at `c t`), whatever its velocity. -/
theorem blowout_focus {k : Const} (hk : k.Pos) {density : ℝ → ℝ} (hd : ∀ z, 0 ≤ density z) (bw : ℝ → ℝ)
    (xiC off q v t x y xi : ℝ) :
    force q v (at0 (focusingBlowoutAt k density t) x y xi) =
      (q * k.c * channel k (density (k.c * t + xi)) * x, q * k.c * channel k (density (k.c * t + xi)) * y) ∧
    force q v (at0 (simpleBlowoutAt k density bw xiC off t) x y xi) =
      (q * k.c * channel k (density (k.c * t)) * x, q * k.c * channel k (density (k.c * t)) * y) := by
  have hc := hk.c
  have he := hk.e
  have hme := hk.me
  have heps := hk.eps0
  have h : ∀ n : ℝ, 0 ≤ n → √(n * k.e ^ 2 / (k.me * k.eps0)) ^ 2 = n * k.e ^ 2 / (k.me * k.eps0) :=
    fun n hn => Real.sq_sqrt (by positivity)
  constructor
  · simp only [force, at0, focusingBlowoutAt, LibField.gather1, Prod.mk.injEq, h _ (hd _), channel, mul_comm t]
    constructor <;> (field_simp; try ring)
  · simp only [force, at0, simpleBlowoutAt, LibField.gather1, Prod.mk.injEq, h _ (hd _), channel, mul_comm t]
    constructor <;> (field_simp; try ring)

/-- The force of a focusing gradient on a negative charge is the one of a harmonic
oscillator with the frequency `betatron`: `F = - m γ ω² x`. -/
theorem betatron_force {c q m gam g x : ℝ} (hc : 0 < c) (hq : q < 0) (hm : 0 < m) (hgam : 0 < gam) (hg : 0 ≤ g) :
    q * c * g * x = -(m * gam * betatron c q m gam g ^ 2 * x) := by
  unfold betatron
  rw [Real.sq_sqrt (by positivity), abs_of_neg hq]
  field_simp

example : ∃ k : Const, k.Pos := ⟨⟨3, 1, 1, 1⟩, ⟨by norm_num, by norm_num, by norm_num, by norm_num⟩⟩

/-! ### C86: the fields satisfy Maxwell's equations -/

/-- Quadrupole: `div B = 0` and `curl B = 0`.  Lens: `div B = 0`, and `curl B` is uniform
(the field of a uniform current), `-2 g`. -/
theorem magnets_maxwell (g x y xi : ℝ) :
    (∃ dxBx dyBy dxBy dyBx, HasDerivAt (fun x => (at0 (quadField g) x y xi).bx) dxBx x ∧
      HasDerivAt (fun y => (at0 (quadField g) x y xi).b_y) dyBy y ∧
      HasDerivAt (fun x => (at0 (quadField g) x y xi).b_y) dxBy x ∧
      HasDerivAt (fun y => (at0 (quadField g) x y xi).bx) dyBx y ∧ dxBx + dyBy = 0 ∧ dxBy - dyBx = 0) ∧
    (∃ dxBx dyBy dxBy dyBx, HasDerivAt (fun x => (at0 (lensField g) x y xi).bx) dxBx x ∧
      HasDerivAt (fun y => (at0 (lensField g) x y xi).b_y) dyBy y ∧
      HasDerivAt (fun x => (at0 (lensField g) x y xi).b_y) dxBy x ∧
      HasDerivAt (fun y => (at0 (lensField g) x y xi).bx) dyBx y ∧ dxBx + dyBy = 0 ∧ dxBy - dyBx = -(2 * g)) := by
  have lin : ∀ a b t : ℝ, HasDerivAt (fun t => a + b * t) b t := fun a b t => by
    simpa using ((hasDerivAt_id t).const_mul b).const_add a
  have lin' : ∀ a b t : ℝ, HasDerivAt (fun t => a - b * t) (-b) t := fun a b t => by
    simpa using ((hasDerivAt_id t).const_mul b).const_sub a
  refine ⟨⟨0, 0, -g, -g, hasDerivAt_const _ _, hasDerivAt_const _ _, lin 0 (-g) x, lin 0 (-g) y, by simp, by simp⟩,
    ⟨0, 0, -g, - -g, hasDerivAt_const _ _, hasDerivAt_const _ _, lin 0 (-g) x, lin' 0 (-g) y, by simp, by ring⟩⟩

/-- Gauss's law in the ion channel: the transverse divergence of the field is `e n / ε0`
with the local density; the accelerating field of the simple blowout rises with half of
it. -/
theorem blowout_gauss {k : Const} (hk : k.Pos) {density : ℝ → ℝ} (hd : ∀ z, 0 ≤ density z) (bw : ℝ → ℝ)
    (xiC off t x y xi : ℝ) :
    (∃ dxEx dyEy, HasDerivAt (fun x => (at0 (focusingBlowoutAt k density t) x y xi).ex) dxEx x ∧
      HasDerivAt (fun y => (at0 (focusingBlowoutAt k density t) x y xi).ey) dyEy y ∧
      dxEx + dyEy = k.e * density (k.c * t + xi) / k.eps0) ∧
    (∃ dxEx dyEy dzEz, HasDerivAt (fun x => (at0 (simpleBlowoutAt k density bw xiC off t) x y xi).ex) dxEx x ∧
      HasDerivAt (fun y => (at0 (simpleBlowoutAt k density bw xiC off t) x y xi).ey) dyEy y ∧
      HasDerivAt (fun xi => (at0 (simpleBlowoutAt k density bw xiC off t) x y xi).ez) dzEz xi ∧
      dxEx + dyEy = k.e * density (k.c * t) / k.eps0 ∧ dzEz = k.e * density (k.c * t) / (2 * k.eps0)) := by
  have hc := hk.c
  have he := hk.e
  have hme := hk.me
  have heps := hk.eps0
  have lin : ∀ b t : ℝ, HasDerivAt (fun t => b * t) b t := fun b t => by
    simpa using (hasDerivAt_id t).const_mul b
  have lin2 : ∀ a b t : ℝ, HasDerivAt (fun t => b * (t + a)) b t := fun a b t => by
    simpa using ((hasDerivAt_id t).add_const a).const_mul b
  have h : ∀ n : ℝ, 0 ≤ n → √(n * k.e ^ 2 / (k.me * k.eps0)) ^ 2 = n * k.e ^ 2 / (k.me * k.eps0) :=
    fun n hn => Real.sq_sqrt (by positivity)
  refine ⟨⟨_, _, lin _ _, lin _ _, ?_⟩, ⟨_, _, _, lin _ _, lin _ _, lin2 _ _ _, ?_, ?_⟩⟩
  · beta_reduce
    rw [h _ (hd _), mul_comm t]
    field_simp
    ring
  · rw [h _ (hd _), mul_comm t]
    field_simp
    ring
  · rw [h _ (hd _), mul_comm t]
    field_simp

/-- At the beginning the custom blowout has the given field, slope and focusing at the given position;
in a uniform plasma the field pattern moves with the group velocity of the laser. -/
theorem custom_blowout (k : Const) (n : ℝ) (bw : ℝ → ℝ) (foc ez0 ezp xiF t x y xi : ℝ) :
    (at0 (customBlowoutAt k (fun _ => n) bw foc ez0 ezp xiF 0) x y xiF).ez = ez0 ∧
    HasDerivAt (fun xi => (at0 (customBlowoutAt k (fun _ => n) bw foc ez0 ezp xiF t) x y xi).ez) ezp xi ∧
    force 1 k.c (at0 (customBlowoutAt k (fun _ => n) bw foc ez0 ezp xiF t) x y xi) = (k.c * foc * x, k.c * foc * y) ∧
    (at0 (customBlowoutAt k (fun _ => n) bw foc ez0 ezp xiF t) x y (xi + (bw n * k.c * t - k.c * t))).ez =
      (at0 (customBlowoutAt k (fun _ => n) bw foc ez0 ezp xiF 0) x y xi).ez := by
  have lin2 : ∀ a b e t : ℝ, HasDerivAt (fun t => e + b * (t + a)) b t := fun a b e t => by
    simpa using (((hasDerivAt_id t).add_const a).const_mul b).const_add e
  refine ⟨?_, lin2 _ _ _ _, ?_, ?_⟩
  · simp [at0, customBlowoutAt, LibField.gather1]
  · simp [force, at0, customBlowoutAt, LibField.gather1]
  · simp only [at0, customBlowoutAt, LibField.gather1]
    ring

/-- The same for the simple blowout. -/
theorem simple_blowout_moves (k : Const) (n : ℝ) (bw : ℝ → ℝ) (xiC off t x y xi : ℝ) :
    (at0 (simpleBlowoutAt k (fun _ => n) bw xiC off t) x y (xi + (bw n * k.c * t - k.c * t))).ez =
      (at0 (simpleBlowoutAt k (fun _ => n) bw xiC off 0) x y xi).ez := by
  simp only [at0, simpleBlowoutAt, LibField.gather1]
  ring

/-- The accelerating field of the simple blowout is that of a uniform ion channel around a centre that lies half a
plasma wavelength `lam` (of the density at `c t`) behind the laser pulse, which itself slips back with its group
velocity; the centre is shifted by the offset. -/
theorem simple_blowout_phase {k : Const} (hk : k.Pos) {density : ℝ → ℝ} (bw : ℝ → ℝ) (xiC off t x y xi : ℝ)
    (hd : 0 < density (k.c * t)) :
    ∃ lam : ℝ, 0 < lam ∧ density (k.c * t) * k.e ^ 2 * lam ^ 2 = k.me * k.eps0 * (2 * Real.pi * k.c) ^ 2 ∧
      (at0 (simpleBlowoutAt k density bw xiC off t) x y xi).ez =
        k.e * density (k.c * t) / (2 * k.eps0) *
          (xi - (xiC + bw (density (k.c * t)) * k.c * t - k.c * t + off - lam / 2)) := by
  have hc := hk.c
  have he := hk.e
  have hme := hk.me
  have heps := hk.eps0
  have hw : 0 < density (k.c * t) * k.e ^ 2 / (k.me * k.eps0) := by positivity
  refine ⟨2 * Real.pi * k.c / √(density (k.c * t) * k.e ^ 2 / (k.me * k.eps0)), by positivity, ?_, ?_⟩
  · rw [div_pow, Real.sq_sqrt hw.le]
    field_simp
  · simp only [at0, simpleBlowoutAt, LibField.gather1, mul_comm t, Real.sq_sqrt hw.le]
    generalize √(density (k.c * t) * k.e ^ 2 / (k.me * k.eps0)) = w
    have e : density (k.c * t) * k.e ^ 2 / (k.me * k.eps0) / 2 * k.me / k.e = k.e * density (k.c * t) / (2 * k.eps0) := by
      field_simp
    rw [e]
    ring

example : ∃ k : Const, k.Pos ∧ 0 < (fun _ : ℝ => (1 : ℝ)) (k.c * 2) :=
  ⟨⟨3, 1, 1, 1⟩, ⟨by norm_num, by norm_num, by norm_num, by norm_num⟩, by norm_num⟩

end WakeT.Stage
