import Verif.Base.Loop
import Mathlib.Algebra.Order.Field.Basic
import Mathlib.Algebra.Order.Floor.Defs

/-!
# Model of `wake_t/fields` (base classes) and of the library's analytical fields
-/

set_option linter.unusedSectionVars false

namespace WakeT.Fields

variable {K : Type*} [Field K]

/-! ### `NumericalField` (fields/numerical_field.py) -/

/-- State of a `NumericalField` (numerical_field.py 39-48): update period, the
flag `initialized`, the internal time and all remaining properties. -/
structure NumField (K P : Type*) where
  dt : K
  initialized : Bool
  t : K
  prop : P

/-- The methods a subclass provides (numerical_field.py 101-108), as functions of the properties,
the internal time and the bunches. -/
structure FieldOps (K P B : Type*) where
  init : P → K → B → P
  evolve : P → K → B → P
  calculate : P → K → B → P

/-- `NumericalField.update` (numerical_field.py 50-66) with `initialize_properties` (68-75),
`evolve_properties` (77-83) and `calculate_field` (85-90). -/
def NumField.update {P B : Type*} (ops : FieldOps K P B) (f : NumField K P) (b : B) :
    NumField K P :=
  let f := if ¬ f.initialized
    then { f with t := 0, prop := ops.init f.prop 0 b, initialized := true }
    else
      let t := f.t + f.dt
      { f with t := t, prop := ops.evolve f.prop t b }
  { f with prop := ops.calculate f.prop f.t b }

/-- `NumericalField.adjust_dt` (numerical_field.py 92-99): the new `dt_update`.  `none` stands for
the NaN (with a warning) of a division by zero. -/
def adjustDt [LinearOrder K] [IsStrictOrderedRing K] [FloorRing K] (force : Bool)
    (tFinal dt : K) : Option K :=
  if force then
    if dt = 0 then none
    else
      let n := ⌈tFinal / dt⌉
      if n = 0 then none else some (tFinal / (n : K))
  else some dt

/-! ### Gathering -/

/-- The field values at one particle: the `i`-th entries of the arrays
`ex, ey, ez, bx, by, bz` (gather.py 11-23). -/
@[ext] structure EB (K : Type*) where
  ex : K
  ey : K
  ez : K
  bx : K
  b_y : K
  bz : K

/-- The fields of the library, with the constants `_pre_gather` computes at
gathering time as parameters.

* `none`: `AnalyticalField()` without components (analytical_field.py 76-85);
* `linearBTheta k`: em_fields/linear_b_theta.py 7-18;
* `quadrupole k`: em_fields/quadrupole.py 7-18;
* `simpleBlowout c g ezp off`: plasma_wakefields/simple_blowout.py 18-38, with
  `off = l_p/2 - l_c - field_off + (1-b_w)*c*t` (36);
* `customBlowout c k ez0 ezp off`: custom_blowout.py 38-56, with
  `off = - xi_fields + (1 - b_w)*c*t` (54);
* `focusingBlowout c k`: focusing_blowout.py 12-18, `k` depends on `xi` (22-27);
* `rz f`: a grid wakefield gathered with `gather_main_fields_cyl_linear`, whose
  contribution at a position is `f x y xi` (modelled in `Verif.Interp`). -/
inductive LibField (K : Type*) where
  | none
  | linearBTheta (k : K)
  | quadrupole (k : K)
  | simpleBlowout (c g ezp off : K)
  | customBlowout (c k ez0 ezp off : K)
  | focusingBlowout (c : K) (k : K → K)
  | rz (f : K → K → K → EB K)

/-- Effect of `field.gather` on the field values of one particle (one iteration
of the loops cited in `LibField`, all components). -/
def LibField.gather1 (fl : LibField K) (x y xi : K) (v : EB K) : EB K :=
  match fl with
  | .none => v
  | .linearBTheta k => { v with bx := v.bx - k * y, b_y := v.b_y + k * x }
  | .quadrupole k => { v with bx := v.bx + -k * y, b_y := v.b_y + -k * x }
  | .simpleBlowout c g ezp off =>
    { v with ex := c * g * x, ey := c * g * y, ez := ezp * (xi + off) }
  | .customBlowout c k ez0 ezp off =>
    { v with ex := c * k * x, ey := c * k * y, ez := ez0 + ezp * (xi + off) }
  | .focusingBlowout c k => { v with ex := c * k xi * x, ey := c * k xi * y }
  | .rz f =>
    { ex := v.ex + (f x y xi).ex, ey := v.ey + (f x y xi).ey, ez := v.ez + (f x y xi).ez,
      bx := v.bx + (f x y xi).bx, b_y := v.b_y + (f x y xi).b_y, bz := v.bz }

/-- `Field.gather` (base.py 19-57) as a parallel loop executed in order `ord`. -/
def LibField.gather (fl : LibField K) (ord : List ℕ) (x y xi : ℕ → K) (a : ℕ → EB K) :
    ℕ → EB K :=
  prange ord (at1 fun i v => fl.gather1 (x i) (y i) (xi i) v) a

/-- `reset_particle_fields` (gather.py 59-68). -/
def resetFields (ord : List ℕ) (a : ℕ → EB K) : ℕ → EB K :=
  prange ord (at1 fun _ _ => ⟨0, 0, 0, 0, 0, 0⟩) a

/-- `gather_fields` (gather.py 11-56): reset, then all fields in order.  Each
loop has its own execution order. -/
def gatherFields (fields : List (LibField K × List ℕ)) (ord0 : List ℕ) (x y xi : ℕ → K)
    (a : ℕ → EB K) : ℕ → EB K :=
  fields.foldl (fun a fo => fo.1.gather fo.2 x y xi a) (resetFields ord0 a)

end WakeT.Fields
