import Verif.Bunch.Model
import Verif.CSR.Model
import Mathlib.Analysis.SpecialFunctions.Sqrt
import Mathlib.Analysis.SpecialFunctions.Log.Basic

/-!
# Model of plasma stages, ramps and lenses

`wake_t/beamline_elements/plasma_ramp.py`, `plasma_stage.py`, `active_plasma_lens.py`,
`field_quadrupole.py`.  Not modelled: construction of the wakefield models from keyword
arguments.
-/

set_option linter.unusedSectionVars false

namespace WakeT.Stage

open Bunch (Bunch)
open CSR (linspace)

/-! ### Ramps -/

/-- The arguments of a ramp profile (plasma_ramp.py 19-20). -/
structure Args where
  decayLength : Option ℝ
  top : ℝ
  down : ℝ
  position : ℝ

/-- `inverse_square_profile` (plasma_ramp.py 19-23). -/
noncomputable def inverseSquare (a : Args) (z : ℝ) : ℝ :=
  let l := a.decayLength.getD (a.position / (√(a.top / a.down) - 1))
  a.top / (1 + z / l) ^ 2

/-- `exponential_profile` (plasma_ramp.py 26-30). -/
noncomputable def exponential (a : Args) (z : ℝ) : ℝ :=
  let l := a.decayLength.getD (a.position / Real.log (a.top / a.down))
  a.top * Real.exp (-z / l)

/-- `gaussian_profile` (plasma_ramp.py 33-38). -/
noncomputable def gaussian (a : Args) (z : ℝ) : ℝ :=
  let l := a.decayLength.getD (a.position / √(2 * Real.log (a.top / a.down)))
  a.top * Real.exp (-z ^ 2 / (2 * l ^ 2))

/-- `ramp_profiles` (plasma_ramp.py 41-45). -/
noncomputable def profiles : List (String × (Args → ℝ → ℝ)) :=
  [("inverse_square", inverseSquare), ("exponential", exponential), ("gaussian", gaussian)]

/-- `PlasmaRamp.__init__` for a named profile and `ramp_profile` (plasma_ramp.py 148-180):
the density as a function of the position in the ramp, or `none` for the `ValueError`. -/
noncomputable def ramp (length : ℝ) (profile rampType : String) (decayLength : Option ℝ) (top down : ℝ)
    (position : Option ℝ) : Option (ℝ → ℝ) :=
  (profiles.lookup profile).map fun f z =>
    let z := if rampType = "upramp" then length - z else z
    f ⟨decayLength, top, down, position.getD length⟩ z

/-! ### Automatic time steps -/

/-- `scipy.constants` (plasma_stage.py 150-152). -/
structure Const where
  c : ℝ
  e : ℝ
  me : ℝ
  eps0 : ℝ

/-- The constants are positive. -/
structure Const.Pos (k : Const) : Prop where
  c : 0 < k.c
  e : 0 < k.e
  me : 0 < k.me
  eps0 : 0 < k.eps0

/-- What `_get_optimized_dt` returns (plasma_stage.py 142-156). -/
inductive Dt
  | finite (dt : ℝ)
  /-- numpy divides by zero and returns `inf`. -/
  | infinite
  /-- `ValueError`: `np.min` of an empty array. -/
  | empty

/-- `0.1 / w_x` (plasma_stage.py 153-154, active_plasma_lens.py 136-137,
field_quadrupole.py 69-70). -/
noncomputable def period (wx : ℝ) : Dt := if wx = 0 then .infinite else .finite (0.1 * (1 / wx))

/-- `min_gamma` (plasma_stage.py 145, active_plasma_lens.py 134, field_quadrupole.py 67). -/
noncomputable def minGamma (b : Bunch) : Option ℝ :=
  ((List.range b.n).map fun i => (b.ph i).pz).min?.map fun p => √(p ^ 2 + 1)

/-- `PlasmaStage._get_optimized_dt` (plasma_stage.py 142-155). -/
noncomputable def stageDt (k : Const) (density : ℝ → ℝ) (length : ℝ) (b : Bunch) : Dt :=
  match minGamma b with
  | none => .empty
  | some g =>
    let np := (List.range 100).map fun j => density (linspace 0 length 100 j)
    let qOverM := b.qSpecies / b.mSpecies
    let wp := √(np.max?.getD 0 * k.e ^ 2 / (k.me * k.eps0))
    let maxKx := (k.me / (2 * k.e * k.c)) * wp ^ 2
    period √|qOverM * k.c * maxKx / g|

/-- `FieldQuadrupole._get_optimized_dt` (field_quadrupole.py 63-71). -/
noncomputable def quadDt (k : Const) (foc : ℝ) (b : Bunch) : Dt :=
  match minGamma b with
  | none => .empty
  | some g => period √|b.qSpecies / b.mSpecies * k.c * foc / g|

/-- `ActivePlasmaLens._get_optimized_dt` (active_plasma_lens.py 125-138). -/
noncomputable def lensDt (k : Const) (wakefields : Bool) (foc : ℝ) (density : ℝ → ℝ) (length : ℝ)
    (b : Bunch) : Dt :=
  if wakefields then stageDt k density length b else quadDt k foc b

end WakeT.Stage
