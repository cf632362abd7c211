import Verif.Laser.Tdma
import Verif.Laser.Unwrap
import Mathlib.Analysis.SpecialFunctions.Complex.Arg
import Mathlib.Analysis.Complex.Norm

/-! # Model of the laser envelope solvers

`wake_t/physics_models/laser/envelope_solver.py` and `envelope_solver_non_centered.py`.
`fastmath` (reordering of floating-point operations) is not modelled. -/

set_option linter.unusedSectionVars false

namespace WakeT.Laser

open Complex (I)

/-- A row of an envelope array: the radial direction (envelope_solver.py 90-91). -/
abbrev RowC := ℕ → ℂ

/-- An envelope array (laser_pulse.py 163-164). -/
abbrev GridC := ℕ → RowC

/-- Arguments of `evolve_envelope` (envelope_solver.py 19-21); `c` is the speed of light. -/
structure EnvParams where
  c : ℝ
  k0 : ℝ
  kp : ℝ
  zmin : ℝ
  zmax : ℝ
  nz : ℕ
  rmax : ℝ
  nr : ℕ
  dt : ℝ
  nt : ℕ
  usePhase : Bool

namespace EnvParams

/-- envelope_solver.py 60. -/
noncomputable def dz (p : EnvParams) : ℝ := (p.zmax - p.zmin) * p.kp / (p.nz - 1)
/-- envelope_solver.py 61. -/
noncomputable def dr (p : EnvParams) : ℝ := p.rmax * p.kp / p.nr
/-- The normalized step (envelope_solver.py 62). -/
noncomputable def dtn (p : EnvParams) : ℝ := p.dt * p.c * p.kp
/-- envelope_solver.py 65. -/
noncomputable def invDt (p : EnvParams) : ℝ := 1 / p.dtn
/-- envelope_solver.py 66. -/
noncomputable def invDr (p : EnvParams) : ℝ := 1 / p.dr
/-- envelope_solver.py 67. -/
noncomputable def invDz (p : EnvParams) : ℝ := 1 / p.dz
/-- envelope_solver.py 68. -/
noncomputable def invDzdt (p : EnvParams) : ℝ := p.invDt * p.invDz

/-- `L_minus_over_2` (envelope_solver.py 83-84). -/
noncomputable def lMinus (p : EnvParams) (k : ℕ) : ℝ :=
  (1 - 1 / (2 * (k + 0.5))) * p.invDr ^ 2 * 0.5
/-- `L_plus_over_2` (envelope_solver.py 83, 85). -/
noncomputable def lPlus (p : EnvParams) (k : ℕ) : ℝ :=
  (1 + 1 / (2 * (k + 0.5))) * p.invDr ^ 2 * 0.5

/-- `phases` (envelope_solver.py 94-95).  The period in the code is the closest binary64
number to 2π. -/
noncomputable def phases (a : GridC) : ℕ → ℝ := unwrap (2 * Real.pi) none fun i => (a i 0).arg

/-- `d_theta1`, `d_theta2` (envelope_solver.py 71-72, 101-103). -/
noncomputable def theta (p : EnvParams) (ph : ℕ → ℝ) (j : ℕ) : ℝ × ℝ :=
  if p.usePhase then (ph (j + 1) - ph j, ph (j + 2) - ph (j + 1)) else (0, 0)

/-- `D_jkn` (envelope_solver.py 106). -/
noncomputable def bigD (p : EnvParams) (th : ℝ × ℝ) : ℝ := (1.5 * th.1 - 0.5 * th.2) * p.invDz

/-! #### Centred scheme -/

/-- `C_minus` (envelope_solver.py 76-77). -/
noncomputable def cMinus (p : EnvParams) : ℂ :=
  -2 * p.invDr ^ 2 * 0.5 - I * (p.k0 / p.kp) * p.invDt + 1.5 * p.invDzdt - p.invDt ^ 2
/-- `C_plus` (envelope_solver.py 78-79). -/
noncomputable def cPlus (p : EnvParams) : ℂ :=
  -2 * p.invDr ^ 2 * 0.5 + I * (p.k0 / p.kp) * p.invDt - 1.5 * p.invDzdt - p.invDt ^ 2

/-- Right-hand side (envelope_solver.py 109-123) at row `j`, column `k`. -/
noncomputable def rhs (p : EnvParams) (chi : ℕ → ℕ → ℝ) (th : ℝ × ℝ) (a aOld : GridC) (new1 new2 : RowC)
    (j k : ℕ) : ℂ :=
  -2 * p.invDt ^ 2 * a j k
    - (p.cMinus - chi j k * 0.5 - I * p.invDt * p.bigD th) * aOld j k
    - 2 * Complex.exp (-I * th.1) * p.invDzdt * (new1 k - aOld (j + 1) k)
    + 0.5 * Complex.exp (-I * (th.2 + th.1)) * p.invDzdt * (new2 k - aOld (j + 2) k)
    - (if 0 < k then p.lMinus k * aOld j (k - 1) else 0)
    - (if k + 1 < p.nr then p.lPlus k * aOld j (k + 1) else 0)

/-- `d_main` (envelope_solver.py 126). -/
noncomputable def dMain (p : EnvParams) (chi : ℕ → ℕ → ℝ) (th : ℝ × ℝ) (j k : ℕ) : ℂ :=
  p.cPlus - chi j k * 0.5 + I * p.invDt * p.bigD th

/-! #### Non-centred scheme -/

/-- `C_minus` (envelope_solver_non_centered.py 76-77). -/
noncomputable def cMinusN (p : EnvParams) : ℂ :=
  -2 * p.invDr ^ 2 * 0.5 - 2 * I * (p.k0 / p.kp) * p.invDt + 3 * p.invDzdt
/-- `C_plus` (envelope_solver_non_centered.py 78-79). -/
noncomputable def cPlusN (p : EnvParams) : ℂ :=
  -2 * p.invDr ^ 2 * 0.5 + 2 * I * (p.k0 / p.kp) * p.invDt - 3 * p.invDzdt

/-- Right-hand side (envelope_solver_non_centered.py 109-122). -/
noncomputable def rhsN (p : EnvParams) (chi : ℕ → ℕ → ℝ) (th : ℝ × ℝ) (a : GridC) (new1 new2 : RowC)
    (j k : ℕ) : ℂ :=
  -(p.cMinusN - chi j k * 0.5 - 2 * I * p.invDt * p.bigD th) * a j k
    - 4 * Complex.exp (-I * th.1) * p.invDzdt * (new1 k - a (j + 1) k)
    + 1 * Complex.exp (-I * (th.2 + th.1)) * p.invDzdt * (new2 k - a (j + 2) k)
    - (if 0 < k then p.lMinus k * a j (k - 1) else 0)
    - (if k + 1 < p.nr then p.lPlus k * a j (k + 1) else 0)

/-- `d_main` (envelope_solver_non_centered.py 125). -/
noncomputable def dMainN (p : EnvParams) (chi : ℕ → ℕ → ℝ) (th : ℝ × ℝ) (j k : ℕ) : ℂ :=
  p.cPlusN - chi j k * 0.5 + 2 * I * p.invDt * p.bigD th

/-- `d_upper` (envelope_solver.py 127). -/
noncomputable def dUpper (p : EnvParams) (k : ℕ) : ℂ := p.lPlus k
/-- `d_lower` (envelope_solver.py 128). -/
noncomputable def dLower (p : EnvParams) (k : ℕ) : ℂ := p.lMinus (k + 1)

/-- The new row `j`, computed from the arrays as they are (envelope_solver.py 99-128, 140;
the same lines in the other solver). -/
noncomputable def row (p : EnvParams) (centered : Bool) (chi : ℕ → ℕ → ℝ) (ph : ℕ → ℝ) (j : ℕ)
    (a aOld : GridC) (new1 new2 : RowC) : RowC :=
  let th := p.theta ph j
  if centered then
    tdma p.nr p.dLower (p.dMain chi th j) p.dUpper (p.rhs chi th a aOld new1 new2 j)
  else
    tdma p.nr p.dLower (p.dMainN chi th j) p.dUpper (p.rhsN chi th a new1 new2 j)

end EnvParams

/-- The arrays during the sweep (envelope_solver.py 88-98). -/
structure Sweep where
  a : GridC
  aOld : GridC
  new1 : RowC
  new2 : RowC

/-- One iteration of the loop over `z` (envelope_solver.py 98-140): `row j` stands for the
computation of the new row. -/
def sweepStep (row : ℕ → GridC → GridC → RowC → RowC → RowC) (j : ℕ) (s : Sweep) : Sweep :=
  { a := Function.update s.a (j + 2) s.new2
    aOld := Function.update s.aOld (j + 2) (s.a (j + 2))
    new1 := row j s.a s.aOld s.new1 s.new2
    new2 := s.new1 }

/-- The loop over `z`, from `j - 1` down to 0. -/
def sweepFrom (row : ℕ → GridC → GridC → RowC → RowC → RowC) : ℕ → Sweep → Sweep
  | 0, s => s
  | j + 1, s => sweepFrom row j (sweepStep row j s)

/-- One time step on the pair of arrays (envelope_solver.py 88-146). -/
def sweep (row : ℕ → GridC → GridC → RowC → RowC → RowC) (nz : ℕ) (a aOld : GridC) : GridC × GridC :=
  let s := sweepFrom row nz ⟨a, aOld, 0, 0⟩
  (Function.update (Function.update s.a 0 s.new1) 1 s.new2,
    Function.update (Function.update s.aOld 0 (s.a 0)) 1 (s.a 1))

/-- One time step of a solver (body of the loop over `nt` in envelope_solver.py and
envelope_solver_non_centered.py, from line 88). -/
noncomputable def EnvParams.step (p : EnvParams) (centered : Bool) (chi : ℕ → ℕ → ℝ) (s : GridC × GridC) :
    GridC × GridC :=
  sweep (p.row centered chi (EnvParams.phases s.1)) p.nz s.1 s.2

/-- `evolve_envelope` and `evolve_envelope_non_centered` (loop over time
envelope_solver.py 88): both arrays after `nt` steps. -/
noncomputable def EnvParams.evolve (p : EnvParams) (centered : Bool) (chi : ℕ → ℕ → ℝ) (s : GridC × GridC) :
    GridC × GridC :=
  (p.step centered chi)^[p.nt] s

end WakeT.Laser
