import Verif.Base.Tactics
import Mathlib.Analysis.SpecialFunctions.Complex.Arg
import Mathlib.Analysis.SpecialFunctions.Log.Basic
import Mathlib.Analysis.SpecialFunctions.Sqrt
import Mathlib.Data.Nat.Choose.Basic
import Mathlib.Data.Nat.Factorial.Basic
import Mathlib.Algebra.BigOperators.Intervals

/-! # Model of the laser profiles

`wake_t/physics_models/laser/laser_pulse.py`: the classes of pulses and their envelopes.
`OpenPMDPulse` (which delegates to `lasy`) is not modelled. -/

set_option linter.unusedSectionVars false

namespace WakeT.Laser

open Complex (I)

/-- Polarization attribute (laser_pulse.py 50). -/
inductive Pol where
  | linear
  | circular
  deriving DecidableEq

/-- What is visible of a pulse before it is evolved: wavelength, polarization, envelope
function of `xi`, `r`, `z_pos` (laser_pulse.py 44-53, 229-239), and the attribute `xi_c` if
it has one. -/
structure LPulse where
  l0 : ℝ
  pol : Pol
  env : ℝ → ℝ → ℝ → ℂ
  xiC : Option ℝ

/-- `pulse_1 + pulse_2` (laser_pulse.py 55-57, 332-349); `none` for the `ValueError`.  The
polarization is not passed on, so that it has the default value. -/
noncomputable def LPulse.add (p1 p2 : LPulse) : Option LPulse :=
  if p1.l0 ≠ p2.l0 then none
  else some { l0 := p1.l0, pol := .linear, env := fun xi r z => p1.env xi r z + p2.env xi r z, xiC := none }

/-- `p1 + p2 + p3 + …` -/
noncomputable def LPulse.addAll (p : LPulse) (l : List LPulse) : Option LPulse :=
  l.foldlM (fun s q => s.add q) p

/-- `s_z` (laser_pulse.py 405, 489); `c` is the speed of light. -/
noncomputable def sz (c tau : ℝ) : ℝ := tau * c / (2 * Real.sqrt (2 * Real.log 2)) * Real.sqrt 2

/-- Parameters of the Gaussian and Laguerre-Gauss pulses (laser_pulse.py 379-397, 454-482). -/
structure GaussPar where
  c : ℝ
  xiC : ℝ
  a0 : ℝ
  w0 : ℝ
  tau : ℝ
  zFoc : ℝ
  l0 : ℝ
  cep : ℝ
  pol : Pol

namespace GaussPar

/-- `z_r` (laser_pulse.py 396, 476). -/
noncomputable def zR (g : GaussPar) : ℝ := Real.pi * g.w0 ^ 2 / g.l0

/-- `diff_factor` (laser_pulse.py 403-404, 486-488). -/
noncomputable def diff (g : GaussPar) (xi z : ℝ) : ℂ := 1 + I * ((xi - g.xiC + z : ℝ) - g.zFoc) / g.zR

/-- `GaussianPulse._envelope_function` (laser_pulse.py 399-414). -/
noncomputable def gaussEnv (g : GaussPar) (xi r z : ℝ) : ℂ :=
  g.a0 / g.diff xi z *
    Complex.exp (-I * g.cep + -(r : ℂ) ^ 2 / ((g.w0 : ℂ) ^ 2 * g.diff xi z) +
      (-(xi - g.xiC) ^ 2 / (2 * sz g.c g.tau ^ 2) : ℝ))

/-- `GaussianPulse` (laser_pulse.py 352-414). -/
noncomputable def gaussian (g : GaussPar) : LPulse := ⟨g.l0, g.pol, g.gaussEnv, some g.xiC⟩

end GaussPar

/-- `genlaguerre(p, 0)` (laser_pulse.py 475): the Laguerre polynomial. -/
noncomputable def laguerre (p : ℕ) (x : ℝ) : ℝ :=
  ∑ k ∈ Finset.range (p + 1), (p.choose k : ℝ) * (-x) ^ k / k.factorial

namespace GaussPar

/-- `LaguerreGaussPulse._envelope_function` (laser_pulse.py 484-504). -/
noncomputable def lgEnv (g : GaussPar) (p : ℕ) (xi r z : ℝ) : ℂ :=
  let w := g.w0 * ‖g.diff xi z‖
  g.a0 * (Complex.exp (-I * g.cep - (r : ℂ) ^ 2 / ((g.w0 : ℂ) ^ 2 * g.diff xi z) -
      ((xi - g.xiC) ^ 2 / (2 * sz g.c g.tau ^ 2) : ℝ) - I * (2 * p) * (g.diff xi z).arg) / g.diff xi z *
    laguerre p (2 * r ^ 2 / w ^ 2))

/-- `LaguerreGaussPulse` (laser_pulse.py 417-504).  `z_foc=None` (470-471) is not modelled. -/
noncomputable def laguerreGauss (g : GaussPar) (p : ℕ) : LPulse := ⟨g.l0, g.pol, g.lgEnv p, some g.xiC⟩

/-- `cn` (laser_pulse.py 574-575). -/
noncomputable def flatCoeff (N n : ℕ) : ℝ :=
  (-1) ^ n * (∑ m ∈ Finset.Ico n (N + 1), 0.5 ^ m * (m.choose n : ℝ)) / (N + 1)

/-- The mode `n` of the flattened Gaussian (laser_pulse.py 566-578). -/
noncomputable def flatMode (g : GaussPar) (N n : ℕ) : LPulse :=
  laguerreGauss { g with
    a0 := flatCoeff N n * g.a0
    cep := g.cep + 2 * n * Real.pi / 2
    w0 := g.w0 * Real.sqrt (N + 1) } n

/-- `FlattenedGaussianPulse` (laser_pulse.py 507-589): the sum of the modes, in a pulse with
the given wavelength, polarization and centre. -/
noncomputable def flattened (g : GaussPar) (N : ℕ) : Option LPulse :=
  ((g.flatMode N 0).addAll ((List.range N).map fun n => g.flatMode N (n + 1))).map fun s =>
    ⟨g.l0, g.pol, s.env, some g.xiC⟩

end GaussPar

/-- `get_group_velocity` (laser_pulse.py 208-227): in units of the speed of light, although the documentation
does not say so.  `e`, `me`, `eps0`, `c` are the constants. -/
noncomputable def groupVelocity (e me eps0 c l0 np : ℝ) : ℝ :=
  let wp := Real.sqrt (np * e ^ 2 / (me * eps0))
  let k := 2 * Real.pi / l0
  k * c ^ 2 / Real.sqrt (wp ^ 2 + k ^ 2 * c ^ 2) / c

end WakeT.Laser
