import Verif.Tracker.Turned
import Verif.Plasma.SolverProps
import Verif.Plasma.ColdFluid
import Verif.Laser.Subgrid
import Verif.Stage.Model

/-! # Model of a plasma stage with a wakefield on a grid

`wake_t/fields/rz_wakefield.py` (`RZWakefield`), its subclasses
`wake_t/physics_models/plasma_wakefields/qs_rz_baxevanis/wakefield.py` and
`qs_cold_fluid_1x3p.py`, and `wake_t/beamline_elements/plasma_stage.py`.  The solvers, the laser
pulse, the bunches and the tracking are modelled in the other directories; this file puts them
together.

`none` as the state of a wakefield stands for an exception or an access outside of an array. -/

set_option linter.unusedSectionVars false

namespace WakeT.Stage

open Bunch FieldElement Laser
open Plasma (QS padded)
open Plasma.QS (Fld)
open Push (PField Sched)
open Fields (NumField FieldOps)

/-- What a wakefield uses of its `LaserPulse`, which has not been used before: `l_0`,
`polarization` and the envelope function at `z_pos = 0` (laser_pulse.py 44-53, 229-236). -/
structure Pulse where
  l0 : ℝ
  polarization : String
  prof : ℝ → ℝ → ℂ

/-- Attributes of an `RZWakefield` (rz_wakefield.py 67-106).  `solve t n_p laser bunches arrays`
is the method `_calculate_wakefield` of the subclass (145-147), with the envelope of the laser
after its polarization; it returns the new arrays. -/
structure Wake where
  k : Const
  density : ℝ → ℝ
  rMax : ℝ
  xiMin : ℝ
  xiMax : ℝ
  nR : ℕ
  nXi : ℕ
  dzFields : Option ℝ
  laser : Option Pulse
  laserEvolution : Bool
  substeps : ℕ
  laserNxi : Option ℕ
  laserNr : Option ℕ
  usePhase : Bool
  solve : ℝ → ℝ → Option (String × (ℕ → ℕ → ℂ)) → List Bunch → Fld → Option Fld

/-- The properties of a wakefield that change: arrays of the pulse, `n_p`, field arrays
(rz_wakefield.py 110-137). -/
structure Props where
  laser : Option PulseArrays
  np : ℝ
  fld : Fld

namespace Wake
variable (w : Wake)

/-- The period of updates (rz_wakefield.py 84, 103). -/
noncomputable def dt0 : ℝ := w.dzFields.getD (w.xiMax - w.xiMin) / w.k.c

/-- The parameters of the envelope solver (rz_wakefield.py 110-115; laser_pulse.py 187). -/
noncomputable def setup (p : Pulse) (dt : ℝ) : Setup :=
  ⟨w.k.c, 2 * Real.pi / p.l0, w.xiMin, w.xiMax, w.rMax, w.nXi, w.nR, dt, w.substeps, w.laserNxi, w.laserNr, w.usePhase⟩

/-- `k_p` (laser_pulse.py 188). -/
noncomputable def kp (np : ℝ) : ℝ := √(w.k.e ^ 2 * np / (w.k.me * w.k.eps0)) / w.k.c

/-- Arrays of zeros (rz_wakefield.py 119-126, 138-142). -/
def zeros : Fld := ⟨0, 0, 0, 0, 0⟩

/-- The envelope passed to the solver: `get_envelope()` and the polarization
(wakefield.py 169-174; qs_cold_fluid_1x3p.py 148-153). -/
def envelope (l : Option PulseArrays) : Option (String × (ℕ → ℕ → ℂ)) :=
  match w.laser, l with
  | some p, some e => some (p.polarization, e.out)
  | _, _ => none

/-- `_initialize_properties` (rz_wakefield.py 108-128). -/
noncomputable def initProps (dt : ℝ) : Option Props :=
  match w.laser with
  | none => some ⟨none, 0, zeros⟩
  | some p => ((w.setup p dt).init p.prof).map fun e => ⟨some e, 0, zeros⟩

/-- `_evolve_properties` (rz_wakefield.py 130-134): `chi[2:-2, 2:-2]` and `n_p` are those of the
last calculation. -/
noncomputable def evolveProps (dt : ℝ) (s : Props) : Option Props :=
  match w.laser, s.laser with
  | some p, some e =>
    if w.laserEvolution then
      ((w.setup p dt).evolve (fun i j => s.fld.chi (i + 2) (j + 2), w.kp s.np) e).map fun e' => { s with laser := some e' }
    else some s
  | _, _ => some s

/-- `_calculate_field` (rz_wakefield.py 136-143). -/
noncomputable def calculateProps (t : ℝ) (bunches : List Bunch) (s : Props) : Option Props :=
  let np := w.density (t * w.k.c)
  (w.solve t np (w.envelope s.laser) bunches zeros).map fun f => { s with np := np, fld := f }

/-- The methods of the subclass of `NumericalField` (rz_wakefield.py 108-143). -/
noncomputable def ops (dt : ℝ) : FieldOps ℝ (Option Props) (List Bunch) where
  init := fun _ _ _ => w.initProps dt
  evolve := fun s _ _ => s.bind (w.evolveProps dt)
  calculate := fun s t b => s.bind (w.calculateProps t b)

/-- The grid arguments of the gathering (rz_wakefield.py 127-128, 149-155). -/
noncomputable def box : Interp.Box where
  zMin := w.xiMin
  zMax := w.xiMax
  rMin := w.rMax / w.nR / 2
  rMax := w.rMax - w.rMax / w.nR / 2
  dz := (w.xiMax - w.xiMin) / ((w.nXi : ℝ) - 1)
  dr := w.rMax / w.nR

/-- An array with guard cells (rz_wakefield.py 119-126). -/
def arr (f : ℤ → ℤ → ℝ) : Arr ℝ := ⟨w.nXi + 4, w.nR + 4, f⟩

/-- `_gather` (rz_wakefield.py 149-155).  A failure of the gathering (a particle on the axis, C13) is
not modelled: the particle then feels nothing. -/
noncomputable def field (s : Option Props) : List PField :=
  match s with
  | none => []
  | some s => [gridField w.box (w.arr s.fld.er) (w.arr s.fld.ez) (w.arr s.fld.bt)]

/-- The update period after `adjust_dt` (rz_wakefield.py 102-106; numerical_field.py 92-99). -/
noncomputable def dtUpdate (length : ℝ) : Option ℝ := Fields.adjustDt w.laser.isSome (length / w.k.c) w.dt0

/-- A new wakefield whose period has been adjusted (numerical_field.py 46-48, 92-99). -/
def start (dt : ℝ) : NumField ℝ (Option Props) := ⟨dt, false, 0, none⟩

end Wake

/-- A `PlasmaStage` with a wakefield on a grid (plasma_stage.py 87-116); `ext` are the external
fields, which are analytical. -/
structure PStage (F : Type) where
  wake : Wake
  length : ℝ
  dtBunch : OneOrMany (Option ℝ)
  pusher : String
  nOut : ℕ
  pushBefore : Bool
  ext : List PField
  autoDt : Bunch → ℝ
  sch : ℕ → Sched
  f32 : ℝ → F

/-- The `FieldElement` of the stage (plasma_stage.py 100-116): the wakefield is the only numerical
field, with index 0. -/
noncomputable def PStage.elem {F : Type} (p : PStage F) : Elem F (NumField ℝ (Option Props)) where
  length := p.length
  dtBunch := p.dtBunch
  pusher := p.pusher
  nOut := p.nOut
  numFields := [(p.wake.dt0, p.wake.laser.isSome)]
  autoDt := p.autoDt
  pushBefore := p.pushBefore
  c := p.wake.k.c
  felt := fun φ => p.wake.field φ.prop ++ p.ext
  update := fun bs φ j => if j = 0 then φ.update (p.wake.ops φ.dt) bs else φ
  sch := p.sch
  f32 := p.f32

/-- `track` of a stage that is used for the first time (field_element.py 79-154). -/
noncomputable def PStage.track {F : Type} [LinearOrder F] (p : PStage F) (opmd : Bool) (fuel : ℕ)
    (bunches : OneOrMany Bunch) (b0 : Bunch) : Result (OneOrMany (List Bunch) × World (NumField ℝ (Option Props))) :=
  match p.wake.dtUpdate p.length with
  | none => .nan
  | some dt => p.elem.track opmd fuel bunches b0 (Wake.start dt)

/-! ### The two wakefield models -/

/-- The functions of the package `aptools` that are used: skin depth and wave-breaking field for
a density in cm⁻³ (calls in solver.py 80, 129, 477; qs_cold_fluid_1x3p.py 161, 220-221). -/
structure Plasma1 where
  skinDepth : ℝ → ℝ
  waveBreaking : ℝ → ℝ

/-- Arguments of `Quasistatic2DWakefield` (wakefield.py 119-163) beyond those of `RZWakefield`.
`parabolic` is `_get_parabolic_coefficient_fn(parabolic_coefficient)` (189-200). -/
structure QArgs where
  ppc : ℕ
  rMaxPlasma : Option ℝ
  parabolic : ℝ → ℝ
  pShape : String
  maxGamma : ℝ
  pusher : String
  argsort : (ℕ → ℝ) → ℕ → ℕ

/-- Particles of a bunch in units of the skin depth `s` (solver.py 477-485); the weight is
multiplied by `f`. -/
noncomputable def partsOf (s f : ℝ) (b : Bunch) : List (Deposition.Part ℝ) :=
  (List.range b.n).map fun i : ℕ => ⟨(b.ph i).xi / s, √(((b.ph i).x / s) ^ 2 + ((b.ph i).y / s) ^ 2), b.q i * f⟩

/-- `a_env_2` (wakefield.py 168-176). -/
noncomputable def aEnv2 (env : Option (String × (ℕ → ℕ → ℂ))) : ℕ → ℕ → ℝ :=
  match env with
  | none => fun _ _ => 0
  | some (pol, a) => fun i j => if pol = "linear" then ‖a i j‖ ^ 2 / 2 else ‖a i j‖ ^ 2

/-- The solver for the density `np` and the profile coefficient `pc` (wakefield.py 178-187; solver.py 80-97). -/
noncomputable def Wake.quasi (w : Wake) (q : QArgs) (s pc : ℝ) : QS :=
  QS.ofArgs (w.rMax / s) (w.xiMin / s) (w.xiMax / s) w.nR w.nXi q.ppc (q.rMaxPlasma.map (· / s)) (pc * s ^ 2)
    q.pShape q.maxGamma q.argsort

/-- `_calculate_wakefield` of `Quasistatic2DWakefield` (wakefield.py 165-187). -/
noncomputable def Wake.quasiCalc (w : Wake) (a : Plasma1) (q : QArgs) (t np : ℝ) (env : Option (String × (ℕ → ℕ → ℂ)))
    (bunches : List Bunch) (f : Fld) : Option Fld :=
  let s := a.skinDepth (np / 1e6)
  let c := w.quasi q s (q.parabolic (t * w.k.c))
  (c.calculate q.pusher (aEnv2 env)
    (bunches.map (partsOf s (1 / w.k.e / (2 * Real.pi * c.dr * c.dxi * s ^ 3 * np))))
    (a.waveBreaking (np / 1e6)) w.k.c f).toOption

/-- `a_env` of the cold fluid model (qs_cold_fluid_1x3p.py 148-155). -/
noncomputable def aEnvAbs (env : Option (String × (ℕ → ℕ → ℂ))) : Option (ℕ → ℕ → ℝ) :=
  env.map fun x i j => if x.1 = "linear" then ‖x.2 i j‖ / √2 else ‖x.2 i j‖

/-- `beam_hist` (qs_cold_fluid_1x3p.py 166-181); `none` if the shape is not known. -/
noncomputable def Wake.beamHist (w : Wake) (shape : String) (s np : ℝ) (bunches : List Bunch) : Option (ℕ → ℕ → ℝ) :=
  let dz := (w.xiMax - w.xiMin) / ((w.nXi : ℝ) - 1) / s
  let dr := w.rMax / w.nR / s
  let g : Deposition.Grid ℝ := ⟨w.xiMin / s, dr / 2, w.nXi, w.nR, dz, dr⟩
  match bunches with
  | [] => some fun _ _ => 0
  | _ => (Deposition.parseShape shape).map fun sh i k =>
      (bunches.foldl (fun h b => Deposition.depositShape sh true g (partsOf s (1 / w.k.e) b) h) fun _ _ => 0)
        ((i : ℤ) + 2) ((k : ℤ) + 2) * (1 / (Real.pi * dr ^ 2 * (1 + 2 * (k : ℝ)) * dz * np) / s ^ 3)

/-- `_calculate_wakefield` of `NonLinearColdFluidWakefield` (qs_cold_fluid_1x3p.py 146-242). -/
noncomputable def Wake.coldCalc (w : Wake) (a : Plasma1) (beamWakefields : Bool) (shape : String) (_t np : ℝ)
    (env : Option (String × (ℕ → ℕ → ℂ))) (bunches : List Bunch) (f : Fld) : Option Fld :=
  let s := a.skinDepth (np / 1e6)
  (w.beamHist shape s np bunches).map fun h =>
    let m : ColdFluid.Cold := ⟨w.nXi, w.nR, w.xiMin / s, (w.xiMax - w.xiMin) / ((w.nXi : ℝ) - 1) / s, w.rMax / w.nR / s,
      beamWakefields, aEnvAbs env, h⟩
    let e0 := a.waveBreaking (np / 1e6)
    { rho := QS.setInner w.nXi w.nR f.rho m.rho
      chi := QS.setInner w.nXi w.nR f.chi m.chi
      ez := QS.setInner w.nXi w.nR f.ez fun i j => (m.fields e0 w.k.c i j).1
      er := QS.setInner w.nXi w.nR f.er fun i j => (m.fields e0 w.k.c i j).2.1
      bt := QS.setInner w.nXi w.nR f.bt fun i j => (m.fields e0 w.k.c i j).2.2 }

/-! ### An instance -/

/-- A stage of length 1 with a quasistatic wakefield on a grid of five by four cells, driven by a
laser pulse and by the bunches, with two updates and two outputs (in units with `c = 1`). -/
noncomputable def demoWake (evolution : Bool) : Wake :=
  let w : Wake := ⟨⟨1, 1, 1, 1⟩, fun z => 1 + z, 4, -4, 0, 4, 5, some (3 / 5),
    some ⟨1, "linear", fun xi r => (Real.exp (-(xi + 2) ^ 2 - r ^ 2) : ℝ)⟩, evolution, 2, none, none, true,
    fun _ _ _ _ f => some f⟩
  { w with solve := w.quasiCalc ⟨fun _ => 1, fun _ => 1⟩ ⟨2, none, fun _ => 0, "linear", 10, "ab5", fun _ i => i⟩ }

/-- The stage of the instance, with an adaptive time step. -/
noncomputable def demoStage (evolution : Bool) (sch : ℕ → Sched) : PStage ℝ where
  wake := demoWake evolution
  length := 1
  dtBunch := .one none
  pusher := "boris"
  nOut := 2
  pushBefore := true
  ext := []
  autoDt := fun b => match stageDt ⟨1, 1, 1, 1⟩ (fun z => 1 + z) 1 b with
    | .finite d => 1 / 5 + d ^ 2
    | _ => 1
  sch := sch
  f32 := id

theorem demo_auto (evolution : Bool) (sch : ℕ → Sched) (b : Bunch) : 1 / 5 ≤ (demoStage evolution sch).autoDt b := by
  unfold demoStage
  dsimp only
  split
  · nlinarith [sq_nonneg (0 : ℝ), sq_nonneg ‹ℝ›]
  · norm_num

theorem demo_ok (evolution : Bool) (sch : ℕ → Sched) : (demoStage evolution sch).elem.Ok where
  length := by norm_num [PStage.elem, demoStage]
  c := by norm_num [PStage.elem, demoStage, demoWake]
  steps := by
    intro d hd
    simp [PStage.elem, demoStage, OneOrMany.toList] at hd
  auto := fun b => lt_of_lt_of_le (by norm_num) (demo_auto evolution sch b)
  fields := by
    intro x hx
    simp [PStage.elem, demoStage] at hx
    rw [hx]
    norm_num [Wake.dt0, demoWake]
  mono := monotone_id
  sep := by norm_num [PStage.elem, demoStage, demoWake]

/-- The wakefield of the instance is updated at 0, 1/2 and 1. -/
theorem demo_dt (evolution : Bool) : (demoWake evolution).dtUpdate 1 = some (1 / 2) := by
  show Fields.adjustDt true ((1 : ℝ) / 1) (3 / 5 / 1) = _
  have h : ⌈((1 : ℝ) / 1) / (3 / 5 / 1)⌉ = 2 := by rw [Int.ceil_eq_iff]; norm_num
  unfold Fields.adjustDt
  rw [if_pos rfl, if_neg (by norm_num)]
  dsimp only
  rw [h, if_neg (by norm_num)]
  norm_num

/-- The stage of the instance tracks any bunch. -/
theorem demo_returns (evolution : Bool) (sch : ℕ → Sched) (bs : OneOrMany Bunch) (b0 : Bunch) :
    ∃ fuel r, (demoStage evolution sch).track false fuel bs b0 = .returned r := by
  have hdt : (demoStage evolution sch).wake.dtUpdate (demoStage evolution sch).length = some (1 / 2) := demo_dt evolution
  unfold PStage.track
  rw [hdt]
  exact track_returns (demo_ok evolution sch) strictMono_id (by norm_num [PStage.elem, demoStage]) (δ := 1 / 5)
    (by norm_num) (demo_auto evolution sch) bs (by intro l hl; cases hl) false b0 _

end WakeT.Stage
