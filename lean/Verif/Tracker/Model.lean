import Mathlib.Algebra.Order.Field.Basic
import Mathlib.Logic.Function.Basic

/-!
# Model of `wake_t/tracking/tracker.py` (class `Tracker`)

The bunches, the fields and everything they contain are an abstract world
state `σ`; the operations the tracker applies to them are parameters.  Times
are elements of a linearly ordered field `K` (exact arithmetic), the cast
`np.float32` is an arbitrary function `f32` into a linear order `F`.

Not modelled: progress bar (155-160, 248, 255), thread count (150-153, 260),
the openPMD writer called by the diagnostics (modelled in `Verif.Diag`).
-/

set_option linter.unusedSectionVars false

namespace WakeT.Tracker

/-- Events of a tracking, recorded in a ghost log (the code keeps no log).

* `push forced i t dt`: `bunch.evolve(self.fields, t, dt, ...)` was called for
  bunch `i` (tracker.py 290); `forced` tells whether the push was triggered by
  the diagnostics (233-240) rather than by the clock of the bunch (213-220).
* `update j t`: `field.update(self.bunches)` (164, 224) at tracking time `t`.
* `diag t`: `self.generate_diagnostics()` (167, 242) at tracking time `t`. -/
inductive Ev (K : Type*) where
  | push (forced : Bool) (i : ℕ) (t dt : K)
  | update (j : ℕ) (t : K)
  | diag (t : K)
  deriving DecidableEq

/-- Arguments of `Tracker.__init__` (tracker.py 86-99) together with the
operations of the outside world.

* `dtBunch i`: entry of `dt_bunches`; `none` is the string `'auto'`.
* `dtField j`: `dt_update` of the `j`-th numerical field after `adjust_dt`
  (114-116; `adjust_dt` is modelled in `Verif.Fields`).
* `autoDt`: `auto_dt_bunch_f` (93) on bunch `i` of the world.
* `evolve w i t dt`: `bunch.evolve` (290); `updateF w j`: `field.update`.
* `opmd`: whether `opmd_diags is not None`.

Simplification: `dt_bunches` has exactly one entry per bunch (FieldElement
checks this before calling, field_element.py 120-127). -/
structure Cfg (K F σ : Type*) where
  tFinal : K
  nBunch : ℕ
  nField : ℕ
  nDiag : ℕ
  dtBunch : ℕ → Option K
  dtField : ℕ → K
  autoDt : σ → ℕ → K
  pushBeforeDiags : Bool
  opmd : Bool
  f32 : K → F
  evolve : σ → ℕ → K → K → σ
  updateF : σ → ℕ → σ

/-- Local variables of the tracking loop: `t_objects`, `dt_objects` (tracker.py 171-172,
functions of the index), the world, the stored snapshots (`bunch_list`, one
entry per call of `generate_diagnostics`) and the ghost log. -/
structure St (K σ : Type*) where
  t : ℕ → K
  dt : ℕ → K
  w : σ
  snaps : List σ
  log : List (Ev K)

variable {K F σ : Type*} [Field K] [LinearOrder K] [IsStrictOrderedRing K]
  [LinearOrder F]

/-- `len(self.objects_to_track)`: bunches, numerical fields and, if
`n_diags > 0`, the string `'diags'` (tracker.py 119, 129-130). -/
def Cfg.nObj (c : Cfg K F σ) : ℕ :=
  c.nBunch + c.nField + (if 0 < c.nDiag then 1 else 0)

/-- `self.dt_diags = self.t_final/self.n_diags` (tracker.py 131). -/
def Cfg.dtDiag (c : Cfg K F σ) : K := c.tFinal / (c.nDiag : K)

/-- Index of `'diags'` in `objects_to_track` (tracker.py 130). -/
def Cfg.iDiag (c : Cfg K F σ) : ℕ := c.nBunch + c.nField

/-- Initial time step of object `i` (tracker.py 119-120, 131-132, 175-179). -/
def Cfg.dt0 (c : Cfg K F σ) (w : σ) (i : ℕ) : K :=
  if i < c.nBunch then
    match c.dtBunch i with
    | none => c.autoDt w i
    | some d => d
  else if i < c.nBunch + c.nField then c.dtField (i - c.nBunch)
  else c.dtDiag

/-- `np.argmin` over the indices `0..n`: the first index of a minimal value
(tracker.py 195). -/
def argmin (g : ℕ → F) : ℕ → ℕ
  | 0 => 0
  | n + 1 => if g (n + 1) < g (argmin g n) then n + 1 else argmin g n

/-- `Tracker.evolve_bunch` (tracker.py 264-302), and the advance of the bunch clock that
follows each of its calls (`t_objects[i] += dt`, 241 and 245). -/
def evolveBunch (c : Cfg K F σ) (forced : Bool) (s : St K σ) (i : ℕ)
    (tCurrent tNext dtNext : K) : St K σ :=
  -- bunch.evolve(self.fields, t_current, dt_next, self.bunch_pusher)   (290)
  let w := c.evolve s.w i tCurrent dtNext
  -- if bunch in self.auto_dt_bunches: ...                          (292-293)
  let dt := match c.dtBunch i with
    | none => Function.update s.dt i (c.autoDt w i)
    | some _ => s.dt
  -- final_push, next_push_beyond_final_time                        (295-302)
  let dt := if ¬ (c.f32 tNext = c.f32 c.tFinal) ∧ tNext + dt i > c.tFinal
    then Function.update dt i (c.tFinal - tNext) else dt
  { t := Function.update s.t i (s.t i + dtNext)
    dt := dt
    w := w
    snaps := s.snaps
    log := s.log ++ [.push forced i tCurrent dtNext] }

/-- `generate_diagnostics` (tracker.py 304-313): copies of all bunches are appended to
`bunch_list`; the copy of the bunches is represented by the world itself. -/
def generateDiagnostics (s : St K σ) (t : K) : St K σ :=
  { s with snaps := s.snaps ++ [s.w], log := s.log ++ [.diag t] }

/-- Loop tracker.py 230-241: every bunch is evolved to the diagnostics time. -/
def pushAll (c : Cfg K F σ) (tNext : K) : ℕ → St K σ → St K σ
  | 0, s => s
  | n + 1, s =>
    let s := pushAll c tNext n s
    evolveBunch c true s n (s.t n) tNext (tNext - s.t n)

/-- Body of the loop for the object with index `i` (tracker.py 197-245). -/
def advance (c : Cfg K F σ) (s : St K σ) (i : ℕ) : St K σ :=
  let tNext := s.t i + s.dt i
  let dtNext := s.dt i
  if i < c.nBunch then
    -- isinstance(obj_next, ParticleBunch)                          (212-220)
    evolveBunch c false s i (s.t i) tNext dtNext
  else if i < c.nBunch + c.nField then
    -- isinstance(obj_next, NumericalField)                         (223-224)
    { s with
      w := c.updateF s.w (i - c.nBunch)
      log := s.log ++ [.update (i - c.nBunch) tNext]
      t := Function.update s.t i (s.t i + dtNext) }
  else
    -- obj_next == 'diags'                                          (227-242)
    let s := if c.pushBeforeDiags then pushAll c tNext c.nBunch s else s
    let s := generateDiagnostics s tNext
    { s with t := Function.update s.t i (s.t i + dtNext) }

/-- One iteration of the `while True` loop (tracker.py 182-248); `none` is `break`. -/
def step (c : Cfg K F σ) (s : St K σ) : Option (St K σ) :=
  let i := argmin (fun i => c.f32 (s.t i + s.dt i)) (c.nObj - 1)
  if c.f32 (s.t i + s.dt i) > c.f32 c.tFinal then none
  else some (advance c s i)

/-- The loop with a bound on the number of iterations; `none` means that the
bound was reached before `break` (tracker.py 182-248). -/
def run (c : Cfg K F σ) : ℕ → St K σ → Option (St K σ)
  | 0, _ => none
  | n + 1, s =>
    match step c s with
    | none => some s
    | some s' => run c n s'

/-- Fields are calculated at `t = 0` (tracker.py 163-164). -/
def initFields (c : Cfg K F σ) : ℕ → St K σ → St K σ
  | 0, s => s
  | n + 1, s =>
    let s := initFields c n s
    { s with w := c.updateF s.w n, log := s.log ++ [.update n 0] }

/-- State before the first diagnostics: world `w`, clocks at zero (tracker.py 137-164).
The time steps are filled in by `start` below. -/
def blank (w : σ) : St K σ :=
  { t := fun _ => 0, dt := fun _ => 0, w := w, snaps := [], log := [] }

/-- State on entry of the loop, after the initial field calculation, the
initial diagnostics and the initialisation of the time steps (tracker.py 163-179). -/
def start (c : Cfg K F σ) (w : σ) : St K σ :=
  let s := generateDiagnostics (initFields c c.nField (blank w)) 0
  { s with dt := c.dt0 s.w }

/-- Exceptions of `do_tracking` (tracker.py 129-135, 195, 262, 307-313). -/
inductive Err where
  | attributeError
  | valueError
  deriving DecidableEq

/-- Result of `do_tracking` with a bound on the number of iterations (tracker.py 140-262). -/
inductive Outcome (α : Type*) where
  | returned (a : α)
  | raised (e : Err)
  | running
  deriving DecidableEq

/-- `Tracker.do_tracking` (tracker.py 140-262).  Without diagnostics the attributes
`bunch_list` and `dt_diags` are never created (129-135): `generate_diagnostics`
(307-313) raises if there is a bunch or an openPMD writer, and the `return`
statement (262) raises otherwise; `np.argmin` raises if there is no object. -/
def doTracking (c : Cfg K F σ) (fuel : ℕ) (w : σ) : Outcome (St K σ) :=
  if c.nDiag = 0 ∧ (0 < c.nBunch ∨ c.opmd = true) then .raised .attributeError
  else if c.nObj = 0 then .raised .valueError
  else match run c fuel (start c w) with
    | none => .running
    | some s => if c.nDiag = 0 then .raised .attributeError else .returned s

end WakeT.Tracker
