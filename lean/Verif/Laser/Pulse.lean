import Verif.Laser.EnvelopeProps
import Mathlib.Data.List.Basic

/-! # Model of the class `LaserPulse`

`wake_t/physics_models/laser/laser_pulse.py`, the parameters of the envelope solver and the
choice of the scheme.  The arrays are represented by the parameters they were allocated
with; their contents are modelled in `Verif.Laser.Envelope`. -/

set_option linter.unusedSectionVars false

namespace WakeT.Laser

/-- The dictionary `solver_params` (laser_pulse.py 117-126). -/
structure SolverParams where
  zmin : ℝ
  zmax : ℝ
  rmax : ℝ
  nz : ℕ
  nr : ℕ
  nt : ℤ
  dt : ℝ
  usePhase : Bool

/-- Arguments of `set_envelope_solver_params` (laser_pulse.py 59-71). -/
structure SetArgs where
  xiMin : ℝ
  xiMax : ℝ
  rMax : ℝ
  nz : ℕ
  nr : ℕ
  dt : ℝ
  nt : ℤ
  subNz : Option ℕ
  subNr : Option ℕ
  usePhase : Bool

/-- The part of `subgrid_params` that is not derived (laser_pulse.py 259-281): main grid and
subgrid sizes. -/
structure Subgrid where
  nz : ℕ
  nr : ℕ
  subNz : ℕ
  subNr : ℕ
  zMin : ℝ
  zMax : ℝ
  rMax : ℝ

/-- A use of a solver by `evolve` (ghost): its parameters, whether it was the centred
solver, and the parameters that its arrays were allocated with (calls in laser_pulse.py
187-202). -/
structure Use where
  params : SolverParams
  centered : Bool
  arrays : SolverParams

/-- The attributes of a pulse (laser_pulse.py 49-53, 110-115, 163-165) and a ghost log of
the uses of the solvers, newest first. -/
structure PulseState where
  params : Option SolverParams := none
  useSubgrid : Option Bool := none
  subgrid : Option Subgrid := none
  arrays : Option SolverParams := none
  nSteps : ℕ := 0
  log : List Use := []

/-- Whether an operation raised, and the state afterwards (raises in laser_pulse.py 106, 137,
150). -/
abbrev Outcome := Option String × PulseState

/-- laser_pulse.py 117-126. -/
noncomputable def SetArgs.params (x : SetArgs) : SolverParams :=
  let sub := x.subNz.isSome || x.subNr.isSome
  { zmin := x.xiMin, zmax := x.xiMax, rmax := x.rMax
    nz := if sub then x.subNz.getD x.nz else x.nz
    nr := if sub then x.subNr.getD x.nr else x.nr
    nt := x.nt, dt := x.dt / x.nt, usePhase := x.usePhase }

/-- The subgrid attributes, stored before the check of the grid parameters
(laser_pulse.py 110-115). -/
def PulseState.setSubgrid (x : SetArgs) (s : PulseState) : PulseState :=
  let sub := x.subNz.isSome || x.subNr.isSome
  { s with
    useSubgrid := some sub
    subgrid := if sub then some ⟨x.nz, x.nr, x.subNz.getD x.nz, x.subNr.getD x.nr, x.xiMin, x.xiMax, x.rMax⟩
      else s.subgrid }

open Classical in
/-- `set_envelope_solver_params` (laser_pulse.py 59-145). -/
noncomputable def PulseState.setParams (x : SetArgs) (s : PulseState) : Outcome :=
  if x.nt < 1 then (some "ValueError", s)
  else
    let s1 := s.setSubgrid x
    match s.params with
    | none => (none, { s1 with params := some x.params })
    | some p =>
      if 0 < s.nSteps then
        if x.params.zmin ≠ p.zmin ∧ x.params.zmax ≠ p.zmax ∧ x.params.rmax ≠ p.rmax ∧ x.params.nz ≠ p.nz ∧
            x.params.nr ≠ p.nr then
          (some "ValueError", s1)
        else
          (none, { s1 with params := some x.params, nSteps := if x.params.dt ≠ p.dt then 0 else s.nSteps })
      else (none, { s1 with params := some x.params })

/-- `initialize_envelope` (laser_pulse.py 147-166). -/
def PulseState.initEnvelope (s : PulseState) : Outcome :=
  match s.params with
  | none => (some "ValueError", s)
  | some p =>
    match s.arrays with
    | none => (none, { s with arrays := some p })
    | some _ => (none, s)

/-- `evolve` (laser_pulse.py 172-206); the attributes do not exist before the envelope has been initialized. -/
def PulseState.evolve (s : PulseState) : Outcome :=
  match s.params, s.arrays with
  | some p, some q => (none, { s with nSteps := s.nSteps + 1, log := ⟨p, decide (s.nSteps ≠ 0), q⟩ :: s.log })
  | _, _ => (some "AttributeError", s)

/-- Calls of a user of the pulse (laser_pulse.py 59, 147, 172). -/
inductive PulseOp where
  | set (x : SetArgs)
  | init
  | evolve

/-- One call (laser_pulse.py 59-206). -/
noncomputable def PulseOp.run : PulseOp → PulseState → Outcome
  | .set x, s => s.setParams x
  | .init, s => s.initEnvelope
  | .evolve, s => s.evolve

/-- A sequence of calls on a new pulse; errors are caught by the user. -/
noncomputable def runOps (ops : List PulseOp) : PulseState := ops.foldl (fun s o => (o.run s).2) {}

/-! ### C51 -/

/-- The grid of the solver (the values compared in laser_pulse.py 130-136). -/
def SolverParams.grid (p : SolverParams) : ℝ × ℝ × ℝ × ℕ × ℕ := (p.zmin, p.zmax, p.rmax, p.nz, p.nr)

/-- Partial: exactly when a call raises after the envelope has been evolved.  It must raise
whenever the grid changes; it raises only if all five parameters change. -/
theorem set_raises_iff_partial (x : SetArgs) (s : PulseState) (p : SolverParams) (hp : s.params = some p)
    (hn : 0 < s.nSteps) :
    ((s.setParams x).1 ≠ none ↔ x.nt < 1 ∨ (x.params.zmin ≠ p.zmin ∧ x.params.zmax ≠ p.zmax ∧ x.params.rmax ≠ p.rmax ∧
      x.params.nz ≠ p.nz ∧ x.params.nr ≠ p.nr)) ∧
    ((s.setParams x).1 ≠ none → (s.setParams x).2.params = some p ∧ (s.setParams x).2.nSteps = s.nSteps) := by
  unfold PulseState.setParams
  dsimp only
  rw [hp]
  dsimp only
  rw [if_pos hn]
  by_cases h1 : x.nt < 1
  · rw [if_pos h1]
    exact ⟨by simp [h1], fun _ => ⟨hp, rfl⟩⟩
  · rw [if_neg h1]
    by_cases h2 : x.params.zmin ≠ p.zmin ∧ x.params.zmax ≠ p.zmax ∧ x.params.rmax ≠ p.rmax ∧ x.params.nz ≠ p.nz ∧
      x.params.nr ≠ p.nr
    · rw [if_pos h2]
      exact ⟨⟨fun _ => Or.inr h2, fun _ => by simp⟩, fun _ => ⟨hp, rfl⟩⟩
    · rw [if_neg h2]
      exact ⟨⟨fun h => absurd rfl h, fun h => absurd h (not_or.mpr ⟨h1, h2⟩)⟩, fun h => absurd rfl h⟩

/-- Changing only time step, substeps or phase option is accepted; it restarts the scheme
exactly if the internal step changes. -/
theorem set_same_grid (x : SetArgs) (s : PulseState) (p : SolverParams) (hp : s.params = some p) (hx : 1 ≤ x.nt)
    (hg : x.params.grid = p.grid) :
    (s.setParams x).1 = none ∧ (s.setParams x).2.params = some x.params ∧
    (s.setParams x).2.nSteps = if x.dt / x.nt = p.dt then s.nSteps else 0 := by
  have hz : x.params.zmin = p.zmin := congrArg (fun t : ℝ × ℝ × ℝ × ℕ × ℕ => t.1) hg
  have hdt : x.params.dt = x.dt / x.nt := rfl
  unfold PulseState.setParams
  rw [if_neg (by omega)]
  dsimp only
  rw [hp]
  dsimp only
  by_cases hn : 0 < s.nSteps
  · rw [if_pos hn, if_neg (fun h => h.1 hz)]
    refine ⟨rfl, rfl, ?_⟩
    dsimp only
    rw [hdt]
    by_cases h : x.dt / x.nt = p.dt
    · rw [if_pos h, if_neg (not_not.mpr h)]
    · rw [if_neg h, if_pos h]
  · rw [if_neg hn]
    have h0 : s.nSteps = 0 := by omega
    refine ⟨rfl, rfl, ?_⟩
    show s.nSteps = _
    rw [h0, ite_self]

/-- The grid can be changed after evolution: here only the number of radial points is
changed, no error is raised, and the solver is called with a grid that its arrays do not
have. -/
theorem grid_change_violated : ∃ ops : List PulseOp, ∃ x : SetArgs, ∃ p u,
    (runOps ops).params = some p ∧ 0 < (runOps ops).nSteps ∧ x.params.grid ≠ p.grid ∧
    ((runOps ops).setParams x).1 = none ∧
    (runOps (ops ++ [.set x, .evolve])).log.head? = some u ∧ u.params.nr ≠ u.arrays.nr := by
  let x1 : SetArgs := ⟨0, 1, 1, 2, 3, 1, 1, none, none, true⟩
  let x2 : SetArgs := ⟨0, 1, 1, 2, 4, 1, 1, none, none, true⟩
  refine ⟨[.set x1, .init, .evolve], x2, x1.params, ⟨x2.params, true, x1.params⟩, ?_, ?_, ?_, ?_, ?_, ?_⟩ <;>
    simp [runOps, PulseOp.run, PulseState.setParams, PulseState.setSubgrid, PulseState.initEnvelope, PulseState.evolve, SetArgs.params,
      SolverParams.grid, x1, x2]

/-- Even if all grid parameters change there is no error when the time step was changed
before. -/
theorem reset_grid_change_violated : ∃ ops : List PulseOp, ∃ x : SetArgs, ∃ p,
    (runOps ops).params = some p ∧ (runOps ops).log ≠ [] ∧ x.params.zmin ≠ p.zmin ∧ x.params.zmax ≠ p.zmax ∧
    x.params.rmax ≠ p.rmax ∧ x.params.nz ≠ p.nz ∧ x.params.nr ≠ p.nr ∧ ((runOps ops).setParams x).1 = none := by
  let x1 : SetArgs := ⟨0, 1, 1, 2, 3, 1, 1, none, none, true⟩
  let x2 : SetArgs := ⟨0, 1, 1, 2, 3, 2, 1, none, none, true⟩
  let x3 : SetArgs := ⟨1, 2, 2, 3, 4, 2, 1, none, none, true⟩
  refine ⟨[.set x1, .init, .evolve, .set x2], x3, x2.params, ?_, ?_, ?_, ?_, ?_, ?_, ?_, ?_⟩ <;>
    simp [runOps, PulseOp.run, PulseState.setParams, PulseState.setSubgrid, PulseState.initEnvelope, PulseState.evolve, SetArgs.params,
      x1, x2, x3]

/-! ### C90 -/

/-- The log of a pulse is as it should be: the first use of a solver is not centred, and a
centred use follows a use with the same step. -/
def LogOk : List Use → Prop
  | [] => True
  | [u] => u.centered = false
  | u :: v :: l => (u.centered = true → v.params.dt = u.params.dt) ∧ LogOk (v :: l)

structure StateOk (s : PulseState) : Prop where
  log : LogOk s.log
  last : 0 < s.nSteps → ∃ u l p, s.log = u :: l ∧ s.params = some p ∧ u.params.dt = p.dt

theorem run_ok (o : PulseOp) (s : PulseState) (h : StateOk s) : StateOk (o.run s).2 := by
  obtain ⟨h1, h2⟩ := h
  cases o with
  | set x =>
    simp only [PulseOp.run]
    unfold PulseState.setParams
    by_cases hx : x.nt < 1
    · rw [if_pos hx]
      exact ⟨h1, h2⟩
    · rw [if_neg hx]
      dsimp only
      rcases hp : s.params with _ | p
      · dsimp only
        refine ⟨h1, fun hn => ?_⟩
        obtain ⟨u, l, q, _, hq, _⟩ := h2 hn
        rw [hp] at hq
        cases hq
      · dsimp only
        by_cases hn : 0 < s.nSteps
        · rw [if_pos hn]
          obtain ⟨u, l, q, hl, hq, hu⟩ := h2 hn
          by_cases hc : x.params.zmin ≠ p.zmin ∧ x.params.zmax ≠ p.zmax ∧ x.params.rmax ≠ p.rmax ∧
            x.params.nz ≠ p.nz ∧ x.params.nr ≠ p.nr
          · rw [if_pos hc]
            exact ⟨h1, fun _ => ⟨u, l, q, hl, hq, hu⟩⟩
          · rw [if_neg hc]
            rw [hp] at hq
            cases hq
            by_cases hd : x.params.dt = p.dt
            · exact ⟨h1, fun _ => ⟨u, l, _, hl, rfl, by rw [hu, hd]⟩⟩
            · refine ⟨h1, fun hn' => ?_⟩
              dsimp only at hn'
              rw [if_pos hd] at hn'
              omega
        · rw [if_neg hn]
          exact ⟨h1, fun hn' => absurd hn' hn⟩
  | init =>
    simp only [PulseOp.run]
    unfold PulseState.initEnvelope
    rcases hp : s.params with _ | p
    · exact ⟨h1, h2⟩
    · rcases ha : s.arrays with _ | q
      · dsimp only
        refine ⟨h1, fun hn => ?_⟩
        dsimp only
        rw [← hp]
        exact h2 hn
      · exact ⟨h1, h2⟩
  | evolve =>
    simp only [PulseOp.run]
    unfold PulseState.evolve
    rcases hp : s.params with _ | p
    · exact ⟨h1, h2⟩
    · rcases ha : s.arrays with _ | q
      · exact ⟨h1, h2⟩
      · dsimp only
        refine ⟨?_, fun _ => ⟨_, _, p, rfl, hp ▸ rfl, rfl⟩⟩
        dsimp only
        rcases hl : s.log with _ | ⟨v, l⟩
        · simp only [LogOk, decide_eq_false_iff_not, not_not]
          by_contra hn
          obtain ⟨u, l, _, hu, _⟩ := h2 (by omega)
          rw [hl] at hu
          cases hu
        · rw [hl] at h1
          refine ⟨fun hc => ?_, h1⟩
          have hn : s.nSteps ≠ 0 := of_decide_eq_true hc
          obtain ⟨u, l', p', hu, hp', hd⟩ := h2 (by omega)
          rw [hl] at hu
          rw [hp] at hp'
          cases hu
          cases hp'
          exact hd

/-- In every sequence of calls, the first evolution uses the scheme that needs only one
level, and the scheme that needs two levels is used only if the step between them is the
current one. -/
theorem centered_needs_same_step (ops : List PulseOp) : LogOk (runOps ops).log := by
  have : ∀ (ops : List PulseOp) (s : PulseState), StateOk s → StateOk (ops.foldl (fun s o => (o.run s).2) s) := by
    intro ops
    induction ops with
    | nil => exact fun s h => h
    | cons o ops ih => exact fun s h => ih _ (run_ok o s h)
  exact (this ops {} ⟨trivial, fun h => absurd h (by simp)⟩).log

/-- Two successive evolutions without a change of parameters: the second one is centred. -/
theorem second_step_centered (ops : List PulseOp) {p q : SolverParams} (hp : (runOps ops).params = some p)
    (hq : (runOps ops).arrays = some q) :
    ∃ u v l, (runOps (ops ++ [.evolve, .evolve])).log = u :: v :: l ∧ u.centered = true ∧ u.params = p := by
  unfold runOps at *
  rw [List.foldl_append]
  generalize ops.foldl (fun s o => (o.run s).2) {} = s at *
  simp [PulseOp.run, PulseState.evolve, hp, hq]

/-- The scheme for one level does not use the second array. -/
theorem nonCentered_ignores_old (p : EnvParams) (chi : ℕ → ℕ → ℝ) (a o o' : GridC) (i : ℕ) (hi : i < p.nz + 2) :
    (p.step false chi (a, o)).1 i = (p.step false chi (a, o')).1 i := by
  obtain ⟨new, hnew⟩ := newLevel_exists (p.row false chi (EnvParams.phases a)) p.nz a o
  have hnew' : NewLevel (p.row false chi (EnvParams.phases a)) p.nz a o' new := by
    refine ⟨fun j hj => ?_, hnew.outside⟩
    rw [hnew.inside j hj]
    unfold EnvParams.row
    rfl
  unfold EnvParams.step
  rw [(sweep_two_level (row_local p false chi _) hnew i hi).1, (sweep_two_level (row_local p false chi _) hnew' i hi).1]

end WakeT.Laser
