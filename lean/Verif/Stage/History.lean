import Verif.Stage.Wake
import Verif.Tracker.Lag
import Verif.Tracker.Simulation

/-! # Density, laser and wakefield during the tracking through a plasma stage (C122) -/

set_option linter.unusedSectionVars false

namespace WakeT.Stage

open Bunch FieldElement Laser Tracker
open Plasma (QS)
open Plasma.QS (Fld)
open Push (PField Sched)
open Fields (NumField FieldOps)

/-! ### Specification -/

/-- The laser is advanced by `dt`, in as many substeps as asked for, in the box of the wakefield and
with the number of nodes of its own grid if there is one. -/
noncomputable def Wake.pulseGrid (w : Wake) (q : Pulse) (dt : ℝ) : Setup where
  c := w.k.c
  k0 := 2 * Real.pi / q.l0
  xiMin := w.xiMin
  xiMax := w.xiMax
  rMax := w.rMax
  nz := w.nXi
  nr := w.nR
  dt := dt
  nt := w.substeps
  subNz := w.laserNxi
  subNr := w.laserNr
  usePhase := w.usePhase

/-- What happens in the course of the tracking: the update period is `dt` and there are updates at
`0, dt, …, N dt`; `B m` are the bunches and `h m` are laser, density and field arrays right after
the update at `m dt`. -/
structure History (w : Wake) (dt : ℝ) (N : ℕ) (B : ℕ → List Bunch) (h : ℕ → Props) : Prop where
  /-- the density is that at the position of the update -/
  density : ∀ m ≤ N, (h m).np = w.density (m * dt * w.k.c)
  /-- the fields are calculated from this density, the laser and the bunches of this moment -/
  fields : ∀ m ≤ N, w.solve (m * dt) (h m).np (w.envelope (h m).laser) (B m) ⟨0, 0, 0, 0, 0⟩ = some (h m).fld
  /-- the laser enters with its profile -/
  first : ∀ q, w.laser = some q → ∃ e, (h 0).laser = some e ∧ (w.pulseGrid q dt).init q.prof = some e
  /-- and is advanced by `dt` in the plasma as it was at the beginning of the step -/
  step : ∀ q, w.laser = some q → w.laserEvolution = true → ∀ m < N, ∃ e e', (h m).laser = some e ∧
    (h (m + 1)).laser = some e' ∧
    (w.pulseGrid q dt).evolve (fun i j => (h m).fld.chi (i + 2) (j + 2), w.kp (h m).np) e = some e'
  /-- unless its evolution is switched off -/
  frozen : w.laserEvolution = false → ∀ m ≤ N, (h m).laser = (h 0).laser
  noLaser : w.laser = none → ∀ m ≤ N, (h m).laser = none

/-- A wakefield that can be calculated: the solver does not fail and the grid of the laser can be
used. -/
structure Wake.Works (w : Wake) : Prop where
  solve : ∀ t env bs, ∃ f, w.solve t (w.density (t * w.k.c)) env bs Wake.zeros = some f
  laser : ∀ q, w.laser = some q → ∀ dt, (w.setup q dt).Ok

/-! ### Replay of the updates -/

section replay
variable {K F σ : Type} [Field K] [LinearOrder K] [IsStrictOrderedRing K] [LinearOrder F]

/-- The world before each update of field `j` in the log. -/
def worldsAtUpdates (c : Cfg K F σ) (j : ℕ) : σ → List (Ev K) → List σ
  | _, [] => []
  | w, .update j' t :: l =>
    if j' = j then w :: worldsAtUpdates c j (c.apply w (.update j' t)) l
    else worldsAtUpdates c j (c.apply w (.update j' t)) l
  | w, .push b i t dt :: l => worldsAtUpdates c j (c.apply w (.push b i t dt)) l
  | w, .diag _ :: l => worldsAtUpdates c j w l

theorem worldsAtUpdates_length (c : Cfg K F σ) (j : ℕ) (w : σ) (log : List (Ev K)) :
    (worldsAtUpdates c j w log).length = (updateTimes j log).length := by
  induction log generalizing w with
  | nil => rfl
  | cons ev log ih =>
    rw [← List.singleton_append, updateTimes_append]
    cases ev with
    | push b i t dt => simpa [worldsAtUpdates] using ih _
    | diag t => simpa [worldsAtUpdates] using ih _
    | update j' t =>
      by_cases h : j' = j
      · simpa [worldsAtUpdates, h] using ih _
      · simpa [worldsAtUpdates, h] using ih _

theorem updates_split (c : Cfg K F σ) (j : ℕ) (w : σ) (log : List (Ev K)) (m : ℕ) (T : K)
    (hm : (updateTimes j log)[m]? = some T) :
    ∃ before after, log = before ++ .update j T :: after ∧ (updateTimes j before).length = m ∧
      (worldsAtUpdates c j w log)[m]? = some (before.foldl c.apply w) := by
  induction log generalizing w m with
  | nil => simp [updateTimes] at hm
  | cons ev log ih =>
    have hcase : (∀ t, ev ≠ .update j t) → updateTimes j (ev :: log) = updateTimes j log ∧
        worldsAtUpdates c j w (ev :: log) = worldsAtUpdates c j (c.apply w ev) log ∧
        ∀ l, updateTimes j (ev :: l) = updateTimes j l := by
      intro hne
      have h1 : ∀ l, updateTimes j (ev :: l) = updateTimes j l := by
        intro l
        rw [← List.singleton_append, updateTimes_append]
        cases ev with
        | push b i t dt => simp
        | diag t => simp
        | update j' t =>
          have : j' ≠ j := fun h => hne t (by rw [h])
          simp [this]
      refine ⟨h1 log, ?_, h1⟩
      cases ev with
      | push b i t dt => rfl
      | diag t => rfl
      | update j' t =>
        have : j' ≠ j := fun h => hne t (by rw [h])
        simp [worldsAtUpdates, this]
    by_cases hev : ∃ t, ev = .update j t
    · obtain ⟨t, rfl⟩ := hev
      have h1 : ∀ l, updateTimes j (Ev.update j t :: l) = t :: updateTimes j l := by
        intro l
        rw [← List.singleton_append, updateTimes_append]
        simp
      have h2 : worldsAtUpdates c j w (Ev.update j t :: log) = w :: worldsAtUpdates c j (c.apply w (.update j t)) log := by
        simp [worldsAtUpdates]
      rw [h1] at hm
      rw [h2]
      cases m with
      | zero =>
        have hm : t = T := by simpa using hm
        exact ⟨[], log, by rw [hm]; rfl, rfl, rfl⟩
      | succ m =>
        obtain ⟨before, after, h3, h4, h5⟩ := ih (c.apply w (.update j t)) m (by simpa using hm)
        exact ⟨.update j t :: before, after, by rw [h3]; rfl, by rw [h1]; simp [h4], by simpa using h5⟩
    · obtain ⟨h1, h2, h3⟩ := hcase fun t h => hev ⟨t, h⟩
      rw [h1] at hm
      rw [h2]
      obtain ⟨before, after, h4, h5, h6⟩ := ih (c.apply w ev) m hm
      exact ⟨ev :: before, after, by rw [h4]; rfl, by rw [h3]; exact h5, h6⟩

end replay

/-! ### The state of the wakefield after a number of updates -/

/-- After `m` updates with the bunches `B`. -/
noncomputable def Wake.after (w : Wake) (dt : ℝ) (B : ℕ → List Bunch) : ℕ → NumField ℝ (Option Props)
  | 0 => Wake.start dt
  | m + 1 => (w.after dt B m).update (w.ops (w.after dt B m).dt) (B m)

theorem after_congr (w : Wake) (dt : ℝ) {B B' : ℕ → List Bunch} (n : ℕ) (h : ∀ m < n, B m = B' m) :
    w.after dt B n = w.after dt B' n := by
  induction n with
  | zero => rfl
  | succ n ih =>
    unfold Wake.after
    rw [ih fun m hm => h m (by omega), h n (by omega)]

theorem foldl_after (w : Wake) (dt : ℝ) (l : List (List Bunch)) :
    l.foldl (fun φ bs => φ.update (w.ops φ.dt) bs) (Wake.start dt) = w.after dt (fun m => l.getD m []) l.length := by
  induction l using List.reverseRecOn with
  | nil => rfl
  | append_singleton l bs ih =>
    rw [List.foldl_append, ih, List.length_append]
    show NumField.update _ _ _ = NumField.update _ _ _
    have h1 : w.after dt (fun m => l.getD m []) l.length = w.after dt (fun m => (l ++ [bs]).getD m []) l.length :=
      after_congr w dt _ fun m hm => by
        simp only [List.getD_eq_getElem?_getD, List.getElem?_append_left hm]
    have h2 : (l ++ [bs]).getD (l.length + [bs].length - 1) [] = bs := by
      simp [List.getD_eq_getElem?_getD]
    rw [h1]
    congr 1
    exact h2.symm

theorem init_some {s : Setup} (h : s.Ok) (prof : ℝ → ℝ → ℂ) : ∃ e, s.init prof = some e := by
  obtain ⟨e, he, -⟩ := subgrid_in_bounds h prof []
  exact ⟨e, he⟩

theorem evolve_some {s : Setup} (h : s.Ok) (x : (ℕ → ℕ → ℝ) × ℝ) (e : PulseArrays) : ∃ e', s.evolve x e = some e' := by
  obtain ⟨chi, hchi⟩ : ∃ chi, s.solverChi x.1 = some chi := by
    unfold Setup.solverChi
    split_ifs
    · exact ⟨_, regridAll_eq h.main h.solver s.sameBox x.1⟩
    · exact ⟨_, rfl⟩
  obtain ⟨o, ho⟩ := Setup.output_some h ((s.params x.2).evolve (decide (e.nSteps ≠ 0)) chi (e.a, e.old)).1
  unfold Setup.evolve
  rw [hchi]
  simp only [Option.bind_eq_bind, Option.bind_some]
  rw [ho]
  exact ⟨_, rfl⟩

theorem calculate_some {w : Wake} (hw : w.Works) (t : ℝ) (bs : List Bunch) (p : Props) :
    ∃ f, w.solve t (w.density (t * w.k.c)) (w.envelope p.laser) bs Wake.zeros = some f ∧
      w.calculateProps t bs p = some ⟨p.laser, w.density (t * w.k.c), f⟩ := by
  obtain ⟨f, hf⟩ := hw.solve t (w.envelope p.laser) bs
  refine ⟨f, hf, ?_⟩
  unfold Wake.calculateProps
  dsimp only
  rw [hf]
  rfl

/-- What the properties are after the first update. -/
def First (w : Wake) (dt : ℝ) (bs : List Bunch) (p : Props) : Prop :=
  (∀ q, w.laser = some q → ∃ e, p.laser = some e ∧ (w.setup q dt).init q.prof = some e) ∧
  (w.laser = none → p.laser = none) ∧ p.np = w.density (0 * w.k.c) ∧
  w.solve 0 p.np (w.envelope p.laser) bs Wake.zeros = some p.fld

/-- How they change in a later one. -/
def Next (w : Wake) (dt t : ℝ) (bs : List Bunch) (p p' : Props) : Prop :=
  (∀ q e, w.laser = some q → w.laserEvolution = true → p.laser = some e → ∃ e', p'.laser = some e' ∧
    (w.setup q dt).evolve (fun i j => p.fld.chi (i + 2) (j + 2), w.kp p.np) e = some e') ∧
  (w.laserEvolution = false → p'.laser = p.laser) ∧
  (w.laser = none → p'.laser = p.laser) ∧ p'.np = w.density (t * w.k.c) ∧
  w.solve t p'.np (w.envelope p'.laser) bs Wake.zeros = some p'.fld

theorem after_one {w : Wake} (hw : w.Works) (dt : ℝ) (B : ℕ → List Bunch) :
    ∃ p, w.after dt B 1 = ⟨dt, true, 0, some p⟩ ∧ First w dt (B 0) p := by
  obtain ⟨p0, h1, h2, h3⟩ : ∃ p0, w.initProps dt = some p0 ∧
      (∀ q, w.laser = some q → ∃ e, p0.laser = some e ∧ (w.setup q dt).init q.prof = some e) ∧
      (w.laser = none → p0.laser = none) := by
    unfold Wake.initProps
    cases hl : w.laser with
    | none => exact ⟨_, rfl, fun q hq => (by cases hq), fun _ => rfl⟩
    | some q =>
      obtain ⟨e, he⟩ := init_some (hw.laser q hl dt) q.prof
      refine ⟨⟨some e, 0, Wake.zeros⟩, ?_, ?_, fun h => (by cases h)⟩
      · dsimp only
        rw [he]
        rfl
      · intro q' hq
        cases hq
        exact ⟨e, rfl, he⟩
  obtain ⟨f, h4, h5⟩ := calculate_some hw 0 (B 0) p0
  refine ⟨⟨p0.laser, w.density (0 * w.k.c), f⟩, ?_, h2, h3, rfl, h4⟩
  show NumField.update (w.ops dt) (Wake.start dt) (B 0) = _
  unfold NumField.update Wake.start Wake.ops
  simp only [Bool.false_eq_true, not_false_eq_true, if_true, h1, Option.bind_some, h5]

theorem after_next {w : Wake} (hw : w.Works) (dt : ℝ) (B : ℕ → List Bunch) (m : ℕ) (t : ℝ) (p : Props)
    (h : w.after dt B m = ⟨dt, true, t, some p⟩) :
    ∃ p', w.after dt B (m + 1) = ⟨dt, true, t + dt, some p'⟩ ∧ Next w dt (t + dt) (B m) p p' := by
  obtain ⟨p1, h1, h2, h3, h4⟩ : ∃ p1, w.evolveProps dt p = some p1 ∧
      (∀ q e, w.laser = some q → w.laserEvolution = true → p.laser = some e → ∃ e', p1.laser = some e' ∧
        (w.setup q dt).evolve (fun i j => p.fld.chi (i + 2) (j + 2), w.kp p.np) e = some e') ∧
      (w.laserEvolution = false → p1.laser = p.laser) ∧
      (w.laser = none → p1.laser = p.laser) := by
    unfold Wake.evolveProps
    cases hl : w.laser with
    | none => exact ⟨p, rfl, fun q e hq => (by cases hq), fun _ => rfl, fun _ => rfl⟩
    | some q =>
      cases he : p.laser with
      | none => exact ⟨p, rfl, fun q e _ _ h => (by cases h), fun _ => he, fun _ => he⟩
      | some e =>
        cases hev : w.laserEvolution with
        | false => exact ⟨p, rfl, fun q e _ h => (by cases h), fun _ => he, fun _ => he⟩
        | true =>
          obtain ⟨e', he'⟩ := evolve_some (hw.laser q hl dt) (fun i j => p.fld.chi (i + 2) (j + 2), w.kp p.np) e
          refine ⟨{ p with laser := some e' }, ?_, ?_, fun h => (by cases h), fun h => (by cases h)⟩
          · dsimp only
            rw [if_pos rfl, he']
            rfl
          · intro q' e'' hq _ hee
            cases hq
            cases hee
            exact ⟨e', rfl, he'⟩
  obtain ⟨f, h5, h6⟩ := calculate_some hw (t + dt) (B m) p1
  refine ⟨⟨p1.laser, w.density ((t + dt) * w.k.c), f⟩, ?_, h2, h3, h4, rfl, h5⟩
  show NumField.update _ (w.after dt B m) _ = _
  rw [h]
  unfold NumField.update Wake.ops
  simp [h1, h6]

/-- The updates of a wakefield that works. -/
theorem after_history {w : Wake} (hw : w.Works) (dt : ℝ) (B : ℕ → List Bunch) :
    ∃ h : ℕ → Props, (∀ m, w.after dt B (m + 1) = ⟨dt, true, m * dt, some (h m)⟩) ∧ ∀ N, History w dt N B h := by
  have hex : ∀ m, ∃ p, w.after dt B (m + 1) = ⟨dt, true, m * dt, some p⟩ := by
    intro m
    induction m with
    | zero =>
      obtain ⟨p, hp, -⟩ := after_one hw dt B
      exact ⟨p, by rw [hp]; simp⟩
    | succ m ih =>
      obtain ⟨p, hp⟩ := ih
      obtain ⟨p', hp', -⟩ := after_next hw dt B (m + 1) _ p hp
      exact ⟨p', by rw [hp']; push_cast; ring_nf⟩
  choose h hh using hex
  have h0 : First w dt (B 0) (h 0) := by
    obtain ⟨p, hp, hf⟩ := after_one hw dt B
    have := (hh 0).symm.trans hp
    simp only [NumField.mk.injEq, Option.some.injEq] at this
    rw [this.2.2.2]
    exact hf
  have hn : ∀ m, Next w dt ((m + 1 : ℕ) * dt) (B (m + 1)) (h m) (h (m + 1)) := by
    intro m
    obtain ⟨p', hp', hx⟩ := after_next hw dt B (m + 1) _ (h m) (hh m)
    have := (hh (m + 1)).symm.trans hp'
    simp only [NumField.mk.injEq, Option.some.injEq] at this
    rw [this.2.2.2, this.2.2.1]
    exact hx
  refine ⟨h, hh, fun N => ?_⟩
  have hlas : ∀ q, w.laser = some q → ∀ m, ∃ e, (h m).laser = some e := by
    intro q hq m
    induction m with
    | zero =>
      obtain ⟨e, he, -⟩ := h0.1 q hq
      exact ⟨e, he⟩
    | succ m ih =>
      obtain ⟨e, he⟩ := ih
      cases hev : w.laserEvolution with
      | true =>
        obtain ⟨e', he', -⟩ := (hn m).1 q e hq hev he
        exact ⟨e', he'⟩
      | false => exact ⟨e, ((hn m).2.1 hev).trans he⟩
  refine ⟨?_, ?_, h0.1, ?_, ?_, ?_⟩
  · intro m _
    cases m with
    | zero => simpa using h0.2.2.1
    | succ m => exact (hn m).2.2.2.1
  · intro m _
    cases m with
    | zero =>
      simp only [Nat.cast_zero, zero_mul]
      exact h0.2.2.2
    | succ m => exact (hn m).2.2.2.2
  · intro q hq hev m _
    obtain ⟨e, he⟩ := hlas q hq m
    obtain ⟨e', he', hee⟩ := (hn m).1 q e hq hev he
    exact ⟨e, e', he, he', hee⟩
  · intro hev m _
    induction m with
    | zero => rfl
    | succ m ih => exact ((hn m).2.1 hev).trans (ih (by omega))
  · intro hl m _
    induction m with
    | zero => exact h0.2.1 hl
    | succ m ih => exact ((hn m).2.2.1 hl).trans (ih (by omega))

/-! ### The tracking -/

variable {F : Type} [LinearOrder F]

theorem flds_replay (p : PStage F) (opmd : Bool) (n : ℕ) (dts : List (Option ℝ)) (dtF : List ℝ) (log : List (Ev ℝ))
    (w : World (NumField ℝ (Option Props))) :
    (log.foldl (p.elem.cfg opmd n dts dtF).apply w).flds =
      ((worldsAtUpdates (p.elem.cfg opmd n dts dtF) 0 w log).map World.list).foldl
        (fun φ bs => φ.update (p.wake.ops φ.dt) bs) w.flds := by
  induction log generalizing w with
  | nil => rfl
  | cons ev log ih =>
    rw [List.foldl_cons, ih]
    cases ev with
    | push b i t dt => rfl
    | diag t => rfl
    | update j t =>
      by_cases h : j = 0
      · subst h
        simp only [worldsAtUpdates, if_pos rfl, List.map_cons, List.foldl_cons]
        rfl
      · have : ((p.elem.cfg opmd n dts dtF).apply w (.update j t)).flds = w.flds := if_neg h
        simp only [worldsAtUpdates, if_neg h, this]

/-- The bunches when a field is updated: bunch `i` has propagated to a point that is not ahead of
the update and at most the longest step behind it. -/
def UpTo (bs : List Bunch) (c T D : ℝ) (l : List Bunch) : Prop :=
  l.length = bs.length ∧ ∀ (i : ℕ) (b : Bunch), bs[i]? = some b → ∃ b', l[i]? = some b' ∧ b'.n = b.n ∧ b'.w = b.w ∧
    b.propDistance + c * (T - D) ≤ b'.propDistance ∧ b'.propDistance ≤ b.propDistance + c * T

theorem replay_n {Φ : Type} (e : Elem F Φ) (opmd : Bool) (n : ℕ) (dts : List (Option ℝ)) (dtF : List ℝ) (log : List (Ev ℝ))
    (w : World Φ) : (log.foldl (e.cfg opmd n dts dtF).apply w).n = w.n := by
  induction log generalizing w with
  | nil => rfl
  | cons ev log ih =>
    rw [List.foldl_cons, ih]
    cases ev <;> rfl

theorem world_list {Φ : Type} (bs : List Bunch) (b0 : Bunch) (φ : Φ) : (world bs b0 φ).list = bs := by
  unfold World.list world
  dsimp only
  apply List.ext_getElem?
  intro i
  rw [List.getElem?_map]
  by_cases h : i < bs.length
  · rw [List.getElem?_range h, List.getElem?_eq_getElem h, Option.map_some, List.getD_eq_getElem?_getD,
      List.getElem?_eq_getElem h]
    rfl
  · rw [List.getElem?_eq_none (by simpa using h), List.getElem?_eq_none (by simpa using h)]
    rfl

theorem below_of {e : Elem F (NumField ℝ (Option Props))} {D : ℝ} (hD : ∀ d, some d ∈ e.dtBunch.toList → d ≤ D)
    (hA : none ∈ e.dtBunch.toList → ∀ b, e.autoDt b ≤ D) (opmd : Bool) {n : ℕ} {dts : List (Option ℝ)} {dtF : List ℝ} (hd : e.dtList n = some dts) :
    (e.cfg opmd n dts dtF).Below D := by
  have hmem : ∀ i < n, dts.getD i none ∈ e.dtBunch.toList := by
    intro i hi
    unfold Elem.dtList at hd
    split at hd
    · next d' h1 =>
      rw [← Option.some.inj hd, h1, List.getD_eq_getElem?_getD, List.getElem?_replicate, if_pos hi]
      exact List.mem_singleton.mpr rfl
    · next l h1 =>
      split_ifs at hd with h2
      rw [← Option.some.inj hd, h1, List.getD_eq_getElem?_getD, List.getElem?_eq_getElem (by omega)]
      exact List.getElem_mem _
  exact ⟨fun i hi d hdd => hD d (hdd ▸ hmem i hi), fun i hi hn w => hA (hn ▸ hmem i hi) _⟩

/-- **C122.** Tracking through a plasma stage with a wakefield that can be calculated.  With a
laser the stage is divided into `N` equal parts, otherwise there is an update after every `dz_fields`.
At each update the density is that at the current position, the wakefield is calculated from this
density, the current envelope and the current bunches (which are at most one step behind), and between two updates
the laser is advanced once, by the time between them, in the plasma as calculated at the first of them.  In total
the laser is advanced by the length of the stage. Nothing of this fails. -/
theorem stage_history {p : PStage F} (hw : p.wake.Works) (hk : p.elem.Ok) (hm : StrictMono p.f32)
    (hp : p.pusher = "rk4" ∨ p.pusher = "boris") (hsch : ∀ n, (p.sch n).Valid n) {D : ℝ}
    (hD : ∀ d, some d ∈ p.dtBunch.toList → d ≤ D) (hA : none ∈ p.dtBunch.toList → ∀ b, p.autoDt b ≤ D) (h0 : 0 ≤ D) (opmd : Bool) (fuel : ℕ)
    (bunches : OneOrMany Bunch) (hb : ∀ b ∈ bunches.toList, Ready b.n b) (b0 : Bunch) {r : OneOrMany (List Bunch)}
    {w : World (NumField ℝ (Option Props))} (hr : p.track opmd fuel bunches b0 = .returned (r, w)) :
    ∃ (dt : ℝ) (N : ℕ) (B : ℕ → List Bunch) (h : ℕ → Props),
      0 < dt ∧ dt ≤ p.wake.dzFields.getD (p.wake.xiMax - p.wake.xiMin) / p.wake.k.c ∧
      (p.wake.laser.isSome = true → N * dt = p.length / p.wake.k.c ∧
        ∀ n : ℕ, p.length ≤ n * p.wake.dzFields.getD (p.wake.xiMax - p.wake.xiMin) → N ≤ n) ∧
      (p.wake.laser = none → dt = p.wake.dzFields.getD (p.wake.xiMax - p.wake.xiMin) / p.wake.k.c ∧
        N * dt ≤ p.length / p.wake.k.c ∧ p.length / p.wake.k.c < (N + 1) * dt) ∧
      History p.wake dt N B h ∧ B 0 = bunches.toList ∧
      (∀ m ≤ N, UpTo bunches.toList p.wake.k.c (m * dt) D (B m)) ∧
      w.flds = ⟨dt, true, N * dt, some (h N)⟩ := by
  unfold PStage.track at hr
  cases hdt : p.wake.dtUpdate p.length with
  | none => rw [hdt] at hr; cases hr
  | some dt =>
  rw [hdt] at hr
  dsimp only at hr
  unfold Elem.track at hr
  dsimp only at hr
  split at hr
  · cases hr
  next dts hd =>
  split at hr
  · cases hr
  next dtF hf =>
  split at hr
  next s hs =>
    have hwe := (Prod.mk.inj (Result.returned.inj hr)).2
    subst hwe
    have hpos := cfg_positive hk opmd hd hf
    have hdtF : dtF = [dt] := by
      unfold Elem.dtFields PStage.elem at hf
      unfold Wake.dtUpdate at hdt
      simp only [List.mapM_cons, hdt, List.mapM_nil] at hf
      simpa using hf.symm
    have hdt0 : 0 < p.wake.dt0 := hk.fields (p.wake.dt0, _) List.mem_cons_self
    have ht : 0 < p.length / p.wake.k.c := div_pos hk.length hk.c
    have hdp : 0 < dt := by
      have := hpos.field 0 Nat.zero_lt_one
      have h1 : (p.elem.cfg opmd bunches.toList.length dts dtF).dtField 0 = dt := by rw [hdtF]; rfl
      rwa [h1] at this
    obtain ⟨N, hN, hN1, hN2⟩ : ∃ N : ℕ, updateTimes 0 s.log = (List.range (N + 1)).map (fun m : ℕ => (m : ℝ) * dt) ∧
        N * dt ≤ p.length / p.wake.k.c ∧ p.length / p.wake.k.c < (N + 1) * dt := by
      obtain ⟨N, h1, h2, h3⟩ := field_updates _ _ _ _ hpos hk.mono hs 0 Nat.zero_lt_one
      have h4 : (p.elem.cfg opmd bunches.toList.length dts dtF).dtField 0 = dt := by rw [hdtF]; rfl
      rw [h4] at h1 h2 h3
      exact ⟨N, h1, hm.le_iff_le.mp h2, hm.lt_iff_lt.mp h3⟩
    obtain ⟨hrep, -⟩ := snapshots_replay _ _ _ _ hs
    let W := worldsAtUpdates (p.elem.cfg opmd bunches.toList.length dts dtF) 0 (world bunches.toList b0 (Wake.start dt)) s.log
    have hWl : W.length = N + 1 := by
      rw [worldsAtUpdates_length, hN]
      simp
    obtain ⟨h, hh, hhist⟩ := after_history hw dt fun m => (W.map World.list).getD m []
    have hflds : s.w.flds = ⟨dt, true, N * dt, some (h N)⟩ := by
      rw [hrep, flds_replay]
      show List.foldl _ (Wake.start dt) (W.map World.list) = _
      rw [foldl_after, List.length_map, hWl, hh]
    have hup : ∀ m ≤ N, UpTo bunches.toList p.wake.k.c (m * dt) D ((W.map World.list).getD m []) := by
      intro m hmN
      have hTm : (updateTimes 0 s.log)[m]? = some ((m : ℝ) * dt) := by
        rw [hN]
        have : m < N + 1 := by omega
        simp [this]
      obtain ⟨before, after, h1, h2, h3⟩ := updates_split (p.elem.cfg opmd bunches.toList.length dts dtF) 0
        (world bunches.toList b0 (Wake.start dt)) s.log m _ hTm
      have h4 : (W.map World.list).getD m [] =
          (before.foldl (p.elem.cfg opmd bunches.toList.length dts dtF).apply
            (world bunches.toList b0 (Wake.start dt))).list := by
        rw [List.getD_eq_getElem?_getD, List.getElem?_map]
        show ((W[m]?).map _).getD [] = _
        rw [h3]
        rfl
      rw [h4]
      have hg : ∀ i < (world bunches.toList b0 (Wake.start dt)).n, Ready ((world bunches.toList b0 (Wake.start dt)).bunch i).n
          ((world bunches.toList b0 (Wake.start dt)).bunch i) := by
        intro i hi
        apply hb
        have hi : i < bunches.toList.length := hi
        show bunches.toList.getD i b0 ∈ _
        rw [List.getD_eq_getElem?_getD, List.getElem?_eq_getElem hi]
        exact List.getElem_mem hi
      have hlen := replay_n p.elem opmd bunches.toList.length dts dtF before (world bunches.toList b0 (Wake.start dt))
      refine ⟨by unfold World.list; rw [List.length_map, List.length_range, hlen]; rfl, fun i b hib => ?_⟩
      have hi : i < bunches.toList.length := (List.getElem?_eq_some_iff.mp hib).1
      have hwb : (world bunches.toList b0 (Wake.start dt)).bunch i = b := by
        show bunches.toList.getD i b0 = b
        rw [List.getD_eq_getElem?_getD, hib]
        rfl
      obtain ⟨τ, ht1, ht2, ht3⟩ := update_lag _ _ _ _ hpos hm (below_of hD hA opmd hd) h0 hs before after 0 _ h1 i hi
      obtain ⟨-, hobs⟩ := replay_flow (e := p.elem) (opmd := opmd) (n := bunches.toList.length) (dts := dts) (dtF := dtF)
        (V := ℕ × (ℕ → ℝ) × ℝ) (obs := fun b => (b.n, b.w, b.propDistance))
        (fl := fun dt v => (v.1, v.2.1, v.2.2 + dt * p.wake.k.c)) (Good := fun b => Ready b.n b) (by
          intro φ b t dt hg
          obtain ⟨fs, hfs, -⟩ := activeFields_some hg.2.1 (p.elem.felt φ)
          obtain ⟨b', h1, h2, h3, h4, h5, h6, h7, h8, h9, h10, h11, h12, h13, h14⟩ :=
            evolve_spec p.wake.k.c b (p.elem.felt φ) fs (hsch b.n) t dt hp hg.2.2 hfs
          have h1 : (b.evolve p.elem.c (p.elem.felt φ) (p.elem.sch b.n) t dt p.elem.pusher).1 = b' := by
            show (b.evolve p.wake.k.c (p.elem.felt φ) (p.sch b.n) t dt p.pusher).1 = b'
            rw [h1]
          rw [h1]
          dsimp only
          refine ⟨⟨rfl, by rw [h2]; exact hg.2.1, h14⟩, ?_⟩
          rw [h2, h3, h5]) before (world bunches.toList b0 (Wake.start dt)) hg i hi
      rw [tiles_flow (fun dt (v : ℕ × (ℕ → ℝ) × ℝ) => (v.1, v.2.1, v.2.2 + dt * p.wake.k.c)) (fun v => by simp)
        (fun s t v => by simp; ring) ht1, hwb, sub_zero] at hobs
      refine ⟨_, ?_, (Prod.mk.inj hobs).1, (Prod.mk.inj (Prod.mk.inj hobs).2).1, ?_, ?_⟩
      · unfold World.list
        rw [List.getElem?_map, hlen]
        show Option.map _ (List.range bunches.toList.length)[i]? = _
        rw [List.getElem?_range hi]
        rfl
      · have := (Prod.mk.inj (Prod.mk.inj hobs).2).2
        dsimp only at this
        rw [this]
        have hc : 0 < p.wake.k.c := hk.c
        nlinarith
      · have := (Prod.mk.inj (Prod.mk.inj hobs).2).2
        dsimp only at this
        rw [this]
        have hc : 0 < p.wake.k.c := hk.c
        nlinarith
    refine ⟨dt, N, fun m => (W.map World.list).getD m [], h, hdp, ?_, ?_, ?_, hhist N, ?_, hup, hflds⟩
    · cases hl : p.wake.laser.isSome with
      | false =>
        unfold Wake.dtUpdate Fields.adjustDt at hdt
        rw [hl] at hdt
        exact (Option.some.inj hdt).ge
      | true =>
        obtain ⟨d', n, e1, e2, e3, e4, -⟩ := Fields.adjustDt_spec ht hdt0
        unfold Wake.dtUpdate at hdt
        rw [hl, e1] at hdt
        rw [← Option.some.inj hdt]
        exact e3
    · intro hl
      obtain ⟨d', n, e1, e2, e3, e4, e5⟩ := Fields.adjustDt_spec ht hdt0
      unfold Wake.dtUpdate at hdt
      rw [hl, e1] at hdt
      have hdd := Option.some.inj hdt
      rw [hdd] at e4
      have hT := e4
      rw [← e4] at hN1 hN2
      have h1 : (N : ℝ) ≤ n := le_of_mul_le_mul_right hN1 hdp
      have h2 : (n : ℝ) < N + 1 := lt_of_mul_lt_mul_right hN2 hdp.le
      have h3 : N = n := by
        have h1 : N ≤ n := by exact_mod_cast h1
        have h2 : n < N + 1 := by exact_mod_cast h2
        omega
      rw [h3]
      refine ⟨hT, fun k hk' => ?_⟩
      have hc : 0 < p.wake.k.c := hk.c
      have hL : 0 < p.length := hk.length
      have hk0 : (0 : ℝ) < k := by
        rcases Nat.eq_zero_or_pos k with h | h
        · rw [h, Nat.cast_zero, zero_mul] at hk'
          linarith
        · exact_mod_cast h
      refine e5 k (p.length / p.wake.k.c / k) (by positivity) ?_ (by field_simp)
      unfold Wake.dt0
      rw [div_div, mul_comm p.wake.k.c, ← div_div]
      apply div_le_div_of_nonneg_right _ hc.le
      rw [div_le_iff₀ hk0]
      linarith
    · intro hl
      unfold Wake.dtUpdate Fields.adjustDt at hdt
      rw [hl] at hdt
      exact ⟨(Option.some.inj hdt).symm, hN1, hN2⟩
    · obtain ⟨-, -, h3⟩ := doTracking_returned hs
      obtain ⟨l, hl⟩ := log_run _ _ _ h3
      rw [start_log] at hl
      have hW : W = world bunches.toList b0 (Wake.start dt) :: worldsAtUpdates
          (p.elem.cfg opmd bunches.toList.length dts dtF) 0 ((p.elem.cfg opmd bunches.toList.length dts dtF).apply
            (world bunches.toList b0 (Wake.start dt)) (.update 0 0)) ([Ev.diag 0] ++ l) := by
        show worldsAtUpdates _ 0 _ s.log = _
        rw [← hl]
        rfl
      show (W.map World.list).getD 0 [] = _
      rw [hW]
      exact world_list _ _ _
  · cases hr
  · cases hr
  · cases hr

/-- The laser after the update at `m dt`: the initial pulse advanced `m` times by `dt`, each time in
the plasma calculated last. -/
theorem History.laser {w : Wake} {dt : ℝ} {N : ℕ} {B : ℕ → List Bunch} {h : ℕ → Props} (hh : History w dt N B h) {q : Pulse}
    (hq : w.laser = some q) (hev : w.laserEvolution = true) (m : ℕ) (hm : m ≤ N) :
    (h m).laser = (w.pulseGrid q dt).run q.prof
      (((List.range m).map fun k : ℕ => (fun i j : ℕ => (h k).fld.chi (i + 2) (j + 2), w.kp (h k).np)).reverse) := by
  induction m with
  | zero =>
    obtain ⟨e, h1, h2⟩ := hh.first q hq
    rw [h1, ← h2]
    rfl
  | succ m ih =>
    obtain ⟨e, e', h1, h2, h3⟩ := hh.step q hq hev m (by omega)
    rw [List.range_succ, List.map_append, List.reverse_append, List.map_singleton, List.reverse_singleton,
      List.singleton_append, Setup.run]
    rw [h2, ← h3, ← ih (by omega), h1]
    rfl

/-- The quasistatic wakefield can be calculated for every laser and all bunches. -/
theorem quasi_works {w : Wake} (a : Plasma1) (q : QArgs) (hs : w.solve = w.quasiCalc a q) (hr : 0 < w.rMax)
    (hx : w.xiMin < w.xiMax) (hnr : 0 < w.nR) (hnx : 2 ≤ w.nXi) (hp : q.pusher = "ab5" ∨ q.pusher = "rk4")
    (hsh : q.pShape = "linear" ∨ q.pShape = "cubic") (hsd : ∀ z, 0 < a.skinDepth (w.density z / 1e6))
    (hl : ∀ q, w.laser = some q → ∀ dt, (w.setup q dt).Ok) : w.Works where
  laser := hl
  solve := by
    intro t env bs
    have h := hsd (t * w.k.c)
    obtain ⟨r, hr⟩ := QS.total_args (w.rMax / a.skinDepth (w.density (t * w.k.c) / 1e6))
      (w.xiMin / a.skinDepth (w.density (t * w.k.c) / 1e6)) (w.xiMax / a.skinDepth (w.density (t * w.k.c) / 1e6)) w.nR w.nXi
      q.ppc (q.rMaxPlasma.map (· / a.skinDepth (w.density (t * w.k.c) / 1e6)))
      (q.parabolic (t * w.k.c) * a.skinDepth (w.density (t * w.k.c) / 1e6) ^ 2) q.pShape q.pusher q.maxGamma q.argsort
      (div_pos hr h) (div_lt_div_of_pos_right hx h) hnr hnx hp hsh (aEnv2 env) _
      (a.waveBreaking (w.density (t * w.k.c) / 1e6)) w.k.c Wake.zeros
    rw [hs]
    refine ⟨r, ?_⟩
    unfold Wake.quasiCalc
    dsimp only
    have h2 : ∀ l, (w.quasi q (a.skinDepth (w.density (t * w.k.c) / 1e6)) (q.parabolic (t * w.k.c))).calculate q.pusher
        (aEnv2 env) l (a.waveBreaking (w.density (t * w.k.c) / 1e6)) w.k.c Wake.zeros =
        (w.quasi q (a.skinDepth (w.density (t * w.k.c) / 1e6)) (q.parabolic (t * w.k.c))).calculateField q.pusher
          (aEnv2 env) l (a.waveBreaking (w.density (t * w.k.c) / 1e6)) w.k.c Wake.zeros := fun l => rfl
    rw [h2]
    unfold Wake.quasi
    rw [hr]
    rfl

/-- So can that of the cold fluid model. -/
theorem cold_works {w : Wake} (a : Plasma1) (bw : Bool) {shape : String} (hs : w.solve = w.coldCalc a bw shape)
    (hsh : shape = "linear" ∨ shape = "cubic") (hl : ∀ q, w.laser = some q → ∀ dt, (w.setup q dt).Ok) : w.Works where
  laser := hl
  solve := by
    intro t env bs
    rw [hs]
    unfold Wake.coldCalc Wake.beamHist
    dsimp only
    obtain ⟨sh, h⟩ : ∃ sh, Deposition.parseShape shape = some sh := by
      rcases hsh with rfl | rfl
      · exact ⟨_, rfl⟩
      · exact ⟨_, rfl⟩
    rw [h]
    cases bs with
    | nil => exact ⟨_, rfl⟩
    | cons b l => exact ⟨_, rfl⟩

/-- The wakefield of the instance can be calculated. -/
theorem demo_works (evolution : Bool) : (demoWake evolution).Works := by
  refine quasi_works (w := demoWake evolution) ⟨fun _ => 1, fun _ => 1⟩
    ⟨2, none, fun _ => 0, "linear", 10, "ab5", fun _ i => i⟩ rfl ?_ ?_ ?_ ?_ (Or.inl rfl) (Or.inl rfl) ?_ ?_
  · norm_num [demoWake]
  · norm_num [demoWake]
  · norm_num [demoWake]
  · norm_num [demoWake]
  · intro z
    norm_num
  · intro q _ dt
    constructor <;> constructor <;> norm_num [Wake.setup, demoWake, Setup.main, Setup.solver, Setup.useSub]

/-- The stage of the instance with a fixed time step: two steps of the laser, of 1/2 each, through
plasma of density 1 and 3/2; the last wakefield is that for the density 2 at the end. -/
example (sch : ℕ → Sched) (hsch : ∀ n, (sch n).Valid n) (b : Bunch) (hb : Ready b.n b) : ∃ fuel r w,
    ({ demoStage true sch with dtBunch := .one (some (1 / 5)) } : PStage ℝ).track false fuel (.one b) b = .returned (r, w) ∧
    ∃ (B : ℕ → List Bunch) (h : ℕ → Props) (e : PulseArrays), History (demoWake true) (1 / 2) 2 B h ∧
      w.flds.prop = some (h 2) ∧ (h 0).np = 1 ∧ (h 1).np = 3 / 2 ∧ (h 2).np = 2 ∧
      (h 2).laser = some e ∧ e.nSteps = 2 := by
  have hok : ({ demoStage true sch with dtBunch := .one (some (1 / 5)) } : PStage ℝ).elem.Ok :=
    { demo_ok true sch with
      steps := by
        intro d hd
        have hd : some d = some (1 / 5 : ℝ) := List.mem_singleton.mp hd
        cases hd
        norm_num }
  obtain ⟨fuel, ⟨r, w⟩, hr⟩ : ∃ fuel r, ({ demoStage true sch with dtBunch := .one (some (1 / 5)) } : PStage ℝ).track false
      fuel (.one b) b = .returned r := by
    unfold PStage.track
    have : ({ demoStage true sch with dtBunch := .one (some (1 / 5)) } : PStage ℝ).wake.dtUpdate
      ({ demoStage true sch with dtBunch := .one (some (1 / 5)) } : PStage ℝ).length = some (1 / 2) := demo_dt true
    rw [this]
    exact track_returns hok strictMono_id (by norm_num [PStage.elem, demoStage]) (δ := 1 / 5)
      (by norm_num) (demo_auto true sch) _ (by intro l hl; cases hl) false b _
  obtain ⟨dt, N, B, h, h1, h2, h3, -, h4, h5, h6, h7⟩ := stage_history (demo_works true) hok strictMono_id (Or.inr rfl) hsch
    (D := 1 / 5) (by
      intro d hd
      have hd : some d = some (1 / 5 : ℝ) := List.mem_singleton.mp hd
      cases hd
      norm_num) (by intro hd; cases (List.mem_singleton.mp hd)) (by norm_num) false fuel (.one b)
    (by intro x hx; rw [List.mem_singleton.mp hx]; exact hb) b hr
  obtain ⟨h8, h9⟩ := h3 rfl
  have h8 : (N : ℝ) * dt = 1 := by simpa [demoStage, demoWake] using h8
  have h2 : dt ≤ 3 / 5 := by simpa [demoStage, demoWake] using h2
  have hN : N = 2 := by
    have h10 : N ≤ 2 := h9 2 (by norm_num [demoStage, demoWake])
    have h11 : N ≠ 0 := by
      rintro rfl
      simp at h8
    have h12 : N ≠ 1 := by
      rintro rfl
      rw [Nat.cast_one, one_mul] at h8
      linarith
    omega
  subst hN
  have hdt : dt = 1 / 2 := by push_cast at h8; linarith
  subst hdt
  have hd : ∀ m ≤ 2, (h m).np = 1 + m * (1 / 2) * 1 := fun m hm => h4.density m hm
  obtain ⟨e, h10, h11⟩ := subgrid_in_bounds ((demo_works true).laser _ rfl (1 / 2)) _
    (((List.range 2).map fun k : ℕ => (fun i j : ℕ => (h k).fld.chi (i + 2) (j + 2), (demoWake true).kp (h k).np)).reverse)
  refine ⟨fuel, r, w, hr, B, h, e, h4, by rw [h7], ?_, ?_, ?_, (h4.laser rfl rfl 2 le_rfl).trans h10, h11⟩
  · rw [hd 0 (by norm_num)]; norm_num
  · rw [hd 1 (by norm_num)]; norm_num
  · rw [hd 2 (by norm_num)]; norm_num

end WakeT.Stage
