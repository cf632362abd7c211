import Verif.Stage.History
import Verif.Stage.Polarization
import Verif.Tracker.Scaled

/-!
# Tracking through the same plasma stage again

`initialized` is never reset (numerical_field.py 48, 62-75), so a stage that has been used goes on
where it stopped.
-/

set_option linter.unusedSectionVars false

namespace WakeT.Stage

open Bunch FieldElement Laser Tracker
open Plasma (QS)
open Plasma.QS (Fld)
open Push (PField Sched)
open Fields (NumField FieldOps)

variable {F : Type} [LinearOrder F]

/-! ### Model -/

/-- The `FieldElement` of a stage whose wakefield is in the state `φ` (plasma_stage.py 100-116):
`adjust_dt` (tracker.py 112-114) starts with the period that is stored there. -/
noncomputable def PStage.elemAgain (p : PStage F) (φ : NumField ℝ (Option Props)) : Elem F (NumField ℝ (Option Props)) :=
  { p.elem with numFields := [(φ.dt, p.wake.laser.isSome)] }

/-- `track` of a stage whose wakefield is in the state `φ` (field_element.py 79-154; the list of fields is made
only once, in plasma_stage.py 100-116). -/
noncomputable def PStage.trackAgain (p : PStage F) (φ : NumField ℝ (Option Props)) (opmd : Bool) (fuel : ℕ)
    (bunches : OneOrMany Bunch) (b0 : Bunch) : Result (OneOrMany (List Bunch) × World (NumField ℝ (Option Props))) :=
  match Fields.adjustDt p.wake.laser.isSome (p.length / p.wake.k.c) φ.dt with
  | none => .nan
  | some dt => (p.elemAgain φ).track opmd fuel bunches b0 { φ with dt := dt }

/-! ### The updates of both trackings -/

/-- A new stage is the case of a wakefield that has not been initialized. -/
theorem track_eq (p : PStage F) (opmd : Bool) (fuel : ℕ) (bunches : OneOrMany Bunch) (b0 : Bunch) :
    p.track opmd fuel bunches b0 = p.trackAgain (Wake.start p.wake.dt0) opmd fuel bunches b0 := rfl

theorem track_updates {p : PStage F} {φ : NumField ℝ (Option Props)} (hk : (p.elemAgain φ).Ok) (hm : StrictMono p.f32)
    {opmd : Bool} {fuel : ℕ} {bunches : OneOrMany Bunch} {b0 : Bunch} {r : OneOrMany (List Bunch)}
    {w : World (NumField ℝ (Option Props))} (hr : p.trackAgain φ opmd fuel bunches b0 = .returned (r, w)) :
    ∃ (dt : ℝ) (N : ℕ) (W : List (List Bunch)), Fields.adjustDt p.wake.laser.isSome (p.length / p.wake.k.c) φ.dt = some dt ∧
      0 < dt ∧ N * dt ≤ p.length / p.wake.k.c ∧ p.length / p.wake.k.c < (N + 1) * dt ∧ W.length = N + 1 ∧
      W.head? = some bunches.toList ∧
      w.flds = W.foldl (fun φ bs => φ.update (p.wake.ops φ.dt) bs) { φ with dt := dt } := by
  unfold PStage.trackAgain at hr
  cases hdt : Fields.adjustDt p.wake.laser.isSome (p.length / p.wake.k.c) φ.dt with
  | none => rw [hdt] at hr; cases hr
  | some dt =>
  rw [hdt] at hr
  dsimp only at hr
  unfold Elem.track at hr
  dsimp only at hr
  split at hr
  · cases hr
  next dts hd =>
  split at hr
  · cases hr
  next dtF hf =>
  split at hr
  next s hs =>
    have hwe := (Prod.mk.inj (Result.returned.inj hr)).2
    subst hwe
    have hpos := cfg_positive hk opmd hd hf
    have hdtF : dtF = [dt] := by
      unfold Elem.dtFields PStage.elemAgain PStage.elem at hf
      simp only [List.mapM_cons, hdt, List.mapM_nil] at hf
      simpa using hf.symm
    have h4 : ((p.elemAgain φ).cfg opmd bunches.toList.length dts dtF).dtField 0 = dt := by rw [hdtF]; rfl
    have hdp : 0 < dt := by
      have := hpos.field 0 Nat.zero_lt_one
      rwa [h4] at this
    obtain ⟨N, hN, hN1, hN2⟩ := field_updates _ _ _ _ hpos hk.mono hs 0 Nat.zero_lt_one
    rw [h4] at hN hN1 hN2
    obtain ⟨hrep, -⟩ := snapshots_replay _ _ _ _ hs
    have hcfg : (p.elemAgain φ).cfg opmd bunches.toList.length dts dtF = p.elem.cfg opmd bunches.toList.length dts dtF := rfl
    refine ⟨dt, N, (worldsAtUpdates (p.elem.cfg opmd bunches.toList.length dts dtF) 0
      (world bunches.toList b0 { φ with dt := dt }) s.log).map World.list, rfl, hdp, hm.le_iff_le.mp hN1, hm.lt_iff_lt.mp hN2, ?_, ?_, ?_⟩
    · rw [List.length_map, worldsAtUpdates_length, hN]
      simp
    · obtain ⟨-, -, h3⟩ := doTracking_returned hs
      obtain ⟨l, hl⟩ := log_run _ _ _ h3
      rw [start_log] at hl
      rw [← hl]
      show some (World.list _) = _
      rw [world_list]
    · rw [hrep, hcfg, flds_replay]
      rfl
  · cases hr
  · cases hr
  · cases hr

/-! ### The wakefield goes on -/

/-- **C134.** The second tracking through the same stage: its updates go on where those of the first one ended, as
if the bunches were in a stage that is longer. The first update is made with the density (and the channel) one
period behind the last one of the first tracking, and with the pulse that was left, advanced once more. -/
theorem reuse_history {p : PStage F} (hw : p.wake.Works) (hk : p.elem.Ok) (hm : StrictMono p.f32)
    {opmd opmd₂ : Bool} {fuel fuel₂ : ℕ} {bunches bunches₂ : OneOrMany Bunch} {b0 b0' : Bunch} {r₁ r₂ : OneOrMany (List Bunch)}
    {w₁ w₂ : World (NumField ℝ (Option Props))} (h₁ : p.track opmd fuel bunches b0 = .returned (r₁, w₁))
    (h₂ : p.trackAgain w₁.flds opmd₂ fuel₂ bunches₂ b0' = .returned (r₂, w₂)) :
    ∃ (dt : ℝ) (N : ℕ) (B : ℕ → List Bunch) (h : ℕ → Props), p.wake.dtUpdate p.length = some dt ∧
      N * dt ≤ p.length / p.wake.k.c ∧ p.length / p.wake.k.c < (N + 1) * dt ∧
      History p.wake dt (2 * N + 1) B h ∧ B 0 = bunches.toList ∧ B (N + 1) = bunches₂.toList ∧
      w₁.flds = ⟨dt, true, N * dt, some (h N)⟩ ∧ w₂.flds = ⟨dt, true, (2 * N + 1 : ℕ) * dt, some (h (2 * N + 1))⟩ := by
  obtain ⟨dt, N, W, hdt, hdp, hN1, hN2, hW, hW0, hf⟩ := track_updates (φ := Wake.start p.wake.dt0) hk hm (track_eq p _ _ _ _ ▸ h₁)
  have hdt1 : w₁.flds.dt = dt := by
    obtain ⟨h, hh, -⟩ := after_history hw dt fun m => W.getD m []
    rw [hf]
    show (List.foldl _ (Wake.start dt) W).dt = _
    rw [foldl_after, hW, hh]
  have hT : 0 < p.length / p.wake.k.c := div_pos hk.length hk.c
  have hdt0 : 0 < p.wake.dt0 := hk.fields (p.wake.dt0, _) List.mem_cons_self
  have hsame : Fields.adjustDt p.wake.laser.isSome (p.length / p.wake.k.c) dt = some dt := by
    have hdt : Fields.adjustDt p.wake.laser.isSome (p.length / p.wake.k.c) p.wake.dt0 = some dt := hdt
    cases hl : p.wake.laser.isSome with
    | false => rfl
    | true =>
      rw [hl] at hdt
      exact Fields.adjustDt_idempotent hT hdt0 hdt
  have hk2 : (p.elemAgain w₁.flds).Ok :=
    { hk with
      fields := by
        intro x hx
        have hx : x = (w₁.flds.dt, p.wake.laser.isSome) := List.mem_singleton.mp hx
        rw [hx, hdt1]
        exact hdp }
  obtain ⟨dt', N', W', hdt', -, hN1', hN2', hW', hW0', hf'⟩ := track_updates hk2 hm h₂
  rw [hdt1, hsame] at hdt'
  cases hdt'
  have hNN : N' = N := by
    have e1 : (N' : ℝ) < N + 1 := lt_of_mul_lt_mul_right (lt_of_le_of_lt hN1' hN2) hdp.le
    have e2 : (N : ℝ) < N' + 1 := lt_of_mul_lt_mul_right (lt_of_le_of_lt hN1 hN2') hdp.le
    have e1 : N' < N + 1 := by exact_mod_cast e1
    have e2 : N < N' + 1 := by exact_mod_cast e2
    omega
  subst hNN
  obtain ⟨h, hh, hhist⟩ := after_history hw dt fun m => (W ++ W').getD m []
  have e1 : w₁.flds = ⟨dt, true, N' * dt, some (h N')⟩ := by
    rw [hf]
    show List.foldl _ (Wake.start dt) W = _
    rw [foldl_after, hW, ← hh]
    exact after_congr _ _ _ fun m hm => by
      simp only [List.getD_eq_getElem?_getD, List.getElem?_append_left (by omega : m < W.length)]
  have e2 : w₂.flds = ⟨dt, true, (2 * N' + 1 : ℕ) * dt, some (h (2 * N' + 1))⟩ := by
    have e3 : ({ w₁.flds with dt := dt } : NumField ℝ (Option Props)) = w₁.flds := by rw [e1]
    rw [hf', e3, hf]
    show List.foldl _ (List.foldl _ (Wake.start dt) W) W' = _
    rw [← List.foldl_append, foldl_after, List.length_append, hW, hW', ← hh]
    congr 1
    omega
  refine ⟨dt, N', _, h, hdt, hN1, hN2, hhist _, ?_, ?_, e1, e2⟩
  · cases W with
    | nil => cases hW0
    | cons a l => exact Option.some.inj hW0
  · cases W' with
    | nil => cases hW0'
    | cons a l =>
      have : a = bunches₂.toList := Option.some.inj hW0'
      rw [List.getD_eq_getElem?_getD, List.getElem?_append_right (by omega), hW, Nat.sub_self, this]
      rfl

/-! ### A stage that does not change -/

/-- Plasma that is the same everywhere along the stage and a laser that does not evolve (or none). -/
structure Wake.Steady (w : Wake) : Prop where
  density : ∀ z, w.density z = w.density 0
  solve : ∀ t, w.solve t = w.solve 0
  laser : w.laser = none ∨ w.laserEvolution = false

theorem steady_evolve {w : Wake} (h : w.Steady) (dt : ℝ) (s : Props) : w.evolveProps dt s = some s := by
  unfold Wake.evolveProps
  rcases h.laser with h1 | h1
  · rw [h1]
  · split
    · rw [h1]; rfl
    · rfl

theorem steady_calculate {w : Wake} (h : w.Steady) (t : ℝ) (bs : List Bunch) (s : Props) :
    w.calculateProps t bs s = w.calculateProps 0 bs ⟨s.laser, 0, Wake.zeros⟩ := by
  unfold Wake.calculateProps
  dsimp only
  rw [h.density (t * w.k.c), h.density (0 * w.k.c), h.solve t]

/-- Worlds with the same bunches and fields, at different times of the wakefield. -/
structure OtherTime (w w' : World (NumField ℝ (Option Props))) : Prop where
  n : w'.n = w.n
  bunch : w'.bunch = w.bunch
  init : w.flds.initialized = true
  init' : w'.flds.initialized = true
  prop : w'.flds.prop = w.flds.prop

theorem steady_update {w : Wake} (h : w.Steady) {φ φ' : NumField ℝ (Option Props)} (hi : φ.initialized = true)
    (hi' : φ'.initialized = true) (hp : φ'.prop = φ.prop) (bs : List Bunch) :
    (φ'.update (w.ops φ'.dt) bs).prop = (φ.update (w.ops φ.dt) bs).prop := by
  unfold NumField.update Wake.ops
  simp only [hi, hi', not_true_eq_false, if_false, hp]
  cases φ.prop with
  | none => rfl
  | some s =>
    simp only [Option.bind_some, steady_evolve h]
    rw [steady_calculate h, steady_calculate h (φ.t + φ.dt)]

theorem steady_scaled {p : PStage F} (h : p.wake.Steady) (opmd : Bool) (n : ℕ) (dts : List (Option ℝ)) (dtF : List ℝ) :
    Scaled 1 (p.elem.cfg opmd n dts dtF) (p.elem.cfg opmd n dts dtF) OtherTime where
  pos := one_pos
  tFinal := (one_mul _).symm
  nBunch := rfl
  nField := rfl
  nDiag := rfl
  opmd := rfl
  pushBefore := rfl
  f32 := fun t => by rw [one_mul]
  dtBunch := fun i _ => by simp
  dtField := fun j _ => (one_mul _).symm
  autoDt := by
    intro i _ w w' hr
    rw [one_mul]
    show p.autoDt (w'.bunch i) = p.autoDt (w.bunch i)
    rw [hr.bunch]
  evolve := by
    intro i _ w w' t dt hr
    rw [one_mul, one_mul]
    refine ⟨hr.n, ?_, hr.init, hr.init', hr.prop⟩
    show Function.update w'.bunch i _ = Function.update w.bunch i _
    have : p.elem.felt w'.flds = p.elem.felt w.flds := by
      show p.wake.field w'.flds.prop ++ _ = p.wake.field w.flds.prop ++ _
      rw [hr.prop]
    rw [hr.bunch, this]
  update := by
    intro j hj w w' hr
    have hj : j = 0 := Nat.lt_one_iff.mp hj
    subst hj
    have hl : w'.list = w.list := by
      unfold World.list
      rw [hr.n, hr.bunch]
    refine ⟨hr.n, hr.bunch, ?_, ?_, ?_⟩
    · show (NumField.update _ _ _).initialized = true
      unfold NumField.update
      simp [hr.init]
    · show (NumField.update _ _ _).initialized = true
      unfold NumField.update
      simp [hr.init']
    · show (NumField.update _ _ w'.list).prop = (NumField.update _ _ w.list).prop
      rw [hl]
      exact steady_update h hr.init hr.init' hr.prop _

theorem steady_first {w : Wake} (h : w.Steady) {φ : NumField ℝ (Option Props)} (hi : φ.initialized = true) {s s0 : Props}
    (hp : φ.prop = some s) {dt : ℝ} (h0 : w.initProps dt = some s0) (hs : s.laser = s0.laser) (bs : List Bunch) :
    (φ.update (w.ops φ.dt) bs).prop = ((Wake.start dt).update (w.ops dt) bs).prop := by
  unfold NumField.update Wake.ops
  simp only [hi, not_true_eq_false, if_false, hp, Wake.start, Bool.false_eq_true, not_false_eq_true, if_true,
    Option.bind_some, steady_evolve h, h0]
  rw [steady_calculate h, steady_calculate h 0 bs s0, hs]

/-- **C134, partial.** What is missing: stages with a density or a channel that depends on the position, or with a
laser that evolves (`reuse_violated`).  In uniform plasma and without evolution of the laser, the second tracking
through the same stage gives exactly the outputs of a tracking through a new stage. -/
theorem reuse_partial {p : PStage F} (hs : p.wake.Steady) (hw : p.wake.Works) (hk : p.elem.Ok) (hm : StrictMono p.f32)
    {opmd opmd₁ : Bool} {fuel fuel₁ : ℕ} {bunches bunches₁ : OneOrMany Bunch} {b0 b0' : Bunch} {r r₁ : OneOrMany (List Bunch)}
    {w w₁ : World (NumField ℝ (Option Props))} (h₁ : p.track opmd₁ fuel₁ bunches₁ b0' = .returned (r₁, w₁))
    (h : p.track opmd fuel bunches b0 = .returned (r, w)) :
    ∃ w', p.trackAgain w₁.flds opmd fuel bunches b0 = .returned (r, w') ∧ w'.list = w.list ∧ w'.flds.prop = w.flds.prop := by
  obtain ⟨dt, N, W, hdt, hdp, hN1, hN2, hW, hW0, hf⟩ := track_updates (φ := Wake.start p.wake.dt0) hk hm (track_eq p _ _ _ _ ▸ h₁)
  have hdt : Fields.adjustDt p.wake.laser.isSome (p.length / p.wake.k.c) p.wake.dt0 = some dt := hdt
  obtain ⟨g, hg, hh⟩ := after_history hw dt fun m => W.getD m []
  have hf : w₁.flds = ⟨dt, true, N * dt, some (g N)⟩ := by
    rw [hf]
    show List.foldl _ (Wake.start dt) W = _
    rw [foldl_after, hW, hg]
  have hT : 0 < p.length / p.wake.k.c := div_pos hk.length hk.c
  have hdt0 : 0 < p.wake.dt0 := hk.fields (p.wake.dt0, _) List.mem_cons_self
  have hsame : Fields.adjustDt p.wake.laser.isSome (p.length / p.wake.k.c) dt = some dt := by
    cases hl : p.wake.laser.isSome with
    | false => rfl
    | true =>
      rw [hl] at hdt
      exact Fields.adjustDt_idempotent hT hdt0 hdt
  obtain ⟨s0, hs0, hgs⟩ : ∃ s0, p.wake.initProps dt = some s0 ∧ (g N).laser = s0.laser := by
    unfold Wake.initProps
    cases hl : p.wake.laser with
    | none => exact ⟨_, rfl, (hh N).noLaser hl N le_rfl⟩
    | some q =>
      obtain ⟨e, h1, h2⟩ := (hh N).first q hl
      have h2 : (p.wake.setup q dt).init q.prof = some e := h2
      dsimp only
      rw [h2]
      refine ⟨_, rfl, ?_⟩
      rcases hs.laser with h3 | h3
      · rw [hl] at h3; cases h3
      · rw [(hh N).frozen h3 N le_rfl, h1]
  unfold PStage.track at h
  unfold PStage.trackAgain
  have hdt' : p.wake.dtUpdate p.length = some dt := hdt
  have hd1 : w₁.flds.dt = dt := by rw [hf]
  have hd2 : ({ w₁.flds with dt := dt } : NumField ℝ (Option Props)) = w₁.flds := by rw [hf]
  rw [hdt'] at h
  rw [hd1, hsame]
  dsimp only at h ⊢
  rw [hd2]
  unfold Elem.track at h ⊢
  dsimp only at h ⊢
  have hl : (p.elemAgain w₁.flds).dtList bunches.toList.length = p.elem.dtList bunches.toList.length := rfl
  have hdf : (p.elemAgain w₁.flds).dtFields = p.elem.dtFields := by
    unfold Elem.dtFields PStage.elemAgain PStage.elem
    simp only [List.mapM_cons, List.mapM_nil, hd1]
    rw [hsame, hdt]
  rw [hl, hdf]
  cases hd : p.elem.dtList bunches.toList.length with
  | none => rw [hd] at h; cases h
  | some dts =>
  rw [hd] at h
  cases hdF : p.elem.dtFields with
  | none => rw [hdF] at h; cases h
  | some dtF =>
  rw [hdF] at h
  dsimp only at h ⊢
  have hcfg : (p.elemAgain w₁.flds).cfg opmd bunches.toList.length dts dtF = p.elem.cfg opmd bunches.toList.length dts dtF := rfl
  rw [hcfg]
  generalize hc : p.elem.cfg opmd bunches.toList.length dts dtF = c at h ⊢
  have hsc : Scaled 1 c c OtherTime := hc ▸ steady_scaled hs opmd _ dts dtF
  have hfirst : OtherTime (c.updateF (world bunches.toList b0 (Wake.start dt)) 0) (c.updateF (world bunches.toList b0 w₁.flds) 0) := by
    rw [← hc]
    refine ⟨rfl, rfl, rfl, ?_, ?_⟩
    · show (NumField.update _ w₁.flds _).initialized = true
      rw [hf]
      rfl
    · show (NumField.update (p.wake.ops w₁.flds.dt) w₁.flds (World.list _)).prop =
        (NumField.update (p.wake.ops dt) (Wake.start dt) (World.list _)).prop
      rw [world_list, world_list]
      exact steady_first hs (by rw [hf]) (by rw [hf]) hs0 hgs _
  have hnf : c.nField = 1 := by rw [← hc]; rfl
  have hstart : ScaledSt 1 OtherTime (start c (world bunches.toList b0 (Wake.start dt))) (start c (world bunches.toList b0 w₁.flds)) := by
    unfold start generateDiagnostics
    rw [hnf]
    refine ⟨fun i => (mul_zero _).symm, fun i => ?_, hfirst, .cons hfirst .nil⟩
    dsimp only
    unfold Cfg.dt0
    rw [one_mul]
    split_ifs with h6
    · cases c.dtBunch i with
      | none => exact (hsc.autoDt i h6 _ _ hfirst).trans (one_mul _)
      | some d => rfl
    · rfl
    · rfl
  have hrun := scaled_run hsc fuel hstart
  cases hs : doTracking c fuel (world bunches.toList b0 (Wake.start dt)) with
  | running => rw [hs] at h; cases h
  | raised e => rw [hs] at h; cases e <;> cases h
  | returned s =>
  rw [hs] at h
  obtain ⟨h1, h2, h3⟩ := doTracking_returned hs
  rw [h3] at hrun
  obtain ⟨s', h4, h5⟩ := hrun
  have hs' : doTracking c fuel (world bunches.toList b0 w₁.flds) = .returned s' := by
    unfold doTracking
    rw [if_neg (by omega), if_neg (by omega), h4]
    dsimp only
    rw [if_neg (by omega)]
  rw [hs']
  have he := Prod.mk.inj (Result.returned.inj h)
  refine ⟨s'.w, ?_, ?_, ?_⟩
  · dsimp only
    rw [← he.1]
    have : ∀ l l' : List (World (NumField ℝ (Option Props))), List.Forall₂ OtherTime l l' →
        bunchLists bunches.toList.length l' = bunchLists bunches.toList.length l := by
      intro l l' hll
      unfold bunchLists
      refine List.map_congr_left fun i _ => ?_
      induction hll with
      | nil => rfl
      | cons ha _ ih => rw [List.map_cons, List.map_cons, ih, ha.bunch]
    rw [this _ _ h5.snaps]
  · rw [← he.2]
    unfold World.list
    rw [h5.w.n, h5.w.bunch]
  · rw [← he.2]
    exact h5.w.prop

/-! ### Instances -/

theorem demo_again_ok {φ : NumField ℝ (Option Props)} (hφ : 0 < φ.dt) (sch : ℕ → Sched) :
    (({ demoStage true sch with dtBunch := .one (some (1 / 5)) } : PStage ℝ).elemAgain φ).Ok :=
  { demo_ok true sch with
    steps := by
      intro d hd
      have hd : some d = some (1 / 5 : ℝ) := List.mem_singleton.mp hd
      cases hd
      norm_num
    fields := by
      intro x hx
      have hx : x = (φ.dt, true) := List.mem_singleton.mp hx
      rw [hx]
      exact hφ }

/-- **C134 is violated** by a stage of the library with a density that grows from 1 to 2 and a laser: the same
bunch is tracked through the same stage twice. The density at the end of the stage is 2 in the first tracking and
7/2 in the second one, and the pulse has made 2 steps in the first and 5 in the second one. -/
theorem reuse_violated (sch : ℕ → Sched) (b : Bunch) :
    ∃ (p : PStage ℝ) (fuel fuel₂ : ℕ) (r₁ r₂ : OneOrMany (List Bunch)) (w₁ w₂ : World (NumField ℝ (Option Props)))
      (s₁ s₂ : Props) (e₁ e₂ : PulseArrays),
      p.wake.IsModel ∧ p.length = 1 ∧ p.wake.k.c = 1 ∧ (∀ z, p.wake.density z = 1 + z) ∧
      p.track false fuel (.one b) b = .returned (r₁, w₁) ∧
      p.trackAgain w₁.flds false fuel₂ (.one b) b = .returned (r₂, w₂) ∧
      w₁.flds.prop = some s₁ ∧ w₂.flds.prop = some s₂ ∧ s₁.np = 2 ∧ s₂.np = 7 / 2 ∧
      s₁.laser = some e₁ ∧ s₂.laser = some e₂ ∧ e₁.nSteps = 2 ∧ e₂.nSteps = 5 := by
  have hok : ({ demoStage true sch with dtBunch := .one (some (1 / 5)) } : PStage ℝ).elem.Ok :=
    demo_again_ok (φ := Wake.start (demoWake true).dt0) (by norm_num [Wake.start, Wake.dt0, demoWake]) sch
  have hdt : ({ demoStage true sch with dtBunch := .one (some (1 / 5)) } : PStage ℝ).wake.dtUpdate
      ({ demoStage true sch with dtBunch := .one (some (1 / 5)) } : PStage ℝ).length = some (1 / 2) := demo_dt true
  obtain ⟨fuel, ⟨r₁, w₁⟩, h₁⟩ : ∃ fuel r, ({ demoStage true sch with dtBunch := .one (some (1 / 5)) } : PStage ℝ).track false
      fuel (.one b) b = .returned r := by
    unfold PStage.track
    rw [hdt]
    exact track_returns hok strictMono_id (by norm_num [PStage.elem, demoStage]) (δ := 1 / 5)
      (by norm_num) (demo_auto true sch) _ (by intro l hl; cases hl) false b _
  obtain ⟨dt, N, W, hd1, hd2, -, -, hW, -, hf⟩ := track_updates
    (p := ({ demoStage true sch with dtBunch := .one (some (1 / 5)) } : PStage ℝ)) (φ := Wake.start (demoWake true).dt0) hok
    strictMono_id h₁
  have hdd : dt = 1 / 2 := Option.some.inj (hd1.symm.trans hdt)
  have hφ : w₁.flds.dt = 1 / 2 := by
    obtain ⟨h, hh, -⟩ := after_history (demo_works true) dt fun m => W.getD m []
    rw [hf]
    show (List.foldl (fun φ bs => NumField.update ((demoWake true).ops φ.dt) φ bs) (Wake.start dt) W).dt = _
    rw [foldl_after, hW, hh, hdd]
  obtain ⟨fuel₂, ⟨r₂, w₂⟩, h₂⟩ : ∃ fuel r, ({ demoStage true sch with dtBunch := .one (some (1 / 5)) } : PStage ℝ).trackAgain
      w₁.flds false fuel (.one b) b = .returned r := by
    unfold PStage.trackAgain
    have : Fields.adjustDt ({ demoStage true sch with dtBunch := .one (some (1 / 5)) } : PStage ℝ).wake.laser.isSome
        (({ demoStage true sch with dtBunch := .one (some (1 / 5)) } : PStage ℝ).length /
          ({ demoStage true sch with dtBunch := .one (some (1 / 5)) } : PStage ℝ).wake.k.c) w₁.flds.dt = some (1 / 2) := by
      rw [hφ]
      exact Fields.adjustDt_idempotent (dt := 3 / 5) (by norm_num [demoStage, demoWake]) (by norm_num) (by
        have := hdt
        unfold Wake.dtUpdate at this
        rw [← this]
        norm_num [demoStage, demoWake, Wake.dt0])
    rw [this]
    exact track_returns (demo_again_ok (by rw [hφ]; norm_num) sch) strictMono_id
      (by norm_num [PStage.elemAgain, PStage.elem, demoStage]) (δ := 1 / 5)
      (by norm_num) (demo_auto true sch) _ (by intro l hl; cases hl) false b _
  obtain ⟨dt', N', B, h, h3, h4, h5, h6, -, -, h7, h8⟩ := reuse_history (demo_works true) hok strictMono_id h₁ h₂
  cases Option.some.inj (h3.symm.trans hdt)
  have hN : N' = 2 := by
    have h4 : (N' : ℝ) * (1 / 2) ≤ 1 := by simpa [demoStage, demoWake] using h4
    have h5 : (1 : ℝ) < (N' + 1) * (1 / 2) := by simpa [demoStage, demoWake] using h5
    have h4 : (N' : ℝ) ≤ 2 := by linarith
    have h5 : (1 : ℝ) < N' := by linarith
    have h4 : N' ≤ 2 := by exact_mod_cast h4
    have h5 : 1 < N' := by exact_mod_cast h5
    omega
  subst hN
  have hlas : ∀ m ≤ 5, ∃ e, (h m).laser = some e ∧ e.nSteps = m := by
    intro m hm
    obtain ⟨e, h10, h11⟩ := subgrid_in_bounds ((demo_works true).laser _ rfl (1 / 2)) _
      (((List.range m).map fun k : ℕ => (fun i j : ℕ => (h k).fld.chi (i + 2) (j + 2), (demoWake true).kp (h k).np)).reverse)
    exact ⟨e, (h6.laser rfl rfl m hm).trans h10, by simpa using h11⟩
  obtain ⟨e₁, h9, h10⟩ := hlas 2 (by norm_num)
  obtain ⟨e₂, h11, h12⟩ := hlas 5 (by norm_num)
  have hd : ∀ m ≤ 5, (h m).np = 1 + m * (1 / 2) * 1 := fun m hm => h6.density m hm
  refine ⟨_, fuel, fuel₂, r₁, r₂, w₁, w₂, h 2, h 5, e₁, e₂, Or.inl ⟨_, _, rfl⟩, rfl, rfl, fun _ => rfl, h₁, h₂, by rw [h7],
    by rw [h8], ?_, ?_, h9, h11, h10, h12⟩
  · rw [hd 2 (by norm_num)]; norm_num
  · rw [hd 5 (by norm_num)]; norm_num

/-- `reuse_partial` applies to both models in uniform plasma, here with a laser that does not evolve. -/
example (a : Plasma1) (q : QArgs) (w : Wake) (hs : w.solve = w.quasiCalc a q) (hd : ∀ z, w.density z = 1)
    (hq : ∀ z, q.parabolic z = 0) (hl : w.laserEvolution = false) : w.Steady where
  density := fun z => (hd z).trans (hd 0).symm
  solve := fun t => by
    rw [hs]
    funext np env bs f
    unfold Wake.quasiCalc
    rw [hq, hq]
  laser := .inr hl

example (a : Plasma1) (bw : Bool) (shape : String) (w : Wake) (hs : w.solve = w.coldCalc a bw shape)
    (hd : ∀ z, w.density z = 1) (hl : w.laser = none) : w.Steady where
  density := fun z => (hd z).trans (hd 0).symm
  solve := fun t => by
    rw [hs]
    rfl
  laser := .inl hl

end WakeT.Stage
