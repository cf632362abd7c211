import Verif.Tracker.Props
import Verif.Fields.Props
import Verif.Bunch.Props
import Mathlib.Data.Real.Archimedean

/-! # Tracking through a field element (C119)

`wake_t/beamline_elements/field_element.py` (class `FieldElement`, the base of plasma stages,
active lenses and field quadrupoles) and `Tracker.__init__`
(`wake_t/tracking/tracker.py` 86-138), with the particle bunches of `Verif.Bunch`. -/

set_option linter.unusedSectionVars false

namespace WakeT.FieldElement

open Tracker Bunch
open Push (PField Sched Ph)

/-! ### Model -/

/-- A value or a list of values (field_element.py 62, 81, 113-118, 150-152). -/
inductive OneOrMany (α : Type) where
  | one (a : α)
  | many (l : List α)

/-- `if not isinstance(bunches, list): bunches = [bunches]` (field_element.py 113-114). -/
def OneOrMany.toList {α : Type} : OneOrMany α → List α
  | .one a => [a]
  | .many l => l

/-- Attributes of a `FieldElement` (field_element.py 59-77) and what it uses.

* `dtBunch`: `none` is the string `'auto'`.
* `numFields`: `dt_update` and `force_even_updates` of the numerical fields of the list
  `fields`; `Φ` is the state of all of its fields.
* `felt φ`: the fields as the pushers see them; without any field the tracker uses an
  `AnalyticalField()`, which adds nothing (tracker.py 103; analytical_field.py 30-70).
* `update bunches φ j`: `update` of the numerical field `j`.
* `sch`: schedule of the parallel loops, `f32`: the cast to single precision.

Not modelled: the name, the progress bar, the openPMD output (`Verif.Diag`), exceptions of
`evolve` (the theorems assume a known pusher and non-empty bunches), `'auto'` without a
function for it (`TypeError`, tracker.py 177), the same bunch twice in the list. -/
structure Elem (F Φ : Type) where
  length : ℝ
  dtBunch : OneOrMany (Option ℝ)
  pusher : String
  nOut : ℕ
  numFields : List (ℝ × Bool)
  autoDt : Bunch → ℝ
  pushBefore : Bool
  c : ℝ
  felt : Φ → List PField
  update : List Bunch → Φ → ℕ → Φ
  sch : ℕ → Sched
  f32 : ℝ → F

/-- The result of `track`: it returns, raises, or has not yet finished; `nan` is a field
period that is not a number (field_element.py 79-154). -/
inductive Result (α : Type) where
  | returned (a : α)
  | valueError
  | attributeError
  | running
  | nan

/-- The bunches (the first `n` are there) and the state of the fields (tracker.py 101-103). -/
structure World (Φ : Type) where
  n : ℕ
  bunch : ℕ → Bunch
  flds : Φ

/-- The list of bunches (tracker.py 101). -/
def World.list {Φ : Type} (w : World Φ) : List Bunch := (List.range w.n).map w.bunch

variable {F Φ : Type} [LinearOrder F]

/-- The list of time steps (field_element.py 115-124); `none` is the `ValueError`. -/
def Elem.dtList (e : Elem F Φ) (nBunches : ℕ) : Option (List (Option ℝ)) :=
  match e.dtBunch with
  | .one d => some (List.replicate nBunches d)
  | .many l => if l.length ≠ nBunches then none else some l

/-- `adjust_dt` of the numerical fields and `dt_fields` (tracker.py 112-116). -/
noncomputable def Elem.dtFields (e : Elem F Φ) : Option (List ℝ) :=
  e.numFields.mapM fun x => Fields.adjustDt x.2 (e.length / e.c) x.1

/-- The tracker that `track` creates (field_element.py 133-145; tracker.py 99-138). -/
noncomputable def Elem.cfg (e : Elem F Φ) (opmd : Bool) (n : ℕ) (dts : List (Option ℝ)) (dtF : List ℝ) :
    Cfg ℝ F (World Φ) where
  tFinal := e.length / e.c
  nBunch := n
  nField := e.numFields.length
  nDiag := e.nOut
  dtBunch := fun i => dts.getD i none
  dtField := fun j => dtF.getD j 0
  autoDt := fun w i => e.autoDt (w.bunch i)
  pushBeforeDiags := e.pushBefore
  opmd := opmd
  f32 := e.f32
  evolve := fun w i t dt =>
    let b := ((w.bunch i).evolve e.c (e.felt w.flds) (e.sch (w.bunch i).n) t dt e.pusher).1
    { w with bunch := Function.update w.bunch i b }
  updateF := fun w j => { w with flds := e.update w.list w.flds j }

/-- The world at the start of the tracking (field_element.py 113-114). -/
def world (bs : List Bunch) (b0 : Bunch) (φ : Φ) : World Φ := ⟨bs.length, fun i => bs.getD i b0, φ⟩

/-- `bunch_list` (tracker.py 133-135, 304-308). -/
def bunchLists {Φ : Type} (n : ℕ) (snaps : List (World Φ)) : List (List Bunch) :=
  (List.range n).map fun i => snaps.map fun w => w.bunch i

/-- `if len(bunch_list) == 1: bunch_list = bunch_list[0]` (field_element.py 150-152). -/
def pack {α : Type} : List (List α) → OneOrMany (List α)
  | [l] => .one l
  | ls => .many ls

/-- `FieldElement.track` (field_element.py 79-154), with a bound on the number of iterations.
(`b0` only fills the places after the last bunch.) -/
noncomputable def Elem.track (e : Elem F Φ) (opmd : Bool) (fuel : ℕ) (bunches : OneOrMany Bunch) (b0 : Bunch) (φ : Φ) :
    Result (OneOrMany (List Bunch) × World Φ) :=
  let bs := bunches.toList
  match e.dtList bs.length with
  | none => .valueError
  | some dts =>
    match e.dtFields with
    | none => .nan
    | some dtF =>
      match doTracking (e.cfg opmd bs.length dts dtF) fuel (world bs b0 φ) with
      | .returned s => .returned (pack (bunchLists bs.length s.snaps), s.w)
      | .raised .attributeError => .attributeError
      | .raised .valueError => .valueError
      | .running => .running

/-! ### Snapshots of bunches that follow a flow -/

theorem tiles_flow {V : Type} (fl : ℝ → V → V) (h0 : ∀ v, fl 0 v = v) (ha : ∀ s t v, fl s (fl t v) = fl (t + s) v)
    {l : List (ℝ × ℝ)} {a b : ℝ} (h : Tiles a l b) (v : V) :
    l.foldl (fun v p => fl p.2 v) v = fl (b - a) v := by
  induction l generalizing a v with
  | nil =>
    have h : a = b := h
    rw [h, sub_self, h0]
    rfl
  | cons p l ih =>
    obtain ⟨-, h2⟩ := h
    rw [List.foldl_cons, ih h2, ha]
    congr 1
    ring

/-- Each entry of the snapshots belongs to one of the diagnostics in the log. -/
theorem worlds_split {K F σ : Type} [Field K] [LinearOrder K] [IsStrictOrderedRing K] [LinearOrder F] (c : Cfg K F σ)
    (w : σ) (log : List (Ev K)) (k : ℕ) (T : K) (hk : (diagTimes log)[k]? = some T) :
    ∃ before after, log = before ++ .diag T :: after ∧ (c.worldsAtDiags w log)[k]? = some (before.foldl c.apply w) := by
  induction log generalizing w k with
  | nil => simp [diagTimes] at hk
  | cons ev log ih =>
    cases ev with
    | push b i t dt =>
      obtain ⟨before, after, h1, h2⟩ := ih (c.apply w (.push b i t dt)) k hk
      exact ⟨.push b i t dt :: before, after, by rw [h1]; rfl, h2⟩
    | update j t =>
      obtain ⟨before, after, h1, h2⟩ := ih (c.apply w (.update j t)) k hk
      exact ⟨.update j t :: before, after, by rw [h1]; rfl, h2⟩
    | diag t =>
      cases k with
      | zero =>
        have hk : some t = some T := hk
        cases hk
        exact ⟨[], log, rfl, rfl⟩
      | succ k =>
        obtain ⟨before, after, h1, h2⟩ := ih w k hk
        exact ⟨.diag t :: before, after, by rw [h1]; rfl, h2⟩

section flow

variable {e : Elem F Φ} {opmd : Bool} {n : ℕ} {dts : List (Option ℝ)} {dtF : List ℝ}
variable {V : Type} {obs : Bunch → V} {fl : ℝ → V → V} {Good : Bunch → Prop}

theorem replay_flow
    (hev : ∀ φ b t dt, Good b → Good (b.evolve e.c (e.felt φ) (e.sch b.n) t dt e.pusher).1 ∧
      obs (b.evolve e.c (e.felt φ) (e.sch b.n) t dt e.pusher).1 = fl dt (obs b))
    (log : List (Ev ℝ)) (w : World Φ) (hg : ∀ i < w.n, Good (w.bunch i)) (i : ℕ) (hi : i < w.n) :
    (∀ i < w.n, Good ((log.foldl (e.cfg opmd n dts dtF).apply w).bunch i)) ∧
    obs ((log.foldl (e.cfg opmd n dts dtF).apply w).bunch i) =
      (pushesOf i log).foldl (fun v p => fl p.2 v) (obs (w.bunch i)) := by
  induction log generalizing w with
  | nil => exact ⟨hg, rfl⟩
  | cons ev log ih =>
    cases ev with
    | push b j t dt =>
      have h1 : ∀ m, ((e.cfg opmd n dts dtF).apply w (.push b j t dt)).bunch m =
          if m = j then ((w.bunch j).evolve e.c (e.felt w.flds) (e.sch (w.bunch j).n) t dt e.pusher).1 else w.bunch m := by
        intro m
        show Function.update _ _ _ _ = _
        rw [Function.update_apply]
      have hgood : ∀ m < w.n, Good (((e.cfg opmd n dts dtF).apply w (.push b j t dt)).bunch m) := by
        intro m hm
        rw [h1]
        split_ifs with h
        · subst h
          exact (hev _ _ _ _ (hg m hm)).1
        · exact hg m hm
      obtain ⟨h2, h3⟩ := ih ((e.cfg opmd n dts dtF).apply w (.push b j t dt)) hgood hi
      refine ⟨h2, ?_⟩
      rw [List.foldl_cons, h3, h1]
      by_cases h : i = j
      · subst h
        have hp : pushesOf i (Ev.push b i t dt :: log) = (t, dt) :: pushesOf i log := by simp [pushesOf]
        rw [if_pos rfl, hp, List.foldl_cons, (hev _ _ _ _ (hg i hi)).2]
      · have hp : pushesOf i (Ev.push b j t dt :: log) = pushesOf i log := by
          unfold pushesOf
          rw [List.filterMap_cons]
          dsimp only
          rw [if_neg fun h' : j = i => h h'.symm]
        rw [if_neg h, hp]
    | update j t => exact ih ((e.cfg opmd n dts dtF).apply w (.update j t)) hg hi
    | diag t => exact ih w hg hi

end flow

/-- What the tracking must be given: positive length and steps, and a cast to single
precision that does not confuse the final time with the time of a further output. -/
structure Elem.Ok (e : Elem F Φ) : Prop where
  length : 0 < e.length
  c : 0 < e.c
  steps : ∀ d, some d ∈ e.dtBunch.toList → 0 < d
  auto : ∀ b, 0 < e.autoDt b
  fields : ∀ x ∈ e.numFields, 0 < x.1
  mono : Monotone e.f32
  sep : e.f32 (e.length / e.c) < e.f32 (e.length / e.c + e.length / e.c / e.nOut)

theorem dtFields_pos {e : Elem F Φ} (h : e.Ok) {dtF : List ℝ} (hd : e.dtFields = some dtF) :
    dtF.length = e.numFields.length ∧ ∀ j < dtF.length, 0 < dtF.getD j 0 := by
  have ht : 0 < e.length / e.c := div_pos h.length h.c
  unfold Elem.dtFields at hd
  have hf := h.fields
  revert dtF hd hf
  induction e.numFields with
  | nil =>
    intro dtF hd _
    simp at hd
    subst hd
    exact ⟨rfl, fun j hj => by simp at hj⟩
  | cons x l ih =>
    intro dtF hd hf
    rw [List.mapM_cons] at hd
    simp only [Option.bind_eq_bind, Option.pure_def] at hd
    obtain ⟨d, hd1, hd2⟩ := Option.bind_eq_some_iff.mp hd
    obtain ⟨l', hl1, hl2⟩ := Option.bind_eq_some_iff.mp hd2
    obtain ⟨h1, h2⟩ := ih hl1 (fun y hy => hf y (List.mem_cons_of_mem _ hy))
    have hx := hf x List.mem_cons_self
    have hpos : 0 < d := by
      rcases hx2 : x.2 with _ | _
      · rw [hx2] at hd1
        rw [← Option.some.inj hd1]
        exact hx
      · rw [hx2] at hd1
        obtain ⟨d', m, h3, h4, _⟩ := Fields.adjustDt_spec ht hx
        rw [h3] at hd1
        rw [← Option.some.inj hd1]
        exact h4
    rw [← Option.some.inj hl2]
    refine ⟨by simp [h1], fun j hj => ?_⟩
    cases j with
    | zero => simpa using hpos
    | succ j => simpa using h2 j (by simpa using hj)

theorem cfg_positive {e : Elem F Φ} (h : e.Ok) (opmd : Bool) {n : ℕ} {dts : List (Option ℝ)} {dtF : List ℝ}
    (hd : e.dtList n = some dts) (hf : e.dtFields = some dtF) : (e.cfg opmd n dts dtF).Positive := by
  refine ⟨div_pos h.length h.c, ?_, fun w i => h.auto _, ?_⟩
  · intro i hi d hdd
    have hmem : ∀ x ∈ dts, x ∈ e.dtBunch.toList := by
      unfold Elem.dtList at hd
      intro x hx
      split at hd
      · next d h1 =>
        rw [← Option.some.inj hd] at hx
        rw [h1, List.eq_of_mem_replicate hx]
        exact List.mem_singleton.mpr rfl
      · next l h1 =>
        split_ifs at hd
        rw [← Option.some.inj hd] at hx
        rw [h1]
        exact hx
    have hdd : dts.getD i none = some d := hdd
    apply h.steps d
    apply hmem
    rw [List.getD_eq_getElem?_getD] at hdd
    cases hx : dts[i]? with
    | none => rw [hx] at hdd; cases hdd
    | some x =>
      rw [hx] at hdd
      have hdd : x = some d := hdd
      rw [← hdd]
      exact List.mem_of_getElem? hx
  · intro j hj
    obtain ⟨h1, h2⟩ := dtFields_pos h hf
    have hj : j < e.numFields.length := hj
    exact h2 j (by omega)

/-- The general statement about the snapshots: if the pushes of a bunch act on something
that can be observed as a flow, then output `k` of bunch `i` shows the flow at the time of
the output. -/
theorem track_flow {e : Elem F Φ} (h : e.Ok) (hpush : e.pushBefore = true) {V : Type} {obs : Bunch → V}
    {fl : ℝ → V → V} {Good : Bunch → Prop} (h0 : ∀ v, fl 0 v = v) (ha : ∀ s t v, fl s (fl t v) = fl (t + s) v)
    (hev : ∀ φ b t dt, Good b → Good (b.evolve e.c (e.felt φ) (e.sch b.n) t dt e.pusher).1 ∧
      obs (b.evolve e.c (e.felt φ) (e.sch b.n) t dt e.pusher).1 = fl dt (obs b))
    (opmd : Bool) (fuel : ℕ) (bunches : OneOrMany Bunch) (hg : ∀ b ∈ bunches.toList, Good b) (b0 : Bunch) (φ : Φ)
    {r : OneOrMany (List Bunch)} {w : World Φ} (hr : e.track opmd fuel bunches b0 φ = .returned (r, w)) :
    ∃ ls : List (List Bunch), r = pack ls ∧ ls.length = bunches.toList.length ∧
      ∀ (i : ℕ) (b : Bunch), bunches.toList[i]? = some b → ∃ l : List Bunch, ls[i]? = some l ∧ l.length = e.nOut + 1 ∧
        ∀ k ≤ e.nOut, ∃ b', l[k]? = some b' ∧ Good b' ∧ obs b' = fl (k * (e.length / e.c / e.nOut)) (obs b) := by
  unfold Elem.track at hr
  dsimp only at hr
  split at hr
  · cases hr
  next dts hd =>
  split at hr
  · cases hr
  next dtF hf =>
  split at hr
  next s hs =>
    have hr := (Prod.mk.inj (Result.returned.inj hr)).1
    have hp := cfg_positive h opmd hd hf
    obtain ⟨hlen, htimes⟩ := snapshot_times _ _ _ _ hp h.mono h.sep hs
    obtain ⟨-, hsnap⟩ := snapshots_replay _ _ _ _ hs
    refine ⟨_, hr.symm, by simp [bunchLists], fun i b hb => ?_⟩
    have hi : i < bunches.toList.length := (List.getElem?_eq_some_iff.mp hb).1
    refine ⟨s.snaps.map fun w => w.bunch i, by simp [bunchLists, hi], by rw [List.length_map, hlen]; rfl, ?_⟩
    intro k hk
    have hk' : (diagTimes s.log)[k]? = some (k * (e.length / e.c / e.nOut)) := by
      rw [htimes]
      have : k < e.nOut + 1 := by omega
      simp [Elem.cfg, this]
    obtain ⟨before, after, hlog, hw⟩ := worlds_split (e.cfg opmd bunches.toList.length dts dtF)
      (world bunches.toList b0 φ) s.log k _ hk'
    rw [← hsnap] at hw
    have hwb : (world bunches.toList b0 φ).bunch i = b := by
      show bunches.toList.getD i b0 = b
      rw [List.getD_eq_getElem?_getD, hb]
      rfl
    have hgw : ∀ i < (world bunches.toList b0 φ).n, Good ((world bunches.toList b0 φ).bunch i) := by
      intro i hi
      apply hg
      have hi : i < bunches.toList.length := hi
      show bunches.toList.getD i b0 ∈ _
      rw [List.getD_eq_getElem?_getD, List.getElem?_eq_getElem hi]
      exact List.getElem_mem hi
    obtain ⟨hg', hobs⟩ := replay_flow (opmd := opmd) (n := bunches.toList.length) (dts := dts) (dtF := dtF) hev before
      (world bunches.toList b0 φ) hgw i hi
    refine ⟨_, by rw [List.getElem?_map, hw]; rfl, hg' i hi, ?_⟩
    have ht := snapshots_synchronised _ _ _ _ hp h.mono hpush hs before after _ hlog i hi
    rw [hobs, tiles_flow fl h0 ha ht, hwb, sub_zero]
  · cases hr
  · cases hr
  · cases hr

/-! ### Theorems -/

/-- A bunch that can be pushed: it has particles, and its preallocated arrays fit. -/
def Ready (n : ℕ) (b : Bunch) : Prop := b.n = n ∧ 0 < n ∧ b.Fits

theorem activeFields_some {b : Bunch} (h : 0 < b.n) (fs : List PField) :
    ∃ fs', b.activeFields fs = .ok fs' ∧ (fs' = fs ∨ fs' = []) := by
  unfold Bunch.activeFields
  cases hz : b.zInjection with
  | none => exact ⟨fs, rfl, Or.inl rfl⟩
  | some z =>
    obtain ⟨m, hm⟩ := amax_some h (fun i => (b.ph i).xi)
    rw [hm]
    dsimp only
    split_ifs
    · exact ⟨[], rfl, Or.inr rfl⟩
    · exact ⟨fs, rfl, Or.inl rfl⟩

/-- The results of `track` for one bunch and for a list with this bunch are the same; and
so are those with one time step and with a list that repeats it for every bunch. -/
theorem track_one_or_many (e : Elem F Φ) (opmd : Bool) (fuel : ℕ) (b0 : Bunch) (φ : Φ) :
    (∀ b, e.track opmd fuel (.one b) b0 φ = e.track opmd fuel (.many [b]) b0 φ) ∧
    ∀ d bs, { e with dtBunch := .one d }.track opmd fuel (.many bs) b0 φ =
      { e with dtBunch := .many (List.replicate bs.length d) }.track opmd fuel (.many bs) b0 φ := by
  refine ⟨fun b => rfl, fun d bs => ?_⟩
  unfold Elem.track
  dsimp only
  have h1 : { e with dtBunch := OneOrMany.one d }.dtList (OneOrMany.many bs).toList.length =
      some (List.replicate bs.length d) := rfl
  have h2 : { e with dtBunch := OneOrMany.many (List.replicate bs.length d) }.dtList (OneOrMany.many bs).toList.length =
      some (List.replicate bs.length d) := by
    unfold Elem.dtList
    dsimp only
    rw [if_neg]
    simp [OneOrMany.toList]
  rw [h1, h2]
  rfl

/-- A list of time steps of the wrong length is rejected. -/
theorem track_steps_mismatch (e : Elem F Φ) (l : List (Option ℝ)) (he : e.dtBunch = .many l)
    (bunches : OneOrMany Bunch) (hl : l.length ≠ bunches.toList.length) (opmd : Bool) (fuel : ℕ) (b0 : Bunch) (φ : Φ) :
    e.track opmd fuel bunches b0 φ = .valueError := by
  unfold Elem.track Elem.dtList
  rw [he]
  dsimp only
  rw [if_pos hl]

/-- The result of `track`: a list of the outputs for one bunch, otherwise a list of such
lists in the order of the bunches; each has `n_out + 1` entries, and in entry `k` the bunch
has propagated by `k / n_out` of the length of the element. -/
theorem track_distance {e : Elem F Φ} (h : e.Ok) (hpush : e.pushBefore = true)
    (hp : e.pusher = "rk4" ∨ e.pusher = "boris") (hsch : ∀ n, (e.sch n).Valid n) (opmd : Bool) (fuel : ℕ)
    (bunches : OneOrMany Bunch) (hb : ∀ b ∈ bunches.toList, Ready b.n b) (b0 : Bunch) (φ : Φ)
    {r : OneOrMany (List Bunch)} {w : World Φ} (hr : e.track opmd fuel bunches b0 φ = .returned (r, w)) :
    ∃ ls : List (List Bunch), r = pack ls ∧ ls.length = bunches.toList.length ∧
      ∀ (i : ℕ) (b : Bunch), bunches.toList[i]? = some b → ∃ l : List Bunch, ls[i]? = some l ∧ l.length = e.nOut + 1 ∧
        ∀ k ≤ e.nOut, ∃ b', l[k]? = some b' ∧ b'.n = b.n ∧ b'.w = b.w ∧ b'.name = b.name ∧
          b'.propDistance = b.propDistance + k * (e.length / e.nOut) := by
  obtain ⟨ls, h1, h2, h3⟩ := track_flow h hpush (V := ℕ × (ℕ → ℝ) × String × ℝ)
    (obs := fun b => (b.n, b.w, b.name, b.propDistance))
    (fl := fun dt v => (v.1, v.2.1, v.2.2.1, v.2.2.2 + dt * e.c)) (Good := fun b => Ready b.n b)
    (fun v => by simp) (fun s t v => by simp; ring) (by
      intro φ b t dt hg
      obtain ⟨fs, hfs, -⟩ := activeFields_some hg.2.1 (e.felt φ)
      obtain ⟨b', h1, h2, h3, h4, h5, h6, h7, h8, h9, h10, h11, h12, h13, h14⟩ :=
        evolve_spec e.c b (e.felt φ) fs (hsch b.n) t dt hp hg.2.2 hfs
      rw [h1]
      dsimp only
      refine ⟨⟨rfl, by rw [h2]; exact hg.2.1, h14⟩, ?_⟩
      rw [h2, h3, h5, h8]) opmd fuel bunches hb b0 φ hr
  refine ⟨ls, h1, h2, fun i b hi => ?_⟩
  obtain ⟨l, h4, h5, h6⟩ := h3 i b hi
  refine ⟨l, h4, h5, fun k hk => ?_⟩
  obtain ⟨b', h7, -, h8⟩ := h6 k hk
  obtain ⟨h9, h10⟩ := Prod.mk.inj h8
  obtain ⟨h10, h11⟩ := Prod.mk.inj h10
  obtain ⟨h11, h12⟩ := Prod.mk.inj h11
  refine ⟨b', h7, h9, h10, h11, h12.trans ?_⟩
  have := h.c.ne'
  field_simp

theorem drift_zero (k : Push.Const) (p : Ph) : p.drift k 0 = p := by
  unfold Push.Ph.drift
  ext <;> simp

theorem drift_drift (k : Push.Const) (p : Ph) (d e : ℝ) : (p.drift k d).drift k e = p.drift k (d + e) := by
  unfold Push.Ph.drift Push.Ph.gamma
  ext <;> simp only <;> ring

theorem stepOf_free {pusher : String} (hp : pusher = "rk4" ∨ pusher = "boris") (k : Push.Const) {fields : List PField}
    {sch : Sched} (hs : sch.Valid 1) (h0 : ∀ t p, Push.felt fields t p = ⟨0, 0, 0, 0, 0, 0⟩) (t dt : ℝ) (p : Ph) :
    stepOf pusher k fields t dt p = p.drift k dt := by
  obtain ⟨h1, h2⟩ := Push.free_drift k fields hs t dt (fun _ => p)
    ⟨fun _ => ⟨0, 0, 0, 0, 0, 0⟩, fun _ => ⟨0, 0, 0, 0, 0, 0⟩, fun _ => ⟨0, 0, 0, 0, 0, 0⟩⟩
    (fun _ => ⟨0, 0, 0, 0, 0, 0⟩) h0 0 (by omega)
  rw [Push.boris_apply k fields hs, if_pos (by omega)] at h1
  rw [Push.rk4_apply k fields hs, if_pos (by omega)] at h2
  unfold stepOf
  rcases hp with rfl | rfl
  · rw [if_pos rfl]
    exact h2
  · rw [if_neg (by decide)]
    exact h1

/-- An element without fields is a drift: in entry `k` every particle has moved in a
straight line with its own velocity for `k / n_out` of the time that light needs for the
length; this does not depend on the time steps, on the pusher or on the number of bunches. -/
theorem track_drift {e : Elem F Φ} (h : e.Ok) (hpush : e.pushBefore = true)
    (hp : e.pusher = "rk4" ∨ e.pusher = "boris") (hsch : ∀ n, (e.sch n).Valid n)
    (hfree : ∀ φ t p, Push.felt (e.felt φ) t p = ⟨0, 0, 0, 0, 0, 0⟩) (opmd : Bool) (fuel : ℕ)
    (bunches : OneOrMany Bunch) (hb : ∀ b ∈ bunches.toList, Ready b.n b) (b0 : Bunch) (φ : Φ)
    {r : OneOrMany (List Bunch)} {w : World Φ} (hr : e.track opmd fuel bunches b0 φ = .returned (r, w)) :
    ∃ ls : List (List Bunch), r = pack ls ∧ ls.length = bunches.toList.length ∧
      ∀ (i : ℕ) (b : Bunch), bunches.toList[i]? = some b → ∃ l : List Bunch, ls[i]? = some l ∧ l.length = e.nOut + 1 ∧
        ∀ k ≤ e.nOut, ∃ b', l[k]? = some b' ∧
          ∀ m < b.n, b'.ph m = (b.ph m).drift (b.const e.c) (k * (e.length / e.c / e.nOut)) := by
  obtain ⟨ls, h1, h2, h3⟩ := track_flow h hpush (V := ℕ × Push.Const × (ℕ → Ph))
    (obs := fun b => (b.n, b.const e.c, b.ph))
    (fl := fun dt v => (v.1, v.2.1, fun m => if m < v.1 then (v.2.2 m).drift v.2.1 dt else v.2.2 m))
    (Good := fun b => Ready b.n b)
    (fun v => by
      simp only [drift_zero, ite_self])
    (fun s t v => by
      dsimp only
      refine Prod.ext rfl (Prod.ext rfl (funext fun m => ?_))
      dsimp only
      split_ifs
      · rw [drift_drift]
      · rfl) (by
      intro φ b t dt hg
      obtain ⟨fs, hfs, hcase⟩ := activeFields_some hg.2.1 (e.felt φ)
      have hfs0 : ∀ t p, Push.felt fs t p = ⟨0, 0, 0, 0, 0, 0⟩ := by
        rcases hcase with rfl | rfl
        · exact hfree φ
        · exact fun _ _ => rfl
      obtain ⟨b', h1, h2, h3, h4, h5, h6, h7, h8, h9, h10, h11, h12, h13, h14⟩ :=
        evolve_spec e.c b (e.felt φ) fs (hsch b.n) t dt hp hg.2.2 hfs
      rw [h1]
      dsimp only
      refine ⟨⟨rfl, by rw [h2]; exact hg.2.1, h14⟩, ?_⟩
      refine Prod.ext h2 (Prod.ext ?_ (funext fun m => ?_))
      · show b'.const e.c = b.const e.c
        unfold Bunch.const
        rw [h9, h10]
      · show b'.ph m = if m < b.n then _ else _
        rw [h4, stepOf_free hp _ (hsch 1) hfs0]) opmd fuel bunches hb b0 φ hr
  refine ⟨ls, h1, h2, fun i b hi => ?_⟩
  obtain ⟨l, h4, h5, h6⟩ := h3 i b hi
  refine ⟨l, h4, h5, fun k hk => ?_⟩
  obtain ⟨b', h7, -, h8⟩ := h6 k hk
  refine ⟨b', h7, fun m hm => ?_⟩
  have h9 := congrFun (Prod.mk.inj (Prod.mk.inj h8).2).2 m
  dsimp only at h9
  rw [h9, if_pos hm]

theorem mapM_getElem {α β : Type} {f : α → Option β} {l : List α} {l' : List β} (h : l.mapM f = some l') {j : ℕ} {x : α}
    (hj : l[j]? = some x) : ∃ y, f x = some y ∧ l'[j]? = some y := by
  induction l generalizing l' j with
  | nil => simp at hj
  | cons a l ih =>
    rw [List.mapM_cons] at h
    simp only [Option.bind_eq_bind, Option.pure_def] at h
    obtain ⟨y, h1, h2⟩ := Option.bind_eq_some_iff.mp h
    obtain ⟨l'', h3, h4⟩ := Option.bind_eq_some_iff.mp h2
    rw [← Option.some.inj h4]
    cases j with
    | zero =>
      have hj : a = x := by simpa using hj
      exact ⟨y, hj ▸ h1, rfl⟩
    | succ j =>
      obtain ⟨z, h5, h6⟩ := ih h3 (by simpa using hj)
      exact ⟨z, h5, by simpa using h6⟩

/-- The numerical fields during the tracking: with `force_even_updates` a field is updated
at equally spaced times, the last of which is the final time, not further apart than
requested. -/
theorem track_even_updates {e : Elem F Φ} (h : e.Ok) (hm : StrictMono e.f32) (opmd : Bool) (fuel : ℕ)
    {bs : List Bunch} {b0 : Bunch} {φ : Φ} {dts : List (Option ℝ)} {dtF : List ℝ} (hd : e.dtList bs.length = some dts)
    (hf : e.dtFields = some dtF) {s : St ℝ (World Φ)}
    (hs : doTracking (e.cfg opmd bs.length dts dtF) fuel (world bs b0 φ) = .returned s) (j : ℕ) (d : ℝ)
    (hj : e.numFields[j]? = some (d, true)) :
    ∃ N : ℕ, 0 < N ∧ e.length / e.c / N ≤ d ∧
      updateTimes j s.log = (List.range (N + 1)).map fun m : ℕ => (m : ℝ) * (e.length / e.c / N) := by
  have ht : 0 < e.length / e.c := div_pos h.length h.c
  have hlt : j < e.numFields.length := (List.getElem?_eq_some_iff.mp hj).1
  have hdp : 0 < d := h.fields (d, true) (List.mem_of_getElem? hj)
  obtain ⟨y, hy, hyj⟩ := mapM_getElem (f := fun x : ℝ × Bool => Fields.adjustDt x.2 (e.length / e.c) x.1) hf hj
  obtain ⟨d', N, h1, h2, h3, h4, -⟩ := Fields.adjustDt_spec ht hdp
  have hyd : y = d' := Option.some.inj (hy.symm.trans h1)
  have hfd : (e.cfg opmd bs.length dts dtF).dtField j = d' := by
    show dtF.getD j 0 = d'
    rw [List.getD_eq_getElem?_getD, hyj, ← hyd]
    rfl
  have hN : 0 < N := by
    rcases Nat.eq_zero_or_pos N with h0 | h0
    · rw [h0] at h4
      simp only [Nat.cast_zero, zero_mul] at h4
      linarith
    · exact h0
  have hNr : (0 : ℝ) < N := by exact_mod_cast hN
  have hd' : e.length / e.c / N = d' := by
    rw [← h4]
    field_simp
  refine ⟨N, hN, hd' ▸ h3, ?_⟩
  have hu := field_updates_count _ _ _ _ (cfg_positive h opmd hd hf) hm hs j hlt
  rw [hu, hfd, hd']
  have hfl : ⌊(e.cfg opmd bs.length dts dtF).tFinal / d'⌋₊ = N := by
    have : (e.cfg opmd bs.length dts dtF).tFinal / d' = (N : ℝ) := by
      show e.length / e.c / d' = N
      rw [← h4]
      field_simp
    rw [this, Nat.floor_natCast]
  rw [hfl]

theorem lower_bound (l : List ℝ) (h : ∀ x ∈ l, 0 < x) : ∃ δ : ℝ, 0 < δ ∧ ∀ x ∈ l, δ ≤ x := by
  induction l with
  | nil => exact ⟨1, one_pos, fun x hx => by simp at hx⟩
  | cons a l ih =>
    obtain ⟨δ, h1, h2⟩ := ih fun x hx => h x (List.mem_cons_of_mem _ hx)
    refine ⟨min a δ, lt_min (h a List.mem_cons_self) h1, fun x hx => ?_⟩
    rcases List.mem_cons.mp hx with rfl | hx
    · exact min_le_left _ _
    · exact (min_le_right _ _).trans (h2 x hx)

theorem dtFields_some {e : Elem F Φ} (h : e.Ok) : ∃ dtF, e.dtFields = some dtF := by
  have ht : 0 < e.length / e.c := div_pos h.length h.c
  have hf := h.fields
  unfold Elem.dtFields
  revert hf
  induction e.numFields with
  | nil => exact fun _ => ⟨[], rfl⟩
  | cons x l ih =>
    intro hf
    obtain ⟨l', hl⟩ := ih fun y hy => hf y (List.mem_cons_of_mem _ hy)
    have hx := hf x List.mem_cons_self
    obtain ⟨d, hd⟩ : ∃ d, Fields.adjustDt x.2 (e.length / e.c) x.1 = some d := by
      rcases x.2 with _ | _
      · exact ⟨_, rfl⟩
      · obtain ⟨d', m, h3, _⟩ := Fields.adjustDt_spec ht hx
        exact ⟨d', h3⟩
    rw [List.mapM_cons]
    simp only [hd, hl]
    exact ⟨_, rfl⟩

/-- `track` returns, for any element that produces output and any bunches for which the
number of time steps is right. -/
theorem track_returns {e : Elem F Φ} (h : e.Ok) (hm : StrictMono e.f32) (hn : 0 < e.nOut) {δ : ℝ} (hδ : 0 < δ)
    (hauto : ∀ b, δ ≤ e.autoDt b) (bunches : OneOrMany Bunch)
    (hl : ∀ l, e.dtBunch = .many l → l.length = bunches.toList.length) (opmd : Bool) (b0 : Bunch) (φ : Φ) :
    ∃ fuel r, e.track opmd fuel bunches b0 φ = .returned r := by
  obtain ⟨dts, hd⟩ : ∃ dts, e.dtList bunches.toList.length = some dts := by
    unfold Elem.dtList
    split
    · exact ⟨_, rfl⟩
    · next l h1 =>
      rw [if_neg (not_not.mpr (hl l h1))]
      exact ⟨_, rfl⟩
  obtain ⟨dtF, hf⟩ := dtFields_some h
  have hp := cfg_positive h opmd hd hf
  obtain ⟨hlen, hpos⟩ := dtFields_pos h hf
  obtain ⟨δ1, h1, h1'⟩ := lower_bound ((List.range bunches.toList.length).map fun i => (dts.getD i none).getD 1) (by
    intro x hx
    obtain ⟨i, hi, rfl⟩ := List.mem_map.mp hx
    cases hc : dts.getD i none with
    | none => exact one_pos
    | some d => exact hp.bunch i (List.mem_range.mp hi) d hc)
  obtain ⟨δ2, h2, h2'⟩ := lower_bound ((List.range dtF.length).map fun j => dtF.getD j 0) (by
    intro x hx
    obtain ⟨i, hi, rfl⟩ := List.mem_map.mp hx
    exact hpos i (List.mem_range.mp hi))
  have hdd : 0 < (e.cfg opmd bunches.toList.length dts dtF).dtDiag :=
    div_pos hp.tFinal (by exact_mod_cast hn)
  have hb : (e.cfg opmd bunches.toList.length dts dtF).Bounded
      (min (min δ δ1) (min δ2 (e.cfg opmd bunches.toList.length dts dtF).dtDiag)) := by
    refine ⟨fun i hi d hdi => ?_, fun w i => ?_, fun j hj => ?_, fun _ => ?_⟩
    · refine (min_le_left _ _).trans ((min_le_right _ _).trans ?_)
      have hdi : dts.getD i none = some d := hdi
      have := h1' _ (List.mem_map.mpr ⟨i, List.mem_range.mpr hi, rfl⟩)
      rw [hdi] at this
      exact this
    · exact (min_le_left _ _).trans ((min_le_left _ _).trans (hauto _))
    · have hj : j < e.numFields.length := hj
      exact (min_le_right _ _).trans ((min_le_left _ _).trans
        (h2' _ (List.mem_map.mpr ⟨j, List.mem_range.mpr (by omega), rfl⟩)))
    · exact (min_le_right _ _).trans (min_le_right _ _)
  obtain ⟨s, hs⟩ := tracking_terminates _ (world bunches.toList b0 φ)
    (lt_min (lt_min hδ h1) (lt_min h2 hdd)) hp.tFinal hb hm hn
  obtain ⟨fuel, hs⟩ : ∃ fuel, doTracking (e.cfg opmd bunches.toList.length dts dtF) fuel (world bunches.toList b0 φ) =
      .returned s := ⟨_, hs⟩
  refine ⟨fuel, (pack (bunchLists bunches.toList.length s.snaps), s.w), ?_⟩
  unfold Elem.track
  dsimp only
  rw [hd]
  dsimp only
  rw [hf]
  dsimp only
  rw [hs]

/-! ### An instance -/

/-- A drift of two metres with two outputs, for two bunches with different steps, one of
them adaptive, and with a numerical field that does nothing. -/
noncomputable def demo (sch : ℕ → Sched) : Elem ℝ Unit where
  length := 2
  dtBunch := .many [some (3 / 10), none]
  pusher := "boris"
  nOut := 2
  numFields := [(3 / 10, true)]
  autoDt := fun b => 1 / 5 + b.propDistance ^ 2
  pushBefore := true
  c := 1
  felt := fun _ => []
  update := fun _ φ _ => φ
  sch := sch
  f32 := id

theorem demo_ok (sch : ℕ → Sched) : (demo sch).Ok where
  length := by norm_num [demo]
  c := by norm_num [demo]
  steps := by
    intro d hd
    simp [demo, OneOrMany.toList] at hd
    rw [hd]
    norm_num
  auto := fun b => by
    simp only [demo]
    positivity
  fields := by
    intro x hx
    simp [demo] at hx
    rw [hx]
    norm_num
  mono := monotone_id
  sep := by norm_num [demo]

/-- The example returns, and the middle output of its second bunch is where it should be. -/
example (sch : ℕ → Sched) (hsch : ∀ n, (sch n).Valid n) : ∃ fuel ls w l b,
    (demo sch).track false fuel (.many [sample none, sample (some 1)]) (sample none) () = .returned (pack ls, w) ∧
      ls.length = 2 ∧ ls[1]? = some l ∧ l[1]? = some b ∧ b.propDistance = 1 ∧
      (b.ph 1).xi = -1 + 1 * (1 * 2 / √(1 + 0 + 0 + 2 ^ 2) - 1) := by
  have hready : ∀ b ∈ (OneOrMany.many [sample none, sample (some 1)]).toList, Ready b.n b := by
    intro b hb
    simp [OneOrMany.toList] at hb
    rcases hb with rfl | rfl
    · exact ⟨rfl, by simp [sample, init], sample_fits _⟩
    · exact ⟨rfl, by simp [sample, init], sample_fits _⟩
  obtain ⟨fuel, ⟨r, w⟩, hr⟩ := track_returns (demo_ok sch) strictMono_id (by norm_num [demo]) (δ := 1 / 5) (by norm_num)
    (fun b => by simp only [demo]; nlinarith [sq_nonneg b.propDistance])
    (.many [sample none, sample (some 1)]) (by intro l hl; cases hl; rfl) false (sample none) ()
  obtain ⟨ls, h1, h2, h3⟩ := track_distance (demo_ok sch) rfl (Or.inr rfl) hsch false fuel _ hready _ _ hr
  obtain ⟨ls', h1', h2', h3'⟩ := track_drift (demo_ok sch) rfl (Or.inr rfl) hsch (fun _ _ _ => rfl) false fuel _ hready _ _ hr
  have hls : ls = ls' := by
    have e : pack ls = pack ls' := h1.symm.trans h1'
    rcases ls with _ | ⟨a, _ | ⟨b, _ | _⟩⟩ <;> simp [OneOrMany.toList] at h2
    rcases ls' with _ | ⟨a', _ | ⟨b', _ | _⟩⟩ <;> simp [OneOrMany.toList] at h2'
    exact OneOrMany.many.inj e
  subst hls
  obtain ⟨l, h4, h5, h6⟩ := h3 1 (sample (some 1)) rfl
  obtain ⟨l', h4', h5', h6'⟩ := h3' 1 (sample (some 1)) rfl
  cases h4.symm.trans h4'
  obtain ⟨b, h7, -, -, -, h8⟩ := h6 1 (by norm_num [demo])
  obtain ⟨b', h7', h8'⟩ := h6' 1 (by norm_num [demo])
  cases h7.symm.trans h7'
  refine ⟨fuel, ls, w, l, b, h1 ▸ hr, h2, h4, h7, ?_, ?_⟩
  · rw [h8]
    norm_num [demo, sample, init]
  · rw [h8' 1 (by norm_num [sample, init])]
    norm_num [demo, sample, init, Push.Ph.drift, Push.Ph.gamma, Bunch.const]

end WakeT.FieldElement
