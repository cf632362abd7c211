import Verif.Tracker.FieldElement
import Verif.Tracker.Simulation

/-! # Two field elements whose fields act alike (C123, C125) -/

set_option linter.unusedSectionVars false

namespace WakeT.FieldElement

open Tracker Bunch
open Push (PField Sched)

variable {F Φ Φ' : Type} [LinearOrder F]

/-- Specification: the elements have the same settings; `R` relates states of their fields that
are felt in the same way, and related states stay related when the fields are updated with the
same bunches. -/
structure Elem.Alike (e : Elem F Φ) (e' : Elem F Φ') (R : Φ → Φ' → Prop) : Prop where
  length : e'.length = e.length
  dtBunch : e'.dtBunch = e.dtBunch
  pusher : e'.pusher = e.pusher
  nOut : e'.nOut = e.nOut
  numFields : e'.numFields = e.numFields
  autoDt : e'.autoDt = e.autoDt
  pushBefore : e'.pushBefore = e.pushBefore
  c : e'.c = e.c
  sch : e'.sch = e.sch
  f32 : e'.f32 = e.f32
  felt : ∀ φ φ', R φ φ' → e'.felt φ' = e.felt φ
  update : ∀ l φ φ', R φ φ' → ∀ j, R (e.update l φ j) (e'.update l φ' j)

/-- Elements that act alike return the same bunches, and leave the fields in related states. -/
theorem track_alike {e : Elem F Φ} {e' : Elem F Φ'} {R : Φ → Φ' → Prop} (h : e.Alike e' R) {φ : Φ} {φ' : Φ'} (h0 : R φ φ')
    (opmd : Bool) (fuel : ℕ) (bs : OneOrMany Bunch) (b0 : Bunch) {r : OneOrMany (List Bunch)} {w : World Φ}
    (hr : e.track opmd fuel bs b0 φ = .returned (r, w)) :
    ∃ w', e'.track opmd fuel bs b0 φ' = .returned (r, w') ∧ w'.n = w.n ∧ w'.bunch = w.bunch ∧ R w.flds w'.flds := by
  unfold Elem.track at hr
  dsimp only at hr
  cases hd : e.dtList bs.toList.length with
  | none => rw [hd] at hr; cases hr
  | some dts =>
  rw [hd] at hr
  dsimp only at hr
  cases hf : e.dtFields with
  | none => rw [hf] at hr; cases hr
  | some dtF =>
  rw [hf] at hr
  dsimp only at hr
  cases hs : doTracking (e.cfg opmd bs.toList.length dts dtF) fuel (world bs.toList b0 φ) with
  | raised x => rw [hs] at hr; cases x <;> cases hr
  | running => rw [hs] at hr; cases hr
  | returned st =>
  rw [hs] at hr
  dsimp only at hr
  injection hr with hr
  injection hr with hr1 hr2
  have hcorr : Corr (e.cfg opmd bs.toList.length dts dtF) (e'.cfg opmd bs.toList.length dts dtF) id
      (fun w w' => w'.n = w.n ∧ w'.bunch = w.bunch ∧ R w.flds w'.flds) (fun _ _ _ _ => True) (fun _ _ => True) := by
    refine ⟨?_, ?_, h.nOut, fun _ _ => rfl, h.pushBefore, h.f32, fun _ h => h, fun _ _ _ h => h, fun _ _ => rfl,
      ?_, ?_, ?_, ?_⟩
    · show e'.length / e'.c = e.length / e.c
      rw [h.length, h.c]
    · show e'.numFields.length = e.numFields.length
      rw [h.numFields]
    · rintro i hi - w w' ⟨h1, h2, h3⟩
      show e'.autoDt (w'.bunch i) = e.autoDt (w.bunch i)
      rw [h.autoDt, h2]
    · rintro i hi w w' t dt ⟨h1, h2, h3⟩ -
      refine ⟨h1, ?_, h3⟩
      show Function.update w'.bunch i
          ((w'.bunch i).evolve e'.c (e'.felt w'.flds) (e'.sch (w'.bunch i).n) t dt e'.pusher).1 =
        Function.update w.bunch i ((w.bunch i).evolve e.c (e.felt w.flds) (e.sch (w.bunch i).n) t dt e.pusher).1
      rw [h2, h.c, h.felt _ _ h3, h.sch, h.pusher]
    · intro i hi hne
      exact absurd rfl (hne i hi)
    · rintro j hj w w' ⟨h1, h2, h3⟩ -
      refine ⟨h1, h2, ?_⟩
      have hl : w'.list = w.list := by
        unfold World.list
        rw [h1, h2]
      show R (e.update w.list w.flds j) (e'.update w'.list w'.flds j)
      rw [hl]
      exact h.update _ _ _ h3 j
  obtain ⟨s', h1, h2, h3⟩ := corr_tracking hcorr (w := world bs.toList b0 φ) (w' := world bs.toList b0 φ')
    ⟨rfl, rfl, h0⟩ hs ⟨fun _ _ _ _ _ _ _ => trivial, fun _ _ _ _ _ => trivial⟩
  have hsnap : bunchLists bs.toList.length s'.snaps = bunchLists bs.toList.length st.snaps := by
    unfold bunchLists
    refine List.map_congr_left fun i _ => ?_
    clear h1 h2 hr1 hr2 hs
    generalize st.snaps = l at h3
    generalize s'.snaps = l' at h3
    induction h3 with
    | nil => rfl
    | cons hx _ ih => rw [List.map_cons, List.map_cons, ih, hx.2.1]
  refine ⟨s'.w, ?_, by rw [h2.1, hr2], by rw [h2.2.1, hr2], hr2 ▸ h2.2.2⟩
  have hd' : e'.dtList bs.toList.length = some dts := by
    rw [← hd]
    unfold Elem.dtList
    rw [h.dtBunch]
  have hf' : e'.dtFields = some dtF := by
    rw [← hf]
    unfold Elem.dtFields
    rw [h.numFields, h.length, h.c]
  unfold Elem.track
  dsimp only
  rw [hd']
  dsimp only
  rw [hf']
  dsimp only
  rw [h1]
  dsimp only
  rw [hsnap, hr1]

end WakeT.FieldElement
