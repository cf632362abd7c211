import Verif.Tracker.Similar

/-! # Two trackings in lockstep

If pushes, field updates and time steps of two elements correspond to each other, so do their outputs. -/

set_option linter.unusedSectionVars false

namespace WakeT.FieldElement

open Tracker Bunch
open Push (PField Sched Ph)

variable {F Φ Φ' : Type} [LinearOrder F]

/-- Two elements with the same clocks, in which `B` relates the bunches and `R` the states of the fields. -/
structure Elem.Lockstep (e : Elem F Φ) (e' : Elem F Φ') (B : Bunch → Bunch → Prop) (R : Φ → Φ' → Prop) : Prop where
  length : e'.length = e.length
  dtBunch : e'.dtBunch = e.dtBunch
  nOut : e'.nOut = e.nOut
  numFields : e'.numFields = e.numFields
  autoDt : ∀ b b', B b b' → e'.autoDt b' = e.autoDt b
  pushBefore : e'.pushBefore = e.pushBefore
  c : e'.c = e.c
  push : ∀ φ φ' b b' t dt, R φ φ' → B b b' → B (b.evolve e.c (e.felt φ) (e.sch b.n) t dt e.pusher).1
    (b'.evolve e'.c (e'.felt φ') (e'.sch b'.n) t dt e'.pusher).1
  update : ∀ bs bs' φ φ' j, List.Forall₂ B bs bs' → R φ φ' → R (e.update bs φ j) (e'.update bs' φ' j)
  f32 : e'.f32 = e.f32

/-- Specification: the outputs, bunch by bunch. -/
def OutRel (B : Bunch → Bunch → Prop) : OneOrMany (List Bunch) → OneOrMany (List Bunch) → Prop
  | .one ls, .one ls' => List.Forall₂ B ls ls'
  | .many ls, .many ls' => List.Forall₂ (List.Forall₂ B) ls ls'
  | _, _ => False

theorem track_lockstep {e : Elem F Φ} {e' : Elem F Φ'} {B : Bunch → Bunch → Prop} {R : Φ → Φ' → Prop} (he : e.Lockstep e' B R)
    (opmd : Bool) (fuel : ℕ) {bs bs' : OneOrMany Bunch} (hb : List.Forall₂ B bs.toList bs'.toList) (b0 b0' : Bunch)
    {φ : Φ} {φ' : Φ'} (hφ : R φ φ') {r : OneOrMany (List Bunch)} {w : World Φ}
    (hr : e.track opmd fuel bs b0 φ = .returned (r, w)) :
    ∃ r' w', e'.track opmd fuel bs' b0' φ' = .returned (r', w') ∧ OutRel B r r' ∧ R w.flds w'.flds := by
  have hlen : bs.toList.length = bs'.toList.length := hb.length_eq
  unfold Elem.track at hr
  dsimp only at hr
  cases hd : e.dtList bs.toList.length with
  | none => rw [hd] at hr; cases hr
  | some dts =>
  rw [hd] at hr
  dsimp only at hr
  cases hf : e.dtFields with
  | none => rw [hf] at hr; cases hr
  | some dtF =>
  rw [hf] at hr
  dsimp only at hr
  cases hs : doTracking (e.cfg opmd bs.toList.length dts dtF) fuel (world bs.toList b0 φ) with
  | raised x => rw [hs] at hr; cases x <;> cases hr
  | running => rw [hs] at hr; cases hr
  | returned st =>
  rw [hs] at hr
  dsimp only at hr
  injection hr with hr
  injection hr with hr1 hr2
  have hd' : e'.dtList bs.toList.length = some dts := by
    rw [← hd]
    unfold Elem.dtList
    rw [he.dtBunch]
  have hf' : e'.dtFields = some dtF := by
    rw [← hf]
    unfold Elem.dtFields
    rw [he.numFields, he.length, he.c]
  have hsc : Scaled 1 (e.cfg opmd bs.toList.length dts dtF) (e'.cfg opmd bs.toList.length dts dtF)
      (fun w w' => w.n = bs.toList.length ∧ w'.n = w.n ∧ R w.flds w'.flds ∧ ∀ i < w.n, B (w.bunch i) (w'.bunch i)) := by
    refine ⟨one_pos, ?_, rfl, ?_, he.nOut, rfl, he.pushBefore, ?_, ?_, ?_, ?_, ?_, ?_⟩
    · show e'.length / e'.c = 1 * (e.length / e.c)
      rw [he.length, he.c, one_mul]
    · show e'.numFields.length = e.numFields.length
      rw [he.numFields]
    · intro t
      show e'.f32 (1 * t) = e.f32 t
      rw [one_mul, he.f32]
    · intro i hi
      show dts.getD i none = (dts.getD i none).map (1 * ·)
      cases dts.getD i none with
      | none => rfl
      | some d => exact congrArg some (one_mul d).symm
    · intro j hj
      exact (one_mul _).symm
    · rintro i hi w w' ⟨hn, h1, h2, h3⟩
      rw [one_mul]
      exact he.autoDt _ _ (h3 i (hn ▸ hi))
    · rintro i hi w w' t dt ⟨hn, h1, h2, h3⟩
      refine ⟨hn, h1, h2, fun k hk => ?_⟩
      rw [one_mul, one_mul]
      show B (Function.update w.bunch i _ k) (Function.update w'.bunch i _ k)
      by_cases hki : k = i
      · subst hki
        rw [Function.update_self, Function.update_self]
        exact he.push _ _ _ _ _ _ h2 (h3 k hk)
      · rw [Function.update_of_ne hki, Function.update_of_ne hki]
        exact h3 k hk
    · rintro j hj w w' ⟨hn, h1, h2, h3⟩
      refine ⟨hn, h1, ?_, h3⟩
      refine he.update _ _ _ _ j ?_ h2
      unfold World.list
      rw [h1]
      exact forall₂_range _ fun i hi => h3 i hi
  have h0 : (world bs.toList b0 φ).n = bs.toList.length ∧ (world bs'.toList b0' φ').n = (world bs.toList b0 φ).n ∧
      R (world bs.toList b0 φ).flds (world bs'.toList b0' φ').flds ∧ ∀ i < (world bs.toList b0 φ).n,
        B ((world bs.toList b0 φ).bunch i) ((world bs'.toList b0' φ').bunch i) := by
    refine ⟨rfl, hlen.symm, hφ, fun i hi => ?_⟩
    have hi : i < bs.toList.length := hi
    have hi' : i < bs'.toList.length := hlen ▸ hi
    show B (bs.toList.getD i b0) (bs'.toList.getD i b0')
    rw [List.getD_eq_getElem?_getD, List.getD_eq_getElem?_getD, List.getElem?_eq_getElem hi, List.getElem?_eq_getElem hi']
    exact hb.get hi hi'
  obtain ⟨s', h1, h2, h3⟩ := scaled_tracking hsc h0 hs
  refine ⟨pack (bunchLists bs'.toList.length s'.snaps), s'.w, ?_, ?_, by rw [← hr2]; exact h2.2.2.1⟩
  · unfold Elem.track
    dsimp only
    rw [← hlen, hd']
    dsimp only
    rw [hf']
    dsimp only
    rw [h1]
  · have hout : List.Forall₂ (List.Forall₂ B) (bunchLists bs.toList.length st.snaps) (bunchLists bs'.toList.length s'.snaps) := by
      rw [← hlen]
      exact forall₂_range _ fun i hi => forall₂_snaps h3 fun a b hab => hab.2.2.2 i (hab.1.symm ▸ hi)
    rw [← hr1]
    generalize bunchLists bs.toList.length st.snaps = ls at hout
    generalize bunchLists bs'.toList.length s'.snaps = ls' at hout
    cases hout with
    | nil => exact .nil
    | cons hx hxs =>
      cases hxs with
      | nil => exact hx
      | cons hy hys => exact .cons hx (.cons hy hys)

end WakeT.FieldElement
