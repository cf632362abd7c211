import Verif.Tracker.Simulation
import Verif.Tracker.FieldElement

/-! # Several bunches in a field element (C120) -/

set_option linter.unusedSectionVars false

namespace WakeT.FieldElement

open Tracker Bunch
open Push (PField Sched Ph)

variable {F Φ : Type} [LinearOrder F]

/-- Specification: the fields do not depend on the bunches (all fields but the wakefields
calculated from the bunches: magnets, lenses, blowout models, a laser-driven wake). -/
def Elem.External (e : Elem F Φ) : Prop := ∀ l l' φ j, e.update l φ j = e.update l' φ j

theorem forall₂_map {α β γ : Type} {R : α → β → Prop} {l : List α} {l' : List β} (h : List.Forall₂ R l l')
    {f : α → γ} {g : β → γ} (hfg : ∀ a b, R a b → f a = g b) : l.map f = l'.map g := by
  induction h with
  | nil => rfl
  | cons hx _ ih => rw [List.map_cons, List.map_cons, hfg _ _ hx, ih]

/-- The element for one of the bunches. -/
def Elem.single (e : Elem F Φ) (i : ℕ) : Elem F Φ :=
  match e.dtBunch with
  | .one _ => e
  | .many l => { e with dtBunch := .one (l.getD i none) }

/-- Bunches in external fields do not disturb each other: if several bunches are tracked
together, the outputs of each of them are those obtained when it is tracked alone with its time
step, and so is the final state of the fields. -/
theorem track_alone {e : Elem F Φ} (he : e.External) (opmd : Bool) (fuel : ℕ) (bs : List Bunch) (b0 : Bunch) (φ : Φ)
    {r : OneOrMany (List Bunch)} {w : World Φ} (hr : e.track opmd fuel (.many bs) b0 φ = .returned (r, w)) :
    ∃ ls : List (List Bunch), r = pack ls ∧ ls.length = bs.length ∧
      ∀ (i : ℕ) (b : Bunch), bs[i]? = some b → ∃ (l : List Bunch) (w' : World Φ), ls[i]? = some l ∧
        (e.single i).track opmd fuel (.one b) b0 φ = .returned (.one l, w') ∧ w'.flds = w.flds := by
  unfold Elem.track at hr
  dsimp only [OneOrMany.toList] at hr
  cases hd : e.dtList bs.length with
  | none => rw [hd] at hr; cases hr
  | some dts =>
  rw [hd] at hr
  dsimp only at hr
  cases hf : e.dtFields with
  | none => rw [hf] at hr; cases hr
  | some dtF =>
  rw [hf] at hr
  dsimp only at hr
  cases hs : doTracking (e.cfg opmd bs.length dts dtF) fuel (world bs b0 φ) with
  | raised x => rw [hs] at hr; cases x <;> cases hr
  | running => rw [hs] at hr; cases hr
  | returned s =>
  rw [hs] at hr
  dsimp only at hr
  injection hr with hr
  injection hr with hr1 hr2
  refine ⟨_, hr1.symm, by simp [bunchLists], fun i b hi => ?_⟩
  have hlt : i < bs.length := (List.getElem?_eq_some_iff.mp hi).1
  have hsing : (e.single i).dtList 1 = some [dts.getD i none] := by
    unfold Elem.single
    unfold Elem.dtList at hd
    cases hb : e.dtBunch with
    | one d =>
      rw [hb] at hd
      dsimp only at hd ⊢
      unfold Elem.dtList
      rw [hb]
      cases hd
      simp [List.getElem?_replicate, hlt]
    | many l =>
      rw [hb] at hd
      dsimp only at hd ⊢
      split_ifs at hd with hl
      cases hd
      rfl
  have hsf : (e.single i).dtFields = some dtF := by
    rw [← hf]
    unfold Elem.single
    split <;> rfl
  have hcfg : (e.single i).cfg opmd 1 [dts.getD i none] dtF = e.cfg opmd 1 [dts.getD i none] dtF := by
    unfold Elem.single
    split <;> rfl
  have hcorr : Corr (e.cfg opmd bs.length dts dtF) (e.cfg opmd 1 [dts.getD i none] dtF) (fun _ => i)
      (fun w w' => w'.bunch 0 = w.bunch i ∧ w'.flds = w.flds) (fun _ _ _ _ => True) (fun _ _ => True) := by
    refine ⟨rfl, rfl, rfl, fun _ _ => rfl, rfl, rfl, fun _ _ => hlt, fun k hk j hj => ?_, fun k hk => ?_, ?_, ?_, ?_, ?_⟩
    · have hk : k < 1 := hk
      omega
    · obtain rfl : k = 0 := by
        have hk : k < 1 := hk
        omega
      rfl
    · rintro k hk - w w' ⟨h1, h2⟩
      obtain rfl : k = 0 := by
        have hk : k < 1 := hk
        omega
      show e.autoDt _ = e.autoDt _
      rw [h1]
    · rintro k hk w w' t dt ⟨h1, h2⟩ -
      obtain rfl : k = 0 := by
        have hk : k < 1 := hk
        omega
      refine ⟨?_, h2⟩
      simp only [Elem.cfg, Function.update_self, h1, h2]
    · rintro j hj hne w w' t dt ⟨h1, h2⟩ -
      have hji : i ≠ j := hne 0 (by show 0 < 1; norm_num)
      refine ⟨?_, h2⟩
      simp only [Elem.cfg, Function.update_of_ne hji]
      exact h1
    · rintro j hj w w' ⟨h1, h2⟩ -
      refine ⟨h1, ?_⟩
      show e.update _ _ _ = e.update _ _ _
      rw [h2]
      exact he _ _ _ _
  have hbi : bs.getD i b0 = b := by
    rw [List.getD_eq_getElem?_getD, hi]
    rfl
  obtain ⟨s', h1, h2, h3⟩ := corr_tracking hcorr (w := world bs b0 φ) (w' := world [b] b0 φ)
    ⟨hbi.symm, rfl⟩ hs ⟨fun _ _ _ _ _ _ _ => trivial, fun _ _ _ _ _ => trivial⟩
  refine ⟨s.snaps.map fun w => w.bunch i, s'.w, ?_, ?_, ?_⟩
  · simp [bunchLists, hlt]
  · unfold Elem.track
    dsimp only [OneOrMany.toList, List.length_singleton]
    rw [hsing]
    dsimp only
    rw [hsf]
    dsimp only
    rw [hcfg, h1]
    dsimp only
    congr 2
    show OneOrMany.one (s'.snaps.map fun w => w.bunch 0) = _
    congr 1
    exact (forall₂_map h3 fun _ _ hx => hx.1.symm).symm
  · rw [h2.2, ← hr2]

/-- The example of two bunches: both can be tracked alone. -/
example (sch : ℕ → Sched) : ∃ fuel l w, (demo sch).track false fuel (.many [sample none, sample (some 1)]) (sample none) () =
    .returned (l, w) ∧ ∃ l' w', ((demo sch).single 1).track false fuel (.one (sample (some 1))) (sample none) () =
      .returned (.one l', w') := by
  obtain ⟨fuel, ⟨r, w⟩, hr⟩ := track_returns (demo_ok sch) strictMono_id (by norm_num [demo]) (δ := 1 / 5) (by norm_num)
    (fun b => by simp only [demo]; nlinarith [sq_nonneg b.propDistance])
    (.many [sample none, sample (some 1)]) (by intro l hl; cases hl; rfl) false (sample none) ()
  obtain ⟨ls, h1, h2, h3⟩ := track_alone (e := demo sch) (fun _ _ _ _ => rfl) _ _ _ _ _ hr
  obtain ⟨l, w', h4, h5, h6⟩ := h3 1 _ rfl
  exact ⟨fuel, r, w, hr, l, w', h5⟩

end WakeT.FieldElement
