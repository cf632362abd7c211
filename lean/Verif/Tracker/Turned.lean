import Verif.Push.Symmetry
import Verif.Tracker.Together

/-! # Turned bunches in a field element (C121) -/

set_option linter.unusedSectionVars false

namespace WakeT.FieldElement

open Tracker Bunch
open Push (PField Sched Ph Turn)
open Fields (EB LibField)

variable {F Φ : Type} [LinearOrder F]

/-- Specification: the bunch `b'` is the bunch `b`, rotated or reflected about the axis. -/
def Image (s : Turn) (b b' : Bunch) : Prop :=
  b'.n = b.n ∧ (∀ i < b.n, b'.ph i = s.ph (b.ph i) ∧ b'.w i = b.w i) ∧ b'.propDistance = b.propDistance ∧
  b'.zInjection = b.zInjection ∧ b'.qSpecies = b.qSpecies ∧ b'.mSpecies = b.mSpecies ∧ b'.name = b.name

/-- Specification: the element looks the same after the turn: the fields seen by the particles,
the calculation of the fields from the bunches, and the choice of adaptive time steps. -/
structure Elem.Invariant (e : Elem F Φ) (s : Turn) : Prop where
  felt : ∀ φ, ∀ f ∈ e.felt φ, s.Leaves f
  update : ∀ l l', List.Forall₂ (Image s) l l' → ∀ φ j, e.update l' φ j = e.update l φ j
  autoDt : ∀ b b', Image s b b' → e.autoDt b' = e.autoDt b
  sch : ∀ n, (e.sch n).Valid n

/-- Specification: the outputs, bunch by bunch. -/
def ImageOut (s : Turn) : OneOrMany (List Bunch) → OneOrMany (List Bunch) → Prop
  | .one l, .one l' => List.Forall₂ (Image s) l l'
  | .many l, .many l' => List.Forall₂ (List.Forall₂ (Image s)) l l'
  | _, _ => False

theorem amax_image {n : ℕ} {s : Turn} {ph ph' : ℕ → Ph} (h : ∀ i < n, ph' i = s.ph (ph i)) :
    amax n (fun i => (ph' i).xi) = amax n (fun i => (ph i).xi) :=
  amax_congr fun i hi => by rw [h i hi]; rfl

theorem evolve_image {s : Turn} {b b' : Bunch} (h : Image s b b') (hf : b.Fits) (hf' : b'.Fits) (c : ℝ)
    {fields : List PField} (hl : ∀ f ∈ fields, s.Leaves f) {sch : Sched} (hs : sch.Valid b.n) (t dt : ℝ) (pusher : String) :
    Image s (b.evolve c fields sch t dt pusher).1 (b'.evolve c fields sch t dt pusher).1 ∧
    (b.evolve c fields sch t dt pusher).1.Fits ∧ (b'.evolve c fields sch t dt pusher).1.Fits := by
  obtain ⟨h1, h2, h3, h4, h5, h6, h7⟩ := id h
  have ha : b'.activeFields fields = b.activeFields fields := by
    unfold Bunch.activeFields
    rw [h4, h3, h1, amax_image fun i hi => (h2 i hi).1]
  cases hb : b.activeFields fields with
  | error x =>
    rw [evolve_error c b fields sch t dt pusher hb, evolve_error c b' fields sch t dt pusher (ha.trans hb)]
    exact ⟨h, hf, hf'⟩
  | ok fs =>
    have hfs : ∀ f ∈ fs, s.Leaves f := by
      unfold Bunch.activeFields at hb
      cases hz : b.zInjection with
      | none =>
        rw [hz] at hb
        cases hb
        exact hl
      | some z =>
        rw [hz] at hb
        dsimp only at hb
        cases hm : amax b.n (fun i => (b.ph i).xi) with
        | none => rw [hm] at hb; cases hb
        | some m =>
          rw [hm] at hb
          dsimp only at hb
          injection hb with hb
          subst hb
          split_ifs
          · intro f hf
            cases hf
          · exact hl
    by_cases hp : pusher = "rk4" ∨ pusher = "boris"
    · obtain ⟨r, e1, g1, g2, g3, g4, -, -, g5, g6, g7, -, -, g8, g9⟩ := evolve_spec c b fields fs hs t dt hp hf hb
      obtain ⟨r', e1', g1', g2', g3', g4', -, -, g5', g6', g7', -, -, g8', g9'⟩ :=
        evolve_spec c b' fields fs (h1 ▸ hs) t dt hp hf' (ha.trans hb)
      rw [e1, e1']
      have hk : b'.const c = b.const c := by
        unfold Bunch.const
        rw [h5, h6]
      refine ⟨⟨by rw [g1', g1, h1], fun i hi => ?_, by rw [g4', g4, h3], by rw [g8', g8, h4], by rw [g6', g6, h5],
        by rw [g7', g7, h6], by rw [g5', g5, h7]⟩, g9, g9'⟩
      dsimp only at hi ⊢
      rw [g1] at hi
      rw [g3, g3', g2, g2', if_pos hi, if_pos (h1.symm ▸ hi), (h2 i hi).1, hk]
      refine ⟨?_, (h2 i hi).2⟩
      unfold stepOf
      split_ifs
      · exact s.classicalRK4 hfs _ _ _ _
      · exact s.borisStep hfs _ _ _ _
    · rw [evolve_unknown c b fields fs sch t dt hp hb, evolve_unknown c b' fields fs sch t dt hp (ha.trans hb)]
      exact ⟨h, hf, hf'⟩

/-- The relation of the worlds in both trackings. -/
def Turned (s : Turn) (w w' : World Φ) : Prop :=
  w'.n = w.n ∧ w'.flds = w.flds ∧ ∀ i < w.n, Image s (w.bunch i) (w'.bunch i) ∧ (w.bunch i).Fits ∧ (w'.bunch i).Fits

theorem forall₂_range {α β : Type} {R : α → β → Prop} {f : ℕ → α} {g : ℕ → β} (n : ℕ) (h : ∀ i < n, R (f i) (g i)) :
    List.Forall₂ R ((List.range n).map f) ((List.range n).map g) := by
  induction n with
  | zero => exact .nil
  | succ n ih =>
    rw [List.range_succ, List.map_append, List.map_append]
    exact List.rel_append (ih fun i hi => h i (by omega)) (.cons (h n (by omega)) .nil)

theorem forall₂_snaps {α β : Type} {R : α → β → Prop} {α' β' : Type} {Q : α' → β' → Prop} {l : List α} {l' : List β}
    (h : List.Forall₂ R l l') {f : α → α'} {g : β → β'} (hfg : ∀ a b, R a b → Q (f a) (g b)) :
    List.Forall₂ Q (l.map f) (l'.map g) := by
  induction h with
  | nil => exact .nil
  | cons hx _ ih => exact .cons (hfg _ _ hx) ih

/-- Specification: all bunches of the inputs, with their preallocated arrays, if any, of the
right length. -/
def Inputs (s : Turn) (bs bs' : List Bunch) : Prop :=
  List.Forall₂ (fun b b' => Image s b b' ∧ b.Fits ∧ b'.Fits) bs bs'

/-- Tracking commutes with rotations about the axis and reflections in planes through it: if the
element looks the same after the turn, the turned bunches are tracked to the turned outputs, and
the fields end in the same state. -/
theorem track_turned {e : Elem F Φ} {s : Turn} (he : e.Invariant s) (opmd : Bool) (fuel : ℕ) {bs bs' : List Bunch}
    (hb : Inputs s bs bs') (b0 b0' : Bunch) (φ : Φ) {r : OneOrMany (List Bunch)} {w : World Φ}
    (hr : e.track opmd fuel (.many bs) b0 φ = .returned (r, w)) :
    ∃ r' w', e.track opmd fuel (.many bs') b0' φ = .returned (r', w') ∧ ImageOut s r r' ∧ w'.flds = w.flds := by
  have hlen : bs.length = bs'.length := hb.length_eq
  unfold Elem.track at hr
  dsimp only [OneOrMany.toList] at hr
  cases hd : e.dtList bs.length with
  | none => rw [hd] at hr; cases hr
  | some dts =>
  rw [hd] at hr
  dsimp only at hr
  cases hf : e.dtFields with
  | none => rw [hf] at hr; cases hr
  | some dtF =>
  rw [hf] at hr
  dsimp only at hr
  cases hs : doTracking (e.cfg opmd bs.length dts dtF) fuel (world bs b0 φ) with
  | raised x => rw [hs] at hr; cases x <;> cases hr
  | running => rw [hs] at hr; cases hr
  | returned st =>
  rw [hs] at hr
  dsimp only at hr
  injection hr with hr
  injection hr with hr1 hr2
  have hcorr : Corr (e.cfg opmd bs.length dts dtF) (e.cfg opmd bs.length dts dtF) id
      (fun w w' => w.n = bs.length ∧ Turned s w w') (fun _ _ _ _ => True) (fun _ _ => True) := by
    refine ⟨rfl, rfl, rfl, fun _ _ => rfl, rfl, rfl, fun _ h => h, fun _ _ _ h => h, fun _ _ => rfl, ?_, ?_, ?_, ?_⟩
    · rintro i hi - w w' ⟨hn, h1, h2, h3⟩
      exact he.autoDt _ _ (h3 i (hn ▸ hi)).1
    · rintro i hi w w' t dt ⟨hn, h1, h2, h3⟩ -
      obtain ⟨g1, g2, g3⟩ := h3 i (hn ▸ hi)
      refine ⟨hn, h1, h2, fun k hk => ?_⟩
      show Image s (Function.update w.bunch i _ k) (Function.update w'.bunch i _ k) ∧ (Function.update w.bunch i _ k).Fits ∧
        (Function.update w'.bunch i _ k).Fits
      by_cases hki : k = i
      · subst hki
        rw [Function.update_self, Function.update_self, h2, show (w'.bunch k).n = (w.bunch k).n from g1.1]
        exact evolve_image g1 g2 g3 _ (he.felt _) (he.sch _) _ _ _
      · rw [Function.update_of_ne hki, Function.update_of_ne hki]
        exact h3 k hk
    · intro i hi hne
      exact absurd rfl (hne i hi)
    · rintro j hj w w' ⟨hn, h1, h2, h3⟩ -
      refine ⟨hn, h1, ?_, h3⟩
      show e.update w'.list w'.flds j = e.update w.list w.flds j
      rw [h2]
      apply he.update
      unfold World.list
      rw [h1]
      exact forall₂_range _ fun i hi => (h3 i hi).1
  have h0 : Turned s (world bs b0 φ) (world bs' b0' φ) := by
    refine ⟨hlen.symm, rfl, fun i hi => ?_⟩
    have hi : i < bs.length := hi
    have hi' : i < bs'.length := hlen ▸ hi
    show Image s (bs.getD i b0) (bs'.getD i b0') ∧ (bs.getD i b0).Fits ∧ (bs'.getD i b0').Fits
    rw [List.getD_eq_getElem?_getD, List.getD_eq_getElem?_getD, List.getElem?_eq_getElem hi, List.getElem?_eq_getElem hi']
    exact hb.get hi hi'
  obtain ⟨s', h1, h2, h3⟩ := corr_tracking hcorr (w := world bs b0 φ) (w' := world bs' b0' φ) ⟨rfl, h0⟩ hs
    ⟨fun _ _ _ _ _ _ _ => trivial, fun _ _ _ _ _ => trivial⟩
  refine ⟨pack (bunchLists bs'.length s'.snaps), s'.w, ?_, ?_, by rw [h2.2.2.1, ← hr2]⟩
  · unfold Elem.track
    dsimp only [OneOrMany.toList]
    rw [← hlen, hd]
    dsimp only
    rw [hf]
    dsimp only
    rw [h1]
  · have hout : List.Forall₂ (List.Forall₂ (Image s)) (bunchLists bs.length st.snaps) (bunchLists bs'.length s'.snaps) := by
      rw [← hlen]
      exact forall₂_range _ fun i hi => forall₂_snaps h3 fun a b hab => (hab.2.2.2 i (hab.1.symm ▸ hi)).1
    rw [← hr1]
    generalize bunchLists bs.length st.snaps = l at hout
    generalize bunchLists bs'.length s'.snaps = l' at hout
    cases hout with
    | nil => exact .nil
    | cons hx hxs =>
      cases hxs with
      | nil => exact hx
      | cons hy hys => exact .cons hx (.cons hy hys)

/-! ### Which fields are invariant -/

/-- Fields of the library that look the same after every turn. -/
def Axisymmetric : LibField ℝ → Prop
  | .quadrupole _ => False
  | .rz _ => False
  | _ => True

/-- The fields of lenses and of the blowout models are invariant under all turns. -/
theorem leaves_axisymmetric (s : Turn) (f : ℝ → LibField ℝ) (hf : ∀ t, Axisymmetric (f t)) :
    s.Leaves fun t x y xi v => (f t).gather1 x y xi v := by
  intro t x y xi v
  have h := hf t
  dsimp only
  generalize f t = g at h
  cases g with
  | none => rfl
  | linearBTheta k =>
    simp only [LibField.gather1, Turn.eb, Turn.fx, Turn.fy, Fields.EB.mk.injEq, true_and]
    refine ⟨?_, ?_, trivial⟩
    · linear_combination (s.v * k * x) * s.sign
    · linear_combination -(s.u * k * x) * s.sign
  | quadrupole k => exact h.elim
  | simpleBlowout c g ezp off => simp only [LibField.gather1, Turn.eb, Turn.fx, Turn.fy]; congr 1 <;> ring
  | customBlowout c k ez0 ezp off => simp only [LibField.gather1, Turn.eb, Turn.fx, Turn.fy]; congr 1 <;> ring
  | focusingBlowout c k => simp only [LibField.gather1, Turn.eb, Turn.fx, Turn.fy]; congr 1 <;> ring
  | rz f => exact h.elim

/-- The field of a quadrupole is invariant under half a turn and reflections in its planes. -/
theorem leaves_quadrupole (s : Turn) (hs : s.v = 0) (k : ℝ) :
    s.Leaves fun _ x y xi v => (LibField.quadrupole k).gather1 x y xi v := by
  intro t x y xi v
  simp only [LibField.gather1, Turn.eb, Turn.fx, Turn.fy, hs, Fields.EB.mk.injEq, true_and]
  refine ⟨?_, ?_, trivial⟩
  · ring
  · linear_combination (s.u * k * x) * s.sign

/-- The gathering from the arrays of a wakefield, which commutes with all turns; the particle
keeps its values if the gathering fails (a particle on the axis, C13). -/
noncomputable def gridField (b : Interp.Box) (er ez bt : Arr ℝ) : PField := fun _ x y xi v =>
  match Interp.gatherMain1 b er ez bt x y xi v with
  | .ok v' => v'
  | .error _ => v

theorem leaves_grid (s : Turn) (b : Interp.Box) (er ez bt : Arr ℝ) : s.Leaves (gridField b er ez bt) := by
  intro t x y xi v
  unfold gridField Interp.gatherMain1
  dsimp only
  rw [s.sq x y]
  by_cases h0 : √(x ^ 2 + y ^ 2) = 0
  · rw [if_pos h0, if_pos h0]
  · rw [if_neg h0, if_neg h0]
    by_cases hh : b.Has √(x ^ 2 + y ^ 2) xi
    · rw [if_pos hh, if_pos hh]
      cases Interp.cellInterp b (-1) er √(x ^ 2 + y ^ 2) xi with
      | none => rfl
      | some ei =>
        cases Interp.cellInterp b (-1) bt √(x ^ 2 + y ^ 2) xi with
        | none => rfl
        | some bi =>
          cases Interp.cellInterp b 1 ez √(x ^ 2 + y ^ 2) xi with
          | none => rfl
          | some zi =>
            simp only [Turn.eb, Turn.fx, Turn.fy, Fields.EB.mk.injEq, true_and]
            refine ⟨by ring, by ring, ?_, ?_, trivial⟩
            · linear_combination (s.v * bi * x * (1 / √(x ^ 2 + y ^ 2))) * s.sign
            · linear_combination -(s.u * bi * x * (1 / √(x ^ 2 + y ^ 2))) * s.sign
    · rw [if_neg hh, if_neg hh]

/-- A lens and a quadrupole together look the same in the mirror. -/
example (sch : ℕ → Sched) (hsch : ∀ n, (sch n).Valid n) : ({ demo sch with
    felt := fun _ => [fun _ x y xi v => (LibField.linearBTheta 2).gather1 x y xi v,
      fun _ x y xi v => (LibField.quadrupole 3).gather1 x y xi v] } : Elem ℝ Unit).Invariant Turn.mirror where
  felt := by
    intro φ f hf
    simp only [List.mem_cons, List.not_mem_nil, or_false] at hf
    rcases hf with rfl | rfl
    · exact leaves_axisymmetric _ (fun _ => .linearBTheta 2) fun _ => trivial
    · exact leaves_quadrupole _ rfl 3
  update := fun _ _ _ _ _ => rfl
  autoDt := fun b b' h => by
    show 1 / 5 + b'.propDistance ^ 2 = 1 / 5 + b.propDistance ^ 2
    rw [h.2.2.1]
  sch := hsch

end WakeT.FieldElement
