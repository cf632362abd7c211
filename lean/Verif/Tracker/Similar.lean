import Verif.Push.Scaled
import Verif.Tracker.Scaled
import Verif.Tracker.Turned

/-! # Bunches and elements on different scales of length (part of C130) -/

set_option linter.unusedSectionVars false

namespace WakeT.FieldElement

open Tracker Bunch
open Push (PField Sched Ph ScaledField)

variable {F Φ Φ' : Type} [LinearOrder F] {l : ℝ}

/-- Specification: the bunch `b'` is the bunch `b` with all lengths multiplied by `l`, the same
momenta and `l` times the charge. -/
def Bigger (l : ℝ) (b b' : Bunch) : Prop :=
  b'.n = b.n ∧ (∀ i < b.n, b'.ph i = (b.ph i).scaled l ∧ b'.w i = l * b.w i) ∧ b'.propDistance = l * b.propDistance ∧
  b'.zInjection = b.zInjection.map (l * ·) ∧ b'.qSpecies = b.qSpecies ∧ b'.mSpecies = b.mSpecies ∧ b'.name = b.name

/-- Specification: the argument `dt_bunch` for steps that are `l` times as long. -/
noncomputable def longer (l : ℝ) : OneOrMany (Option ℝ) → OneOrMany (Option ℝ)
  | .one d => .one (d.map (l * ·))
  | .many ds => .many (ds.map (Option.map (l * ·)))

/-- Specification: the element `e'` is the element `e` with all lengths and times multiplied by `l`
and all fields divided by it; `R` relates the states of its fields. -/
structure Elem.Similar (l : ℝ) (e : Elem F Φ) (e' : Elem F Φ') (R : Φ → Φ' → Prop) : Prop where
  pos : 0 < l
  length : e'.length = l * e.length
  dtBunch : e'.dtBunch = longer l e.dtBunch
  pusher : e'.pusher = e.pusher
  nOut : e'.nOut = e.nOut
  numFields : e'.numFields = e.numFields.map fun x => (l * x.1, x.2)
  autoDt : ∀ b b', Bigger l b b' → e'.autoDt b' = l * e.autoDt b
  pushBefore : e'.pushBefore = e.pushBefore
  c : e'.c = e.c
  felt : ∀ φ φ', R φ φ' → List.Forall₂ (ScaledField l) (e.felt φ) (e'.felt φ')
  update : ∀ bs bs' φ φ' j, List.Forall₂ (Bigger l) bs bs' → R φ φ' → R (e.update bs φ j) (e'.update bs' φ' j)
  sch : ∀ n, (e.sch n).Valid n
  sch' : ∀ n, (e'.sch n).Valid n
  f32 : ∀ t, e'.f32 (l * t) = e.f32 t

/-- Specification: the outputs, bunch by bunch. -/
def BiggerOut (l : ℝ) : OneOrMany (List Bunch) → OneOrMany (List Bunch) → Prop
  | .one ls, .one ls' => List.Forall₂ (Bigger l) ls ls'
  | .many ls, .many ls' => List.Forall₂ (List.Forall₂ (Bigger l)) ls ls'
  | _, _ => False

theorem amax_scaled (hl : 0 < l) {n : ℕ} {a a' : ℕ → ℝ} (h : ∀ i < n, a' i = l * a i) :
    amax n a' = (amax n a).map (l * ·) := by
  cases n with
  | zero => rfl
  | succ n =>
    unfold amax
    dsimp only [Option.map]
    congr 1
    have h1 : ∀ m ≤ n, (List.range m).foldl (fun m i => max m (a' (i + 1))) (a' 0) =
        l * (List.range m).foldl (fun m i => max m (a (i + 1))) (a 0) := by
      intro m hm
      induction m with
      | zero => exact h 0 (by omega)
      | succ m ih =>
        rw [List.range_succ, List.foldl_append, List.foldl_append, ih (by omega)]
        show max _ (a' (m + 1)) = l * max _ (a (m + 1))
        rw [h (m + 1) (by omega), mul_max_of_nonneg _ _ hl.le]
    exact h1 n le_rfl

theorem evolve_bigger (hl : 0 < l) {b b' : Bunch} (h : Bigger l b b') (hf : b.Fits) (hf' : b'.Fits) (c : ℝ)
    {fields fields' : List PField} (hfl : List.Forall₂ (ScaledField l) fields fields') {sch sch' : Sched}
    (hs : sch.Valid b.n) (hs' : sch'.Valid b'.n) (t dt : ℝ) (pusher : String) :
    Bigger l (b.evolve c fields sch t dt pusher).1 (b'.evolve c fields' sch' (l * t) (l * dt) pusher).1 ∧
    (b.evolve c fields sch t dt pusher).1.Fits ∧ (b'.evolve c fields' sch' (l * t) (l * dt) pusher).1.Fits := by
  obtain ⟨h1, h2, h3, h4, h5, h6, h7⟩ := id h
  have hmax : amax b'.n (fun i => (b'.ph i).xi) = (amax b.n fun i => (b.ph i).xi).map (l * ·) := by
    rw [h1]
    exact amax_scaled hl fun i hi => by rw [(h2 i hi).1]; rfl
  have ha : (∃ x, b.activeFields fields = .error x ∧ b'.activeFields fields' = .error x) ∨
      ∃ fs fs', b.activeFields fields = .ok fs ∧ b'.activeFields fields' = .ok fs' ∧ List.Forall₂ (ScaledField l) fs fs' := by
    unfold Bunch.activeFields
    rw [h4, h3, hmax]
    cases b.zInjection with
    | none => exact Or.inr ⟨_, _, rfl, rfl, hfl⟩
    | some z =>
      cases amax b.n (fun i => (b.ph i).xi) with
      | none => exact Or.inl ⟨_, rfl, rfl⟩
      | some m =>
        refine Or.inr ⟨_, _, rfl, rfl, ?_⟩
        have hlt : l * m + l * b.propDistance < l * z ↔ m + b.propDistance < z := by
          rw [← mul_add]
          exact mul_lt_mul_iff_right₀ hl
        simp only [hlt]
        split_ifs
        · exact .nil
        · exact hfl
  rcases ha with ⟨x, hb, hb'⟩ | ⟨fs, fs', hb, hb', hfs⟩
  · rw [evolve_error c b fields sch t dt pusher hb, evolve_error c b' fields' sch' (l * t) (l * dt) pusher hb']
    exact ⟨h, hf, hf'⟩
  · by_cases hp : pusher = "rk4" ∨ pusher = "boris"
    · obtain ⟨r, e1, g1, g2, g3, g4, -, -, g5, g6, g7, -, -, g8, g9⟩ := evolve_spec c b fields fs hs t dt hp hf hb
      obtain ⟨r', e1', g1', g2', g3', g4', -, -, g5', g6', g7', -, -, g8', g9'⟩ :=
        evolve_spec c b' fields' fs' hs' (l * t) (l * dt) hp hf' hb'
      rw [e1, e1']
      have hk : b'.const c = b.const c := by
        unfold Bunch.const
        rw [h5, h6]
      refine ⟨⟨by rw [g1', g1, h1], fun i hi => ?_, by rw [g4', g4, h3]; ring, by rw [g8', g8, h4], by rw [g6', g6, h5],
        by rw [g7', g7, h6], by rw [g5', g5, h7]⟩, g9, g9'⟩
      dsimp only at hi ⊢
      rw [g1] at hi
      rw [g3, g3', g2, g2', if_pos hi, if_pos (h1.symm ▸ hi), (h2 i hi).1, hk]
      refine ⟨?_, (h2 i hi).2⟩
      unfold stepOf
      split_ifs
      · exact Push.classicalRK4_scaled hl.ne' hfs _ _ _ _
      · exact Push.borisStep_scaled hl.ne' hfs _ _ _ _
    · rw [evolve_unknown c b fields fs sch t dt hp hb, evolve_unknown c b' fields' fs' sch' (l * t) (l * dt) hp hb']
      exact ⟨h, hf, hf'⟩

theorem adjustDt_scaled (hl : 0 < l) (force : Bool) (T dt : ℝ) :
    Fields.adjustDt force (l * T) (l * dt) = (Fields.adjustDt force T dt).map (l * ·) := by
  unfold Fields.adjustDt
  have h1 : l * dt = 0 ↔ dt = 0 := by simp [hl.ne']
  have h2 : l * T / (l * dt) = T / dt := mul_div_mul_left T dt hl.ne'
  simp only [h1, h2]
  split_ifs <;> simp [mul_div_assoc]

theorem dtFields_scaled {e : Elem F Φ} {e' : Elem F Φ'} {R : Φ → Φ' → Prop} (h : e.Similar l e' R) :
    e'.dtFields = e.dtFields.map (List.map (l * ·)) := by
  unfold Elem.dtFields
  rw [h.numFields, h.length, h.c, mul_div_assoc]
  induction e.numFields with
  | nil => rfl
  | cons x xs ih =>
    rw [List.map_cons, List.mapM_cons, List.mapM_cons, ih]
    simp only [Option.bind_eq_bind, Option.pure_def]
    rw [adjustDt_scaled h.pos]
    cases Fields.adjustDt x.2 (e.length / e.c) x.1 with
    | none => rfl
    | some d =>
      cases xs.mapM fun x => Fields.adjustDt x.2 (e.length / e.c) x.1 with
      | none => rfl
      | some ds => rfl

theorem dtList_scaled {e : Elem F Φ} {e' : Elem F Φ'} {R : Φ → Φ' → Prop} (h : e.Similar l e' R) (n : ℕ) :
    e'.dtList n = (e.dtList n).map (List.map (Option.map (l * ·))) := by
  unfold Elem.dtList
  rw [h.dtBunch]
  cases e.dtBunch with
  | one d => simp [longer]
  | many ds =>
    simp only [longer, List.length_map]
    split_ifs <;> rfl

/-- Specification: all bunches of the inputs, with their preallocated arrays, if any, of the
right length. -/
def BiggerInputs (l : ℝ) (bs bs' : List Bunch) : Prop :=
  List.Forall₂ (fun b b' => Bigger l b b' ∧ b.Fits ∧ b'.Fits) bs bs'

/-- Tracking commutes with changes of scale. -/
theorem track_similar {e : Elem F Φ} {e' : Elem F Φ'} {R : Φ → Φ' → Prop} (he : e.Similar l e' R) (opmd : Bool)
    (fuel : ℕ) {bs bs' : List Bunch} (hb : BiggerInputs l bs bs') (b0 b0' : Bunch) {φ : Φ} {φ' : Φ'} (hφ : R φ φ')
    {r : OneOrMany (List Bunch)} {w : World Φ} (hr : e.track opmd fuel (.many bs) b0 φ = .returned (r, w)) :
    ∃ r' w', e'.track opmd fuel (.many bs') b0' φ' = .returned (r', w') ∧ BiggerOut l r r' ∧ R w.flds w'.flds := by
  have hlen : bs.length = bs'.length := hb.length_eq
  unfold Elem.track at hr
  dsimp only [OneOrMany.toList] at hr
  cases hd : e.dtList bs.length with
  | none => rw [hd] at hr; cases hr
  | some dts =>
  rw [hd] at hr
  dsimp only at hr
  cases hf : e.dtFields with
  | none => rw [hf] at hr; cases hr
  | some dtF =>
  rw [hf] at hr
  dsimp only at hr
  cases hs : doTracking (e.cfg opmd bs.length dts dtF) fuel (world bs b0 φ) with
  | raised x => rw [hs] at hr; cases x <;> cases hr
  | running => rw [hs] at hr; cases hr
  | returned st =>
  rw [hs] at hr
  dsimp only at hr
  injection hr with hr
  injection hr with hr1 hr2
  have hd' := dtList_scaled he bs.length
  rw [hd] at hd'
  have hf' := dtFields_scaled he
  rw [hf] at hf'
  have hsc : Scaled l (e.cfg opmd bs.length dts dtF)
      (e'.cfg opmd bs.length (dts.map (Option.map (l * ·))) (dtF.map (l * ·)))
      (fun w w' => w.n = bs.length ∧ w'.n = w.n ∧ R w.flds w'.flds ∧
        ∀ i < w.n, Bigger l (w.bunch i) (w'.bunch i) ∧ (w.bunch i).Fits ∧ (w'.bunch i).Fits) := by
    refine ⟨he.pos, ?_, rfl, ?_, he.nOut, rfl, he.pushBefore, he.f32, ?_, ?_, ?_, ?_, ?_⟩
    · show e'.length / e'.c = l * (e.length / e.c)
      rw [he.length, he.c, mul_div_assoc]
    · show e'.numFields.length = e.numFields.length
      rw [he.numFields, List.length_map]
    · intro i hi
      show (dts.map (Option.map (l * ·))).getD i none = (dts.getD i none).map (l * ·)
      rw [List.getD_eq_getElem?_getD, List.getD_eq_getElem?_getD, List.getElem?_map]
      cases dts[i]? <;> rfl
    · intro j hj
      show (dtF.map (l * ·)).getD j 0 = l * dtF.getD j 0
      rw [List.getD_eq_getElem?_getD, List.getD_eq_getElem?_getD, List.getElem?_map]
      cases dtF[j]? with
      | none => exact (mul_zero l).symm
      | some d => rfl
    · rintro i hi w w' ⟨hn, h1, h2, h3⟩
      exact he.autoDt _ _ (h3 i (hn ▸ hi)).1
    · rintro i hi w w' t dt ⟨hn, h1, h2, h3⟩
      obtain ⟨g1, g2, g3⟩ := h3 i (hn ▸ hi)
      refine ⟨hn, h1, h2, fun k hk => ?_⟩
      show Bigger l (Function.update w.bunch i _ k) (Function.update w'.bunch i _ k) ∧ (Function.update w.bunch i _ k).Fits ∧
        (Function.update w'.bunch i _ k).Fits
      by_cases hki : k = i
      · subst hki
        rw [Function.update_self, Function.update_self, he.c, he.pusher]
        exact evolve_bigger he.pos g1 g2 g3 _ (he.felt _ _ h2) (he.sch _) (he.sch' _) _ _ _
      · rw [Function.update_of_ne hki, Function.update_of_ne hki]
        exact h3 k hk
    · rintro j hj w w' ⟨hn, h1, h2, h3⟩
      refine ⟨hn, h1, ?_, h3⟩
      refine he.update _ _ _ _ j ?_ h2
      unfold World.list
      rw [h1]
      exact forall₂_range _ fun i hi => (h3 i hi).1
  have h0 : (world bs b0 φ).n = bs.length ∧ (world bs' b0' φ').n = (world bs b0 φ).n ∧
      R (world bs b0 φ).flds (world bs' b0' φ').flds ∧ ∀ i < (world bs b0 φ).n,
        Bigger l ((world bs b0 φ).bunch i) ((world bs' b0' φ').bunch i) ∧ ((world bs b0 φ).bunch i).Fits ∧
        ((world bs' b0' φ').bunch i).Fits := by
    refine ⟨rfl, hlen.symm, hφ, fun i hi => ?_⟩
    have hi : i < bs.length := hi
    have hi' : i < bs'.length := hlen ▸ hi
    show Bigger l (bs.getD i b0) (bs'.getD i b0') ∧ (bs.getD i b0).Fits ∧ (bs'.getD i b0').Fits
    rw [List.getD_eq_getElem?_getD, List.getD_eq_getElem?_getD, List.getElem?_eq_getElem hi, List.getElem?_eq_getElem hi']
    exact hb.get hi hi'
  obtain ⟨s', h1, h2, h3⟩ := scaled_tracking hsc h0 hs
  refine ⟨pack (bunchLists bs'.length s'.snaps), s'.w, ?_, ?_, by rw [← hr2]; exact h2.2.2.1⟩
  · unfold Elem.track
    dsimp only [OneOrMany.toList]
    rw [← hlen, hd']
    dsimp only [Option.map]
    rw [hf']
    dsimp only [Option.map]
    rw [h1]
  · have hout : List.Forall₂ (List.Forall₂ (Bigger l)) (bunchLists bs.length st.snaps) (bunchLists bs'.length s'.snaps) := by
      rw [← hlen]
      exact forall₂_range _ fun i hi => forall₂_snaps h3 fun a b hab => (hab.2.2.2 i (hab.1.symm ▸ hi)).1
    rw [← hr1]
    generalize bunchLists bs.length st.snaps = ls at hout
    generalize bunchLists bs'.length s'.snaps = ls' at hout
    cases hout with
    | nil => exact .nil
    | cons hx hxs =>
      cases hxs with
      | nil => exact hx
      | cons hy hys => exact .cons hx (.cons hy hys)

/-! ### Fields on different scales -/

/-- The gathering from the arrays of a wakefield. -/
theorem gridField_scaled (hl : 0 < l) {b b' : Interp.Box}
    (hb : b' = ⟨l * b.zMin, l * b.zMax, l * b.rMin, l * b.rMax, l * b.dz, l * b.dr⟩) (er ez bt : Arr ℝ) :
    ScaledField l (gridField b er ez bt) (gridField b' ⟨er.ni, er.nj, fun i j => er.val i j / l⟩
      ⟨ez.ni, ez.nj, fun i j => ez.val i j / l⟩ ⟨bt.ni, bt.nj, fun i j => bt.val i j / l⟩) := by
  have hcell : ∀ (sign : ℝ) (f : Arr ℝ) (r z : ℝ),
      Interp.cellInterp b' sign ⟨f.ni, f.nj, fun i j => f.val i j / l⟩ (l * r) (l * z) =
        (Interp.cellInterp b sign f r z).map (· / l) := by
    intro sign f r z
    subst hb
    unfold Interp.cellInterp
    dsimp only
    have h1 : ∀ x y d : ℝ, (l * x - l * y) / (l * d) = (x - y) / d := by
      intro x y d
      rw [← mul_sub, mul_div_mul_left _ _ hl.ne']
    have hget : ∀ i j, (⟨f.ni, f.nj, fun i j => f.val i j / l⟩ : Arr ℝ).get i j = (f.get i j).map (· / l) := by
      intro i j
      unfold Arr.get
      dsimp only
      split_ifs <;> rfl
    simp only [h1, hget]
    generalize (if ⌊(r - b.rMin) / b.dr + 2⌋ < 2 then ((2 : ℤ), sign) else (⌊(r - b.rMin) / b.dr + 2⌋, 1)) = lc
    obtain ⟨ir, corr⟩ := lc
    dsimp only
    generalize (r - b.rMin) / b.dr + 2 = rc
    generalize (z - b.zMin) / b.dz + 2 = zc
    cases f.get ⌊zc⌋ ir with
    | none => rfl
    | some f1 =>
      cases f.get ⌊zc⌋ (⌊rc⌋ + 1) with
      | none => rfl
      | some f2 =>
        cases f.get (⌊zc⌋ + 1) ir with
        | none => rfl
        | some f3 =>
          cases f.get (⌊zc⌋ + 1) (⌊rc⌋ + 1) with
          | none => rfl
          | some f4 =>
            simp only [Option.map, Option.bind_eq_bind, Option.bind_some, Option.some.injEq]
            ring
  intro t x y xi v
  unfold gridField Interp.gatherMain1
  dsimp only
  have hr : √((l * x) ^ 2 + (l * y) ^ 2) = l * √(x ^ 2 + y ^ 2) := by
    rw [mul_pow, mul_pow, ← mul_add, Real.sqrt_mul (sq_nonneg l), Real.sqrt_sq hl.le]
  rw [hr, hcell, hcell, hcell]
  by_cases h0 : √(x ^ 2 + y ^ 2) = 0
  · rw [if_pos h0, if_pos (by rw [h0, mul_zero])]
  · rw [if_neg h0, if_neg (mul_ne_zero hl.ne' h0)]
    have hh : b'.Has (l * √(x ^ 2 + y ^ 2)) (l * xi) ↔ b.Has √(x ^ 2 + y ^ 2) xi := by
      rw [hb]
      unfold Interp.Box.Has
      simp only [mul_le_mul_iff_right₀ hl]
    by_cases hb0 : b.Has √(x ^ 2 + y ^ 2) xi
    · rw [if_pos hb0, if_pos (hh.mpr hb0)]
      generalize √(x ^ 2 + y ^ 2) = r at h0
      cases Interp.cellInterp b (-1) er r xi with
      | none => rfl
      | some ei =>
        cases Interp.cellInterp b (-1) bt r xi with
        | none => rfl
        | some bi =>
          cases Interp.cellInterp b 1 ez r xi with
          | none => rfl
          | some zi =>
            have hl' := hl.ne'
            simp only [Push.weaker, Option.map, Fields.EB.mk.injEq]
            refine ⟨?_, ?_, ?_, ?_, ?_, trivial⟩ <;> field_simp
    · rw [if_neg hb0, if_neg (fun h => hb0 (hh.mp h))]

end WakeT.FieldElement
