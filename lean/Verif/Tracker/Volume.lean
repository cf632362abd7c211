import Verif.Push.Volume
import Verif.Tracker.Turned
import Mathlib.MeasureTheory.Function.Floor

/-! # Phase space volume in a field element (C154) -/

set_option linter.unusedSectionVars false

namespace WakeT.Push

open Fields (EB LibField)

/-! ### Which fields are measurable -/

/-- The six components are measurable functions of the position. -/
def EBMeasurable (v : Vec → EB ℝ) : Prop :=
  (Measurable fun x => (v x).ex) ∧ (Measurable fun x => (v x).ey) ∧ (Measurable fun x => (v x).ez) ∧
  (Measurable fun x => (v x).bx) ∧ (Measurable fun x => (v x).b_y) ∧ (Measurable fun x => (v x).bz)

/-- Specification: the field adds measurable functions of the position, or replaces the values by
measurable functions. -/
def MeasurableField (f : PField) : Prop :=
  ∀ t v, EBMeasurable v → EBMeasurable fun x => f t (x 0) (x 1) (x 2) (v x)

theorem measurableFields_of {fields : List PField} (h : ∀ f ∈ fields, MeasurableField f) : MeasurableFields fields := by
  have key : ∀ t, ∀ (l : List PField), (∀ f ∈ l, MeasurableField f) → ∀ v, EBMeasurable v →
      EBMeasurable fun x : Vec => l.foldl (fun v f => f t (x 0) (x 1) (x 2) v) (v x) := by
    intro t l
    induction l with
    | nil => intro _ v hv; exact hv
    | cons f l ih =>
      intro hl v hv
      exact ih (fun g hg => hl g (List.mem_cons_of_mem _ hg)) _ (hl f List.mem_cons_self t v hv)
  have h0 : EBMeasurable fun _ : Vec => (⟨0, 0, 0, 0, 0, 0⟩ : EB ℝ) :=
    ⟨measurable_const, measurable_const, measurable_const, measurable_const, measurable_const, measurable_const⟩
  have h1 := fun t => key t fields h _ h0
  exact ⟨fun t => (h1 t).1, fun t => (h1 t).2.1, fun t => (h1 t).2.2.1, fun t => (h1 t).2.2.2.1,
    fun t => (h1 t).2.2.2.2.1, fun t => (h1 t).2.2.2.2.2⟩

/-- The fields of the library; the focusing of a blowout and the field maps are functions given by
the user. -/
def LibMeasurable : LibField ℝ → Prop
  | .focusingBlowout _ k => Measurable k
  | .rz f => EBMeasurable fun x : Vec => f (x 0) (x 1) (x 2)
  | _ => True

/-- Magnets, lenses and the blowout models are measurable. -/
theorem measurable_lib (f : ℝ → LibField ℝ) (hf : ∀ t, LibMeasurable (f t)) :
    MeasurableField fun t x y xi v => (f t).gather1 x y xi v := by
  intro t v hv
  have h := hf t
  obtain ⟨h1, h2, h3, h4, h5, h6⟩ := hv
  dsimp only
  generalize f t = g at h
  cases g with
  | none => exact ⟨h1, h2, h3, h4, h5, h6⟩
  | linearBTheta k =>
    refine ⟨h1, h2, h3, ?_, ?_, h6⟩ <;> simp only [LibField.gather1] <;> fun_prop
  | quadrupole k =>
    refine ⟨h1, h2, h3, ?_, ?_, h6⟩ <;> simp only [LibField.gather1] <;> fun_prop
  | simpleBlowout c g ezp off =>
    refine ⟨?_, ?_, ?_, h4, h5, h6⟩ <;> simp only [LibField.gather1] <;> fun_prop
  | customBlowout c k ez0 ezp off =>
    refine ⟨?_, ?_, ?_, h4, h5, h6⟩ <;> simp only [LibField.gather1] <;> fun_prop
  | focusingBlowout c k =>
    have hk : Measurable k := h
    refine ⟨?_, ?_, h3, h4, h5, h6⟩ <;> simp only [LibField.gather1] <;> fun_prop
  | rz f =>
    obtain ⟨g1, g2, g3, g4, g5, g6⟩ := h
    exact ⟨h1.add g1, h2.add g2, h3.add g3, h4.add g4, h5.add g5, h6⟩

namespace Volume

/-- `cellInterp` with the cell given. -/
noncomputable def cellAt (sign : ℝ) (fld : Arr ℝ) (i j : ℤ) (rc zc : ℝ) : Option ℝ := do
  let irUpper := i + 1
  let izUpper := j + 1
  let (irLower, corr) := if i < 2 then (2, sign) else (i, 1)
  let fll ← fld.get j irLower
  let flu ← fld.get j irUpper
  let ful ← fld.get izUpper irLower
  let fuu ← fld.get izUpper irUpper
  let dzU : ℝ := (izUpper : ℝ) - zc
  let dzL : ℝ := zc - (j : ℝ)
  let z1 := dzU * (fll * corr) + dzL * (ful * corr)
  let z2 := dzU * flu + dzL * fuu
  let drU : ℝ := (irUpper : ℝ) - rc
  let drL : ℝ := 1 - drU
  some (drU * z1 + drL * z2)

theorem cellInterp_at (b : Interp.Box) (sign : ℝ) (fld : Arr ℝ) (r z : ℝ) :
    Interp.cellInterp b sign fld r z = cellAt sign fld ⌊(r - b.rMin) / b.dr + 2⌋ ⌊(z - b.zMin) / b.dz + 2⌋
      ((r - b.rMin) / b.dr + 2) ((z - b.zMin) / b.dz + 2) := rfl

/-- In a given cell the interpolation fails everywhere or is continuous. -/
theorem cellAt_cases (sign : ℝ) (fld : Arr ℝ) (i j : ℤ) :
    (∀ rc zc, cellAt sign fld i j rc zc = none) ∨
    ∃ g : ℝ → ℝ → ℝ, (Continuous fun p : ℝ × ℝ => g p.1 p.2) ∧ ∀ rc zc, cellAt sign fld i j rc zc = some (g rc zc) := by
  unfold cellAt
  generalize (if i < 2 then ((2 : ℤ), sign) else (i, 1)) = q
  obtain ⟨ir, corr⟩ := q
  dsimp only
  cases fld.get j ir with
  | none => exact Or.inl fun _ _ => rfl
  | some a =>
  cases fld.get j (i + 1) with
  | none => exact Or.inl fun _ _ => rfl
  | some b =>
  cases fld.get (j + 1) ir with
  | none => exact Or.inl fun _ _ => rfl
  | some c =>
  cases fld.get (j + 1) (i + 1) with
  | none => exact Or.inl fun _ _ => rfl
  | some d =>
    refine Or.inr ⟨_, ?_, fun rc zc => rfl⟩
    fun_prop

end Volume

end WakeT.Push

namespace WakeT.FieldElement

open Tracker Bunch
open Push
open Push.Volume
open Fields (EB LibField)

/-- `gridField` in a given cell. -/
noncomputable def gridAt (b : Interp.Box) (er ez bt : Arr ℝ) (x y rc zc : ℝ) (v : EB ℝ) (i j : ℤ) : EB ℝ :=
  match cellAt (-1) er i j rc zc, cellAt (-1) bt i j rc zc, cellAt 1 ez i j rc zc with
  | some eri, some bti, some ezi =>
    { ex := v.ex + eri * x * (1 / √(x ^ 2 + y ^ 2)), ey := v.ey + eri * y * (1 / √(x ^ 2 + y ^ 2)), ez := v.ez + ezi,
      bx := v.bx + -bti * y * (1 / √(x ^ 2 + y ^ 2)), b_y := v.b_y + bti * x * (1 / √(x ^ 2 + y ^ 2)), bz := v.bz }
  | _, _, _ => v

open Classical in
theorem gridField_eq (b : Interp.Box) (er ez bt : Arr ℝ) (t x y xi : ℝ) (v : EB ℝ) :
    gridField b er ez bt t x y xi v =
      if √(x ^ 2 + y ^ 2) ≠ 0 ∧ b.Has √(x ^ 2 + y ^ 2) xi then
        gridAt b er ez bt x y ((√(x ^ 2 + y ^ 2) - b.rMin) / b.dr + 2) ((xi - b.zMin) / b.dz + 2) v
          ⌊(√(x ^ 2 + y ^ 2) - b.rMin) / b.dr + 2⌋ ⌊(xi - b.zMin) / b.dz + 2⌋
      else v := by
  unfold gridField Interp.gatherMain1
  dsimp only
  by_cases h0 : √(x ^ 2 + y ^ 2) = 0
  · rw [if_pos h0, if_neg (fun h => h.1 h0)]
  · rw [if_neg h0]
    by_cases h1 : b.Has √(x ^ 2 + y ^ 2) xi
    · rw [if_pos h1, if_pos ⟨h0, h1⟩]
      unfold gridAt
      rw [cellInterp_at, cellInterp_at, cellInterp_at]
      generalize cellAt (-1) er _ _ _ _ = a
      generalize cellAt (-1) bt _ _ _ _ = a'
      generalize cellAt 1 ez _ _ _ _ = a''
      cases a <;> cases a' <;> cases a'' <;> rfl
    · rw [if_neg h1, if_neg (fun h => h1 h.2)]

theorem ebMeasurable_ite {p : Vec → Prop} [DecidablePred p] (hp : MeasurableSet {x | p x}) {v w : Vec → EB ℝ}
    (hv : EBMeasurable v) (hw : EBMeasurable w) : EBMeasurable fun x => if p x then v x else w x := by
  obtain ⟨h1, h2, h3, h4, h5, h6⟩ := hv
  obtain ⟨g1, g2, g3, g4, g5, g6⟩ := hw
  refine ⟨?_, ?_, ?_, ?_, ?_, ?_⟩ <;> simp only [apply_ite]
  · exact Measurable.ite hp h1 g1
  · exact Measurable.ite hp h2 g2
  · exact Measurable.ite hp h3 g3
  · exact Measurable.ite hp h4 g4
  · exact Measurable.ite hp h5 g5
  · exact Measurable.ite hp h6 g6

theorem ebMeasurable_cells {f : ℤ → ℤ → Vec → EB ℝ} (hf : ∀ i j, EBMeasurable (f i j)) {a b : Vec → ℝ} (ha : Measurable a)
    (hb : Measurable b) : EBMeasurable fun x => f ⌊a x⌋ ⌊b x⌋ x := by
  have key : ∀ g : ℤ → ℤ → Vec → ℝ, (∀ i j, Measurable (g i j)) → Measurable fun x => g ⌊a x⌋ ⌊b x⌋ x := by
    intro g hg
    have h1 : Measurable fun p : (ℤ × ℤ) × Vec => g p.1.1 p.1.2 p.2 :=
      measurable_from_prod_countable_right fun q => hg q.1 q.2
    have h2 : Measurable fun x : Vec => ((⌊a x⌋, ⌊b x⌋), x) := (ha.floor.prodMk hb.floor).prodMk measurable_id
    exact h1.comp h2
  exact ⟨key (fun i j x => (f i j x).ex) fun i j => (hf i j).1, key (fun i j x => (f i j x).ey) fun i j => (hf i j).2.1,
    key (fun i j x => (f i j x).ez) fun i j => (hf i j).2.2.1, key (fun i j x => (f i j x).bx) fun i j => (hf i j).2.2.2.1,
    key (fun i j x => (f i j x).b_y) fun i j => (hf i j).2.2.2.2.1,
    key (fun i j x => (f i j x).bz) fun i j => (hf i j).2.2.2.2.2⟩

theorem gridAt_measurable (b : Interp.Box) (er ez bt : Arr ℝ) {rc zc : Vec → ℝ} (hr : Measurable rc) (hz : Measurable zc)
    {v : Vec → EB ℝ} (hv : EBMeasurable v) (i j : ℤ) :
    EBMeasurable fun x => gridAt b er ez bt (x 0) (x 1) (rc x) (zc x) (v x) i j := by
  unfold gridAt
  rcases cellAt_cases (-1) er i j with h1 | ⟨g1, c1, h1⟩
  · simp only [h1]
    exact hv
  rcases cellAt_cases (-1) bt i j with h2 | ⟨g2, c2, h2⟩
  · simp only [h1, h2]
    exact hv
  rcases cellAt_cases 1 ez i j with h3 | ⟨g3, c3, h3⟩
  · simp only [h1, h2, h3]
    exact hv
  simp only [h1, h2, h3]
  have m1 : Measurable fun x => g1 (rc x) (zc x) := c1.measurable.comp (hr.prodMk hz)
  have m2 : Measurable fun x => g2 (rc x) (zc x) := c2.measurable.comp (hr.prodMk hz)
  have m3 : Measurable fun x => g3 (rc x) (zc x) := c3.measurable.comp (hr.prodMk hz)
  obtain ⟨e1, e2, e3, e4, e5, e6⟩ := hv
  have m4 : Measurable fun x : Vec => 1 / √(x 0 ^ 2 + x 1 ^ 2) := by fun_prop
  have mx : Measurable fun x : Vec => x 0 := measurable_pi_apply 0
  have my : Measurable fun x : Vec => x 1 := measurable_pi_apply 1
  exact ⟨e1.add ((m1.mul mx).mul m4), e2.add ((m1.mul my).mul m4), e3.add m3, e4.add ((m2.neg.mul my).mul m4),
    e5.add ((m2.mul mx).mul m4), e6⟩

/-- The fields gathered from the arrays of a wakefield are measurable. -/
theorem measurable_grid (b : Interp.Box) (er ez bt : Arr ℝ) : MeasurableField (gridField b er ez bt) := by
  classical
  intro t v hv
  simp only [gridField_eq]
  have mr : Measurable fun x : Vec => √(x 0 ^ 2 + x 1 ^ 2) := by fun_prop
  have mz : Measurable fun x : Vec => x 2 := measurable_pi_apply 2
  have m1 : Measurable fun x : Vec => (√(x 0 ^ 2 + x 1 ^ 2) - b.rMin) / b.dr + 2 := by fun_prop
  have m2 : Measurable fun x : Vec => (x 2 - b.zMin) / b.dz + 2 := by fun_prop
  refine ebMeasurable_ite ?_ (ebMeasurable_cells (f := fun i j x => gridAt b er ez bt (x 0) (x 1)
    ((√(x 0 ^ 2 + x 1 ^ 2) - b.rMin) / b.dr + 2) ((x 2 - b.zMin) / b.dz + 2) (v x) i j)
    (fun i j => gridAt_measurable b er ez bt m1 m2 hv i j) m1 m2) hv
  unfold Interp.Box.Has
  refine MeasurableSet.inter ?_ (MeasurableSet.inter ?_ (MeasurableSet.inter ?_ ?_))
  · exact (measurableSet_eq_fun mr measurable_const).compl
  · exact measurableSet_le measurable_const mz
  · exact measurableSet_le mz measurable_const
  · exact measurableSet_le mr measurable_const

/-! ### The element -/

variable {F Φ : Type} [LinearOrder F]

/-- The tracking of the map from the initial to the current phase space. -/
noncomputable def mapCfg (e : Elem F Φ) {fields : List PField} (hm : MeasurableFields fields) (q m d : ℝ) (dtF : List ℝ) :
    Cfg ℝ F {Ψ : Ph → Ph // Liouville Ψ} where
  tFinal := e.length / e.c
  nBunch := 1
  nField := e.numFields.length
  nDiag := e.nOut
  dtBunch := fun _ => some d
  dtField := fun j => dtF.getD j 0
  autoDt := fun _ _ => 0
  pushBeforeDiags := e.pushBefore
  opmd := false
  f32 := e.f32
  evolve := fun Ψ _ t dt => ⟨borisStep ⟨e.c, q, m⟩ fields t dt ∘ Ψ.1, (borisStep_liouville _ hm t dt).comp Ψ.2⟩
  updateF := fun Ψ _ => Ψ

theorem run_le {K G σ : Type} [Field K] [LinearOrder K] [IsStrictOrderedRing K] [LinearOrder G] {c : Cfg K G σ} {n n' : ℕ}
    (hn : n ≤ n') {s r : St K σ} (h : run c n s = some r) : run c n' s = some r := by
  induction hn with
  | refl => exact h
  | step _ ih => exact run_more ih

/-- The result does not depend on the bound on the number of iterations. -/
theorem doTracking_unique {K G σ : Type} [Field K] [LinearOrder K] [IsStrictOrderedRing K] [LinearOrder G] {c : Cfg K G σ}
    {n n' : ℕ} {w : σ} {s s' : St K σ} (h : doTracking c n w = .returned s) (h' : doTracking c n' w = .returned s') :
    s = s' := by
  have h1 := (doTracking_returned h).2.2
  have h2 := (doTracking_returned h').2.2
  have h3 := run_le (Nat.le_max_left n n') h1
  rw [run_le (Nat.le_max_right n n') h2] at h3
  exact (Option.some.inj h3).symm

/-- The bunch `i` is the image of `b`. -/
def Carried (i : ℕ) (b : Bunch) (w : World Φ) (Ψ : {Ψ : Ph → Ph // Liouville Ψ}) : Prop :=
  (w.bunch i).Fits ∧ (w.bunch i).n = b.n ∧ (w.bunch i).zInjection = none ∧ (w.bunch i).qSpecies = b.qSpecies ∧
  (w.bunch i).mSpecies = b.mSpecies ∧ ∀ p < b.n, (w.bunch i).ph p = Ψ.1 (b.ph p)

theorem carried_corr {e : Elem F Φ} {fields : List PField} (hm : MeasurableFields fields) (hs : ∀ n, (e.sch n).Valid n)
    (hp : e.pusher = "boris") (hf : ∀ φ, e.felt φ = fields) {d : ℝ} (opmd : Bool) (dtF : List ℝ) {N i : ℕ} (hi : i < N)
    (b : Bunch) :
    Corr (e.cfg opmd N (List.replicate N (some d)) dtF) (mapCfg e hm b.qSpecies b.mSpecies d dtF) (fun _ => i)
      (Carried i b) (fun _ _ _ _ => True) (fun _ _ => True) := by
  have hd : (List.replicate N (some d)).getD i none = some d := by
    rw [List.getD_eq_getElem?_getD, List.getElem?_replicate, if_pos hi]
    rfl
  refine ⟨rfl, rfl, rfl, fun _ _ => rfl, rfl, rfl, fun _ _ => hi, fun a ha j hj => ?_, fun _ _ => hd.symm, ?_, ?_, ?_, ?_⟩
  · have : a < 1 := ha
    omega
  · intro k _ hn
    exact absurd (hd.symm.trans hn) (by simp)
  · rintro k - w Ψ t dt ⟨h1, h2, h3, h4, h5, h6⟩ -
    have ha : (w.bunch i).activeFields fields = .ok fields := by
      unfold Bunch.activeFields
      rw [h3]
    obtain ⟨b', e1, g1, -, g3, -, -, -, -, g5, g6, -, -, g7, g8⟩ :=
      evolve_spec e.c (w.bunch i) fields fields (hs _) t dt (Or.inr hp) h1 ha
    have hb : ((e.cfg opmd N (List.replicate N (some d)) dtF).evolve w i t dt).bunch i = b' := by
      show Function.update w.bunch i _ i = b'
      rw [Function.update_self, hf, e1]
    unfold Carried
    rw [hb]
    refine ⟨g8, g1.trans h2, g7.trans h3, g5.trans h4, g6.trans h5, fun p hpn => ?_⟩
    rw [g3, if_pos (h2 ▸ hpn), h6 p hpn]
    unfold stepOf Bunch.const
    rw [hp, if_neg (by decide), h4, h5]
    rfl
  · intro k hk hne w Ψ t dt h _
    have hki : i ≠ k := fun h => hne 0 (show 0 < 1 by omega) h
    have hb : ((e.cfg opmd N (List.replicate N (some d)) dtF).evolve w k t dt).bunch i = w.bunch i :=
      Function.update_of_ne hki _ _
    unfold Carried
    rw [hb]
    exact h
  · intro j hj w Ψ h _
    exact h

open Classical in
/-- The map after `j` outputs, if the tracking returns. -/
noncomputable def mapAt (e : Elem F Φ) {fields : List PField} (hm : MeasurableFields fields) (q m d : ℝ) (dtF : List ℝ)
    (j : ℕ) : {Ψ : Ph → Ph // Liouville Ψ} :=
  if h : ∃ fuel s, doTracking (mapCfg e hm q m d dtF) fuel ⟨id, Liouville.id⟩ = .returned s then
    h.choose_spec.choose.snaps.getD j ⟨id, Liouville.id⟩
  else ⟨id, Liouville.id⟩

/-- Liouville's theorem for the numerical trajectories: in an element with given fields and the
Boris pusher there is, for each output, one map of the phase space, independent of the bunches,
which preserves volumes; all particles of all bunches of the species are moved by this map. -/
theorem boris_liouville {e : Elem F Φ} {fields : List PField} (hm : MeasurableFields fields)
    (hs : ∀ n, (e.sch n).Valid n) (hp : e.pusher = "boris") (hf : ∀ φ, e.felt φ = fields) {d : ℝ}
    (hd : e.dtBunch = .one (some d)) (q m : ℝ) :
    ∃ Ψ : ℕ → Ph → Ph, (∀ j, Liouville (Ψ j)) ∧
      ∀ opmd fuel (bunches : OneOrMany Bunch) b0 φ (r : OneOrMany (List Bunch)) w, e.track opmd fuel bunches b0 φ = .returned (r, w) →
        ∃ ls : List (List Bunch), r = pack ls ∧ ls.length = bunches.toList.length ∧
          ∀ (i : ℕ) (b : Bunch), bunches.toList[i]? = some b → b.Fits → b.zInjection = none → b.qSpecies = q → b.mSpecies = m →
            ∃ l, ls[i]? = some l ∧ ∀ (j : ℕ) (b' : Bunch), l[j]? = some b' → b'.n = b.n ∧ ∀ p < b.n, b'.ph p = Ψ j (b.ph p) := by
  cases hF : e.dtFields with
  | none =>
    refine ⟨fun _ => id, fun _ => Liouville.id, fun opmd fuel bunches b0 φ r w hr => ?_⟩
    unfold Elem.track at hr
    dsimp only at hr
    cases hd : e.dtList bunches.toList.length with
    | none => rw [hd] at hr; cases hr
    | some dts => rw [hd] at hr; dsimp only at hr; rw [hF] at hr; cases hr
  | some dtF =>
  refine ⟨fun j => (mapAt e hm q m d dtF j).1, fun j => (mapAt e hm q m d dtF j).2, fun opmd fuel bunches b0 φ r w hr => ?_⟩
  unfold Elem.track at hr
  dsimp only at hr
  have hl : e.dtList bunches.toList.length = some (List.replicate bunches.toList.length (some d)) := by
    unfold Elem.dtList
    rw [hd]
  rw [hl] at hr
  dsimp only at hr
  rw [hF] at hr
  dsimp only at hr
  generalize bunches.toList = bs at hr ⊢
  cases ht : doTracking (e.cfg opmd bs.length (List.replicate bs.length (some d)) dtF) fuel (world bs b0 φ) with
  | raised x => rw [ht] at hr; cases x <;> cases hr
  | running => rw [ht] at hr; cases hr
  | returned st =>
  rw [ht] at hr
  dsimp only at hr
  injection hr with hr
  injection hr with hr1 hr2
  refine ⟨_, hr1.symm, by unfold bunchLists; rw [List.length_map, List.length_range], fun i b hib h1 h2 h3 h4 => ?_⟩
  have hi : i < bs.length := (List.getElem?_eq_some_iff.mp hib).1
  subst h3 h4
  have hb : (world bs b0 φ).bunch i = b := by
    show bs.getD i b0 = b
    rw [List.getD_eq_getElem?_getD, hib]
    rfl
  have h0 : Carried i b (world bs b0 φ) ⟨id, Liouville.id⟩ := by
    unfold Carried
    rw [hb]
    exact ⟨h1, rfl, h2, rfl, rfl, fun _ _ => rfl⟩
  obtain ⟨s', g1, -, g3⟩ := corr_tracking (carried_corr hm hs hp hf (d := d) opmd dtF hi b) h0 ht
    ⟨fun _ _ _ _ _ _ _ => trivial, fun _ _ _ _ _ => trivial⟩
  refine ⟨st.snaps.map fun w => w.bunch i, ?_, fun j b' hj => ?_⟩
  · unfold bunchLists
    rw [List.getElem?_map, List.getElem?_range hi]
    rfl
  · rw [List.getElem?_map, Option.map_eq_some_iff] at hj
    obtain ⟨w', hw', rfl⟩ := hj
    obtain ⟨hj1, hj2⟩ := List.getElem?_eq_some_iff.mp hw'
    have hlen := g3.length_eq
    have hc := g3.get hj1 (hlen ▸ hj1)
    have hmap : mapAt e hm b.qSpecies b.mSpecies d dtF j = s'.snaps[j]'(hlen ▸ hj1) := by
      have hex : ∃ fuel s, doTracking (mapCfg e hm b.qSpecies b.mSpecies d dtF) fuel ⟨id, Liouville.id⟩ = .returned s :=
        ⟨_, _, g1⟩
      unfold mapAt
      rw [dif_pos hex, doTracking_unique hex.choose_spec.choose_spec g1, List.getD_eq_getElem?_getD,
        List.getElem?_eq_getElem (hlen ▸ hj1)]
      rfl
    rw [List.get_eq_getElem, List.get_eq_getElem, hj2] at hc
    show _ ∧ ∀ p < b.n, _ = (mapAt e hm b.qSpecies b.mSpecies d dtF j).1 (b.ph p)
    rw [hmap]
    exact ⟨hc.2.1, hc.2.2.2.2.2⟩

/-- The assumptions hold for an element with a quadrupole, an adiabatic lens and the fields of a
grid, and the tracking of bunches through it returns. -/
example (b : Interp.Box) (er ez bt : Arr ℝ) (sch : ℕ → Sched) (hsch : ∀ n, (sch n).Valid n) (bunches : OneOrMany Bunch)
    (b0 : Bunch) :
    let fields : List PField := [fun _ x y xi v => (LibField.quadrupole 3).gather1 x y xi v,
      fun t x y xi v => (LibField.linearBTheta (1 / (1 + t ^ 2))).gather1 x y xi v, gridField b er ez bt]
    let e : Elem ℝ Unit := { demo sch with dtBunch := .one (some (3 / 10)), felt := fun _ => fields }
    MeasurableFields fields ∧ (∀ n, (e.sch n).Valid n) ∧ e.pusher = "boris" ∧ (∀ φ, e.felt φ = fields) ∧
      ∃ fuel r, e.track false fuel bunches b0 () = .returned r := by
  intro fields e
  refine ⟨measurableFields_of fun f hf => ?_, hsch, rfl, fun _ => rfl, ?_⟩
  · simp only [fields, List.mem_cons, List.not_mem_nil, or_false] at hf
    rcases hf with rfl | rfl | rfl
    · exact measurable_lib (fun _ => .quadrupole 3) fun _ => trivial
    · exact measurable_lib (fun t => .linearBTheta (1 / (1 + t ^ 2))) fun _ => trivial
    · exact measurable_grid b er ez bt
  · have h := demo_ok sch
    refine track_returns (e := e) ⟨h.length, h.c, ?_, h.auto, h.fields, h.mono, h.sep⟩ strictMono_id
      (by norm_num [e, demo]) (δ := 1 / 5) (by norm_num) (fun b => ?_) bunches (fun l hl => by cases hl) false b0 ()
    · intro d hd
      simp [e, OneOrMany.toList] at hd
      rw [hd]
      norm_num
    · show 1 / 5 ≤ 1 / 5 + b.propDistance ^ 2
      nlinarith [sq_nonneg b.propDistance]

end WakeT.FieldElement
