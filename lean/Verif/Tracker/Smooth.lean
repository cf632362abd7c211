import Verif.Tracker.Volume
import Mathlib.Analysis.SpecialFunctions.Sqrt
import Mathlib.Analysis.Calculus.ContDiff.Operations

/-! # The final coordinates are smooth functions of the initial ones (C185) -/

set_option linter.unusedSectionVars false

namespace WakeT.Push

open Fields (EB LibField)

/-! ### Specification -/

/-- The map of phase space has `n` continuous derivatives (for `n = 0`: is continuous). -/
def SmoothMap (n : WithTop ℕ∞) (Φ : Ph → Ph) : Prop :=
  ContDiff ℝ n fun w : Vec × Vec => ((![(Φ (phase w)).x, (Φ (phase w)).y, (Φ (phase w)).xi] : Vec),
    (![(Φ (phase w)).px, (Φ (phase w)).py, (Φ (phase w)).pz] : Vec))

/-- The six components have `n` continuous derivatives with respect to the position. -/
def EBSmooth (n : WithTop ℕ∞) (v : Vec → EB ℝ) : Prop :=
  (ContDiff ℝ n fun x => (v x).ex) ∧ (ContDiff ℝ n fun x => (v x).ey) ∧ (ContDiff ℝ n fun x => (v x).ez) ∧
  (ContDiff ℝ n fun x => (v x).bx) ∧ (ContDiff ℝ n fun x => (v x).b_y) ∧ (ContDiff ℝ n fun x => (v x).bz)

/-- The fields have `n` continuous derivatives with respect to the position at each time. -/
def SmoothFields (n : WithTop ℕ∞) (fields : List PField) : Prop := ∀ t, EBSmooth n fun x => felt fields t (phase (x, 0))

/-- The field adds smooth functions of the position, or replaces the values by smooth functions. -/
def SmoothField (n : WithTop ℕ∞) (f : PField) : Prop := ∀ t v, EBSmooth n v → EBSmooth n fun x => f t (x 0) (x 1) (x 2) (v x)

variable {n : WithTop ℕ∞}

theorem smoothFields_of {fields : List PField} (h : ∀ f ∈ fields, SmoothField n f) : SmoothFields n fields := by
  have key : ∀ t, ∀ (l : List PField), (∀ f ∈ l, SmoothField n f) → ∀ v, EBSmooth n v →
      EBSmooth n fun x : Vec => l.foldl (fun v f => f t (x 0) (x 1) (x 2) v) (v x) := by
    intro t l
    induction l with
    | nil => intro _ v hv; exact hv
    | cons f l ih =>
      intro hl v hv
      exact ih (fun g hg => hl g (List.mem_cons_of_mem _ hg)) _ (hl f List.mem_cons_self t v hv)
  have h0 : EBSmooth n fun _ : Vec => (⟨0, 0, 0, 0, 0, 0⟩ : EB ℝ) :=
    ⟨contDiff_const, contDiff_const, contDiff_const, contDiff_const, contDiff_const, contDiff_const⟩
  exact fun t => key t fields h _ h0

/-- The fields of the library; the focusing of a blowout and the field maps are functions given by
the user. -/
def LibSmooth (n : WithTop ℕ∞) : LibField ℝ → Prop
  | .focusingBlowout _ k => ContDiff ℝ n k
  | .rz f => EBSmooth n fun x : Vec => f (x 0) (x 1) (x 2)
  | _ => True

/-- Magnets, lenses and the blowout models are smooth. -/
theorem smooth_lib (f : ℝ → LibField ℝ) (hf : ∀ t, LibSmooth n (f t)) :
    SmoothField n fun t x y xi v => (f t).gather1 x y xi v := by
  intro t v hv
  have h := hf t
  obtain ⟨h1, h2, h3, h4, h5, h6⟩ := hv
  dsimp only
  generalize f t = g at h
  have p0 : ∀ i, ContDiff ℝ n fun x : Vec => x i := fun i => contDiff_apply ℝ ℝ i
  cases g with
  | none => exact ⟨h1, h2, h3, h4, h5, h6⟩
  | linearBTheta k =>
    exact ⟨h1, h2, h3, h4.sub (contDiff_const.mul (p0 1)), h5.add (contDiff_const.mul (p0 0)), h6⟩
  | quadrupole k =>
    exact ⟨h1, h2, h3, h4.add (contDiff_const.mul (p0 1)), h5.add (contDiff_const.mul (p0 0)), h6⟩
  | simpleBlowout c g ezp off =>
    exact ⟨contDiff_const.mul (p0 0), contDiff_const.mul (p0 1), contDiff_const.mul ((p0 2).add contDiff_const), h4, h5, h6⟩
  | customBlowout c k ez0 ezp off =>
    exact ⟨contDiff_const.mul (p0 0), contDiff_const.mul (p0 1),
      contDiff_const.add (contDiff_const.mul ((p0 2).add contDiff_const)), h4, h5, h6⟩
  | focusingBlowout c k =>
    have hk : ContDiff ℝ n k := h
    exact ⟨(contDiff_const.mul (hk.comp (p0 2))).mul (p0 0), (contDiff_const.mul (hk.comp (p0 2))).mul (p0 1), h3, h4, h5, h6⟩
  | rz f =>
    obtain ⟨g1, g2, g3, g4, g5, g6⟩ := h
    exact ⟨h1.add g1, h2.add g2, h3.add g3, h4.add g4, h5.add g5, h6⟩

/-! ### Families of particles -/

/-- The coordinates of a particle depend smoothly on a parameter. -/
structure SmoothPh {E : Type} [NormedAddCommGroup E] [NormedSpace ℝ E] (n : WithTop ℕ∞) (P : E → Ph) : Prop where
  x : ContDiff ℝ n fun w => (P w).x
  y : ContDiff ℝ n fun w => (P w).y
  xi : ContDiff ℝ n fun w => (P w).xi
  px : ContDiff ℝ n fun w => (P w).px
  py : ContDiff ℝ n fun w => (P w).py
  pz : ContDiff ℝ n fun w => (P w).pz

section
variable {E : Type} [NormedAddCommGroup E] [NormedSpace ℝ E] {P : E → Ph}

theorem contDiff_field {g : Vec → ℝ} (hg : ContDiff ℝ n g) (h : SmoothPh n P) :
    ContDiff ℝ n fun w => g ![(P w).x, (P w).y, (P w).xi] := by
  refine hg.comp (contDiff_pi.mpr fun i => ?_)
  fin_cases i
  · exact h.x
  · exact h.y
  · exact h.xi

theorem contDiff_gamma {a b c : E → ℝ} (ha : ContDiff ℝ n a) (hb : ContDiff ℝ n b) (hc : ContDiff ℝ n c) (k : ℝ) :
    ContDiff ℝ n fun w => k / √(1 + (a w ^ 2 + b w ^ 2 + c w ^ 2)) := by
  refine contDiff_const.div (ContDiff.sqrt (contDiff_const.add (((ha.pow 2).add (hb.pow 2)).add (hc.pow 2))) fun w => ?_) fun w => ?_
  · positivity
  · exact (Real.sqrt_pos.mpr (by positivity)).ne'

theorem SmoothPh.halfPush (h : SmoothPh n P) (k : Const) (dt : ℝ) : SmoothPh n fun w => halfPush1 k dt (P w) := by
  have hg := contDiff_gamma h.px h.py h.pz k.c
  exact
    { x := h.x.add (((contDiff_const.mul h.px).mul contDiff_const).mul hg)
      y := h.y.add (((contDiff_const.mul h.py).mul contDiff_const).mul hg)
      xi := h.xi.add ((contDiff_const.mul ((h.pz.mul hg).sub contDiff_const)).mul contDiff_const)
      px := h.px
      py := h.py
      pz := h.pz }

theorem SmoothPh.kick (h : SmoothPh n P) (k : Const) {fields : List PField} (hf : SmoothFields n fields) (t dt : ℝ) :
    SmoothPh n fun w => Volume.kick k fields t dt (P w) := by
  obtain ⟨e1, e2, e3, e4, e5, e6⟩ := hf t
  have f1 := contDiff_field e1 h
  have f2 := contDiff_field e2 h
  have f3 := contDiff_field e3 h
  have f4 := contDiff_field e4 h
  have f5 := contDiff_field e5 h
  have f6 := contDiff_field e6 h
  have m1 := h.px.add (contDiff_const (c := k.qmc * dt / 2) |>.mul f1)
  have m2 := h.py.add (contDiff_const (c := k.qmc * dt / 2) |>.mul f2)
  have m3 := h.pz.add (contDiff_const (c := k.qmc * dt / 2) |>.mul f3)
  have hg := contDiff_gamma m1 m2 m3 k.c
  have t1 := (contDiff_const (c := k.qmc * dt / 2) |>.mul hg).mul f4
  have t2 := (contDiff_const (c := k.qmc * dt / 2) |>.mul hg).mul f5
  have t3 := (contDiff_const (c := k.qmc * dt / 2) |>.mul hg).mul f6
  have cs := (contDiff_const (c := (2 : ℝ))).div (((contDiff_const (c := (1 : ℝ)).add (t1.pow 2)).add (t2.pow 2)).add (t3.pow 2))
    (fun w => by positivity)
  have s1 := cs.mul t1
  have s2 := cs.mul t2
  have s3 := cs.mul t3
  have c1 := (m1.add (m2.mul t3)).sub (m3.mul t2)
  have c2 := (m2.add (m3.mul t1)).sub (m1.mul t3)
  have c3 := (m3.add (m1.mul t2)).sub (m2.mul t1)
  exact
    { x := h.x
      y := h.y
      xi := h.xi
      px := ((m1.add (c2.mul s3)).sub (c3.mul s2)).add (contDiff_const.mul f1)
      py := ((m2.add (c3.mul s1)).sub (c1.mul s3)).add (contDiff_const.mul f2)
      pz := ((m3.add (c1.mul s2)).sub (c2.mul s1)).add (contDiff_const.mul f3) }

theorem SmoothPh.boris (h : SmoothPh n P) (k : Const) {fields : List PField} (hf : SmoothFields n fields) (t dt : ℝ) :
    SmoothPh n fun w => borisStep k fields t dt (P w) :=
  ((h.halfPush k dt).kick k hf (t + dt / 2) dt).halfPush k dt

theorem SmoothPh.shift {Q : E → Ph} (h : SmoothPh n P) (h' : SmoothPh n Q) (a : ℝ) : SmoothPh n fun w => (P w).shift a (Q w) where
  x := h.x.add (contDiff_const.mul h'.x)
  y := h.y.add (contDiff_const.mul h'.y)
  xi := h.xi.add (contDiff_const.mul h'.xi)
  px := h.px.add (contDiff_const.mul h'.px)
  py := h.py.add (contDiff_const.mul h'.py)
  pz := h.pz.add (contDiff_const.mul h'.pz)

theorem SmoothPh.motion (h : SmoothPh n P) (k : Const) {fields : List PField} (hf : SmoothFields n fields) (t : ℝ) :
    SmoothPh n fun w => motion k fields t (P w) := by
  obtain ⟨e1, e2, e3, e4, e5, e6⟩ := hf t
  have f1 := contDiff_field e1 h
  have f2 := contDiff_field e2 h
  have f3 := contDiff_field e3 h
  have f4 := contDiff_field e4 h
  have f5 := contDiff_field e5 h
  have f6 := contDiff_field e6 h
  have hg : ContDiff ℝ n fun w => (P w).gamma := by
    unfold Ph.gamma
    refine ContDiff.sqrt (((contDiff_const.add (h.px.pow 2)).add (h.py.pow 2)).add (h.pz.pow 2)) fun w => ?_
    positivity
  have h0 : ∀ w, (P w).gamma ≠ 0 := fun w => (Real.sqrt_pos.mpr (by positivity)).ne'
  have v1 := (contDiff_const (c := k.c) |>.mul h.px).div hg h0
  have v2 := (contDiff_const (c := k.c) |>.mul h.py).div hg h0
  have v3 := (contDiff_const (c := k.c) |>.mul h.pz).div hg h0
  exact
    { x := v1
      y := v2
      xi := v3.sub contDiff_const
      px := contDiff_const.mul (f1.add ((v2.mul f6).sub (v3.mul f5)))
      py := contDiff_const.mul (f2.add ((v3.mul f4).sub (v1.mul f6)))
      pz := contDiff_const.mul (f3.add ((v1.mul f5).sub (v2.mul f4))) }

theorem SmoothPh.rk4 (h : SmoothPh n P) (k : Const) {fields : List PField} (hf : SmoothFields n fields) (t dt : ℝ) :
    SmoothPh n fun w => classicalRK4 (Push.motion k fields) t dt (P w) := by
  have k1 := h.motion k hf t
  have k2 := (h.shift k1 (dt / 2)).motion k hf (t + dt / 2)
  have k3 := (h.shift k2 (dt / 2)).motion k hf (t + dt / 2)
  have k4 := (h.shift k3 dt).motion k hf (t + dt)
  exact (((h.shift k1 (dt / 6)).shift k2 (dt / 3)).shift k3 (dt / 3)).shift k4 (dt / 6)
end

theorem smoothPh_phase : SmoothPh n phase where
  x := (contDiff_apply ℝ ℝ 0).comp contDiff_fst
  y := (contDiff_apply ℝ ℝ 1).comp contDiff_fst
  xi := (contDiff_apply ℝ ℝ 2).comp contDiff_fst
  px := (contDiff_apply ℝ ℝ 0).comp contDiff_snd
  py := (contDiff_apply ℝ ℝ 1).comp contDiff_snd
  pz := (contDiff_apply ℝ ℝ 2).comp contDiff_snd

theorem smoothMap_iff {Φ : Ph → Ph} : SmoothMap n Φ ↔ SmoothPh n fun w => Φ (phase w) := by
  unfold SmoothMap
  constructor
  · intro h
    have h1 : ∀ i, ContDiff ℝ n _ := fun i => (contDiff_apply ℝ ℝ i).comp (contDiff_fst.comp h)
    have h2 : ∀ i, ContDiff ℝ n _ := fun i => (contDiff_apply ℝ ℝ i).comp (contDiff_snd.comp h)
    exact ⟨h1 0, h1 1, h1 2, h2 0, h2 1, h2 2⟩
  · intro h
    refine ContDiff.prodMk (contDiff_pi.mpr fun i => ?_) (contDiff_pi.mpr fun i => ?_) <;> fin_cases i
    · exact h.x
    · exact h.y
    · exact h.xi
    · exact h.px
    · exact h.py
    · exact h.pz

theorem SmoothMap.id : SmoothMap n _root_.id := smoothMap_iff.mpr smoothPh_phase

theorem SmoothMap.comp {Φ Ψ : Ph → Ph} (h : SmoothMap n Φ) (h' : SmoothMap n Ψ) : SmoothMap n (Φ ∘ Ψ) := by
  have := ContDiff.comp h h'
  exact this

end WakeT.Push

namespace WakeT.FieldElement

open Bunch Fields Push Tracker

/-- Both directions are smooth. -/
def Diffeo (n : WithTop ℕ∞) (Φ : Ph → Ph) : Prop :=
  SmoothMap n Φ ∧ ∃ Ψ : Ph → Ph, SmoothMap n Ψ ∧ (∀ p, Ψ (Φ p) = p) ∧ ∀ p, Φ (Ψ p) = p

/-! ### The element -/

variable {F Φ : Type} [LinearOrder F]

/-- A class of maps closed under composition that contains the steps. -/
structure StepClass (Good : (Ph → Ph) → Prop) (pusher : String) (k : Const) (fields : List PField) : Prop where
  id : Good _root_.id
  comp : ∀ {Φ Ψ}, Good Φ → Good Ψ → Good (Φ ∘ Ψ)
  step : ∀ t dt, Good (stepOf pusher k fields t dt)

/-- The tracking of the map from the initial to the current phase space. -/
noncomputable def classCfg (e : Elem F Φ) {Good : (Ph → Ph) → Prop} {fields : List PField} {q m : ℝ}
    (hm : StepClass Good e.pusher ⟨e.c, q, m⟩ fields) (d : ℝ) (dtF : List ℝ) : Cfg ℝ F {Ψ : Ph → Ph // Good Ψ} where
  tFinal := e.length / e.c
  nBunch := 1
  nField := e.numFields.length
  nDiag := e.nOut
  dtBunch := fun _ => some d
  dtField := fun j => dtF.getD j 0
  autoDt := fun _ _ => 1
  pushBeforeDiags := e.pushBefore
  opmd := false
  f32 := e.f32
  evolve := fun Ψ _ t dt => ⟨stepOf e.pusher ⟨e.c, q, m⟩ fields t dt ∘ Ψ.1, hm.comp (hm.step t dt) Ψ.2⟩
  updateF := fun Ψ _ => Ψ

/-- The bunch `i` is the image of `b`. -/
def CarriedBy (i : ℕ) (b : Bunch) (w : World Φ) (Ψ : Ph → Ph) : Prop :=
  (w.bunch i).Fits ∧ (w.bunch i).n = b.n ∧ (w.bunch i).zInjection = none ∧ (w.bunch i).qSpecies = b.qSpecies ∧
  (w.bunch i).mSpecies = b.mSpecies ∧ ∀ p < b.n, (w.bunch i).ph p = Ψ (b.ph p)

theorem carriedBy_corr {e : Elem F Φ} {Good : (Ph → Ph) → Prop} {fields : List PField} {b : Bunch}
    (hm : StepClass Good e.pusher ⟨e.c, b.qSpecies, b.mSpecies⟩ fields) (hs : ∀ n, (e.sch n).Valid n)
    (hp : e.pusher = "rk4" ∨ e.pusher = "boris") (hf : ∀ φ, e.felt φ = fields) {d : ℝ} (opmd : Bool) (dtF : List ℝ) {N i : ℕ}
    (hi : i < N) :
    Corr (e.cfg opmd N (List.replicate N (some d)) dtF) (classCfg e hm d dtF) (fun _ => i)
      (fun w Ψ => CarriedBy i b w Ψ.1) (fun _ _ _ _ => True) (fun _ _ => True) := by
  have hd : (List.replicate N (some d)).getD i none = some d := by
    rw [List.getD_eq_getElem?_getD, List.getElem?_replicate, if_pos hi]
    rfl
  refine ⟨rfl, rfl, rfl, fun _ _ => rfl, rfl, rfl, fun _ _ => hi, fun a ha j hj => ?_, fun _ _ => hd.symm, ?_, ?_, ?_, ?_⟩
  · have : a < 1 := ha
    omega
  · intro k _ hn
    exact absurd (hd.symm.trans hn) (by simp)
  · rintro k - w Ψ t dt ⟨h1, h2, h3, h4, h5, h6⟩ -
    have ha : (w.bunch i).activeFields fields = .ok fields := by
      unfold Bunch.activeFields
      rw [h3]
    obtain ⟨b', e1, g1, -, g3, -, -, -, -, g5, g6, -, -, g7, g8⟩ :=
      evolve_spec e.c (w.bunch i) fields fields (hs _) t dt hp h1 ha
    have hb : ((e.cfg opmd N (List.replicate N (some d)) dtF).evolve w i t dt).bunch i = b' := by
      show Function.update w.bunch i _ i = b'
      rw [Function.update_self, hf, e1]
    show CarriedBy i b _ (stepOf e.pusher ⟨e.c, b.qSpecies, b.mSpecies⟩ fields t dt ∘ Ψ.1)
    unfold CarriedBy
    rw [hb]
    refine ⟨g8, g1.trans h2, g7.trans h3, g5.trans h4, g6.trans h5, fun p hpn => ?_⟩
    rw [g3, if_pos (h2 ▸ hpn), h6 p hpn]
    unfold Bunch.const
    rw [h4, h5]
    rfl
  · intro k hk hne w Ψ t dt h _
    have hki : i ≠ k := fun h => hne 0 (show 0 < 1 by omega) h
    have hb : ((e.cfg opmd N (List.replicate N (some d)) dtF).evolve w k t dt).bunch i = w.bunch i :=
      Function.update_of_ne hki _ _
    show CarriedBy i b _ Ψ.1
    unfold CarriedBy
    rw [hb]
    exact h
  · intro j hj w Ψ h _
    exact h

open Classical in
/-- The map after `j` outputs, if the tracking returns. -/
noncomputable def classMap (e : Elem F Φ) {Good : (Ph → Ph) → Prop} {fields : List PField} {q m : ℝ}
    (hm : StepClass Good e.pusher ⟨e.c, q, m⟩ fields) (d : ℝ) (dtF : List ℝ) (j : ℕ) : {Ψ : Ph → Ph // Good Ψ} :=
  if h : ∃ fuel s, doTracking (classCfg e hm d dtF) fuel ⟨id, hm.id⟩ = .returned s then
    h.choose_spec.choose.snaps.getD j ⟨id, hm.id⟩
  else ⟨id, hm.id⟩

/-- Given fields and steps: the bunches are moved by maps from any such class. -/
theorem tracked_by_class {e : Elem F Φ} {Good : (Ph → Ph) → Prop} {fields : List PField} {q m : ℝ}
    (hm : StepClass Good e.pusher ⟨e.c, q, m⟩ fields)
    (hs : ∀ n, (e.sch n).Valid n) (hp : e.pusher = "rk4" ∨ e.pusher = "boris") (hf : ∀ φ, e.felt φ = fields) {d : ℝ}
    (hd : e.dtBunch = .one (some d)) :
    ∃ Ψ : ℕ → Ph → Ph, (∀ j, Good (Ψ j)) ∧
      ∀ opmd fuel (bunches : OneOrMany Bunch) b0 φ (r : OneOrMany (List Bunch)) w, e.track opmd fuel bunches b0 φ = .returned (r, w) →
        ∃ ls : List (List Bunch), r = pack ls ∧ ls.length = bunches.toList.length ∧
          ∀ (i : ℕ) (b : Bunch), bunches.toList[i]? = some b → b.Fits → b.zInjection = none → b.qSpecies = q → b.mSpecies = m →
            ∃ l, ls[i]? = some l ∧ ∀ (j : ℕ) (b' : Bunch), l[j]? = some b' → b'.n = b.n ∧ ∀ p < b.n, b'.ph p = Ψ j (b.ph p) := by
  cases hF : e.dtFields with
  | none =>
    refine ⟨fun _ => id, fun _ => hm.id, fun opmd fuel bunches b0 φ r w hr => ?_⟩
    unfold Elem.track at hr
    dsimp only at hr
    cases hd : e.dtList bunches.toList.length with
    | none => rw [hd] at hr; cases hr
    | some dts => rw [hd] at hr; dsimp only at hr; rw [hF] at hr; cases hr
  | some dtF =>
  refine ⟨fun j => (classMap e hm d dtF j).1, fun j => (classMap e hm d dtF j).2, fun opmd fuel bunches b0 φ r w hr => ?_⟩
  unfold Elem.track at hr
  dsimp only at hr
  have hl : e.dtList bunches.toList.length = some (List.replicate bunches.toList.length (some d)) := by
    unfold Elem.dtList
    rw [hd]
  rw [hl] at hr
  dsimp only at hr
  rw [hF] at hr
  dsimp only at hr
  generalize bunches.toList = bs at hr ⊢
  cases ht : doTracking (e.cfg opmd bs.length (List.replicate bs.length (some d)) dtF) fuel (world bs b0 φ) with
  | raised x => rw [ht] at hr; cases x <;> cases hr
  | running => rw [ht] at hr; cases hr
  | returned st =>
  rw [ht] at hr
  dsimp only at hr
  injection hr with hr
  injection hr with hr1 hr2
  refine ⟨_, hr1.symm, by unfold bunchLists; rw [List.length_map, List.length_range], fun i b hib h1 h2 h3 h4 => ?_⟩
  have hi : i < bs.length := (List.getElem?_eq_some_iff.mp hib).1
  subst h3 h4
  have hb : (world bs b0 φ).bunch i = b := by
    show bs.getD i b0 = b
    rw [List.getD_eq_getElem?_getD, hib]
    rfl
  have h0 : CarriedBy i b (world bs b0 φ) id := by
    unfold CarriedBy
    rw [hb]
    exact ⟨h1, rfl, h2, rfl, rfl, fun _ _ => rfl⟩
  obtain ⟨s', g1, -, g3⟩ := corr_tracking (w' := ⟨id, hm.id⟩) (carriedBy_corr hm hs hp hf (d := d) opmd dtF hi) h0 ht
    ⟨fun _ _ _ _ _ _ _ => trivial, fun _ _ _ _ _ => trivial⟩
  refine ⟨st.snaps.map fun w => w.bunch i, ?_, fun j b' hj => ?_⟩
  · unfold bunchLists
    rw [List.getElem?_map, List.getElem?_range hi]
    rfl
  · rw [List.getElem?_map, Option.map_eq_some_iff] at hj
    obtain ⟨w', hw', rfl⟩ := hj
    obtain ⟨hj1, hj2⟩ := List.getElem?_eq_some_iff.mp hw'
    have hlen := g3.length_eq
    have hc := g3.get hj1 (hlen ▸ hj1)
    have hmap : classMap e hm d dtF j = s'.snaps[j]'(hlen ▸ hj1) := by
      have hex : ∃ fuel s, doTracking (classCfg e hm d dtF) fuel ⟨id, hm.id⟩ = .returned s := ⟨_, _, g1⟩
      unfold classMap
      rw [dif_pos hex, doTracking_unique hex.choose_spec.choose_spec g1, List.getD_eq_getElem?_getD,
        List.getElem?_eq_getElem (hlen ▸ hj1)]
      rfl
    rw [List.get_eq_getElem, List.get_eq_getElem, hj2] at hc
    show _ ∧ ∀ p < b.n, _ = (classMap e hm d dtF j).1 (b.ph p)
    rw [hmap]
    exact ⟨hc.2.1, hc.2.2.2.2.2⟩

/-- The moves of the Boris pusher are smooth in both directions. -/
theorem boris_class (n : WithTop ℕ∞) (k : Const) {fields : List PField} (hf : SmoothFields n fields) {pusher : String}
    (hp : pusher = "boris") : StepClass (Diffeo n) pusher k fields where
  id := ⟨SmoothMap.id, id, SmoothMap.id, fun _ => rfl, fun _ => rfl⟩
  comp := by
    rintro Φ Ψ ⟨h1, Φ', h2, h3, h4⟩ ⟨g1, Ψ', g2, g3, g4⟩
    refine ⟨h1.comp g1, Ψ' ∘ Φ', g2.comp h2, fun p => ?_, fun p => ?_⟩
    · simp only [Function.comp_apply, h3, g3]
    · simp only [Function.comp_apply, h4, g4]
  step t dt := by
    have e : stepOf pusher k fields t dt = borisStep k fields t dt := by
      funext p
      unfold stepOf
      rw [hp, if_neg (by decide)]
    have h1 := fun p => Volume.halfPush1_inv k dt p
    have h2 := fun p => Volume.kick_inv k fields (t + dt / 2) dt p
    have h1' := fun p => Volume.halfPush1_inv k (-dt) p
    have h2' := fun p => Volume.kick_inv k fields (t + dt / 2) (-dt) p
    rw [neg_neg] at h1' h2'
    rw [e]
    refine ⟨smoothMap_iff.mpr (smoothPh_phase.boris k hf t dt),
      fun p => halfPush1 k (-dt) (Volume.kick k fields (t + dt / 2) (-dt) (halfPush1 k (-dt) p)),
      smoothMap_iff.mpr (((smoothPh_phase.halfPush k (-dt)).kick k hf _ _).halfPush k (-dt)), fun p => ?_, fun p => ?_⟩
    · show halfPush1 k (-dt) (Volume.kick k fields (t + dt / 2) (-dt) (halfPush1 k (-dt)
        (halfPush1 k dt (Volume.kick k fields (t + dt / 2) dt (halfPush1 k dt p))))) = p
      rw [h1, h2, h1]
    · show halfPush1 k dt (Volume.kick k fields (t + dt / 2) dt (halfPush1 k dt
        (halfPush1 k (-dt) (Volume.kick k fields (t + dt / 2) (-dt) (halfPush1 k (-dt) p))))) = p
      rw [h1', h2', h1']

/-- The moves of both pushers are smooth. -/
theorem smooth_class (n : WithTop ℕ∞) (k : Const) {fields : List PField} (hf : SmoothFields n fields) (pusher : String) :
    StepClass (SmoothMap n) pusher k fields where
  id := SmoothMap.id
  comp h h' := h.comp h'
  step t dt := by
    by_cases hp : pusher = "rk4"
    · have e : stepOf pusher k fields t dt = classicalRK4 (motion k fields) t dt := by
        funext p
        unfold stepOf
        rw [if_pos hp]
      rw [e]
      exact smoothMap_iff.mpr (smoothPh_phase.rk4 k hf t dt)
    · have e : stepOf pusher k fields t dt = borisStep k fields t dt := by
        funext p
        unfold stepOf
        rw [if_neg hp]
      rw [e]
      exact smoothMap_iff.mpr (smoothPh_phase.boris k hf t dt)

/-- **C185** In an element with given fields and steps there is, for each output and species, one map of phase space by
which all particles of all bunches are moved, whatever the bunches are.  It has as many continuous
derivatives as the fields (none: it is continuous), for both pushers. -/
theorem smooth_dependence {e : Elem F Φ} {fields : List PField} {n : WithTop ℕ∞} (hm : SmoothFields n fields)
    (hs : ∀ n, (e.sch n).Valid n) (hp : e.pusher = "rk4" ∨ e.pusher = "boris") (hf : ∀ φ, e.felt φ = fields) {d : ℝ}
    (hd : e.dtBunch = .one (some d)) (q m : ℝ) :
    ∃ Ψ : ℕ → Ph → Ph, (∀ j, SmoothMap n (Ψ j)) ∧
      ∀ opmd fuel (bunches : OneOrMany Bunch) b0 φ (r : OneOrMany (List Bunch)) w, e.track opmd fuel bunches b0 φ = .returned (r, w) →
        ∃ ls : List (List Bunch), r = pack ls ∧ ls.length = bunches.toList.length ∧
          ∀ (i : ℕ) (b : Bunch), bunches.toList[i]? = some b → b.Fits → b.zInjection = none → b.qSpecies = q → b.mSpecies = m →
            ∃ l, ls[i]? = some l ∧ ∀ (j : ℕ) (b' : Bunch), l[j]? = some b' → b'.n = b.n ∧ ∀ p < b.n, b'.ph p = Ψ j (b.ph p) :=
  tracked_by_class (smooth_class n _ hm _) hs hp hf hd

/-- **C185** With the Boris pusher the map can be inverted, and the inverse is as smooth. -/
theorem boris_diffeo {e : Elem F Φ} {fields : List PField} {n : WithTop ℕ∞} (hm : SmoothFields n fields)
    (hs : ∀ n, (e.sch n).Valid n) (hp : e.pusher = "boris") (hf : ∀ φ, e.felt φ = fields) {d : ℝ}
    (hd : e.dtBunch = .one (some d)) (q m : ℝ) :
    ∃ Ψ : ℕ → Ph → Ph, (∀ j, Diffeo n (Ψ j)) ∧
      ∀ opmd fuel (bunches : OneOrMany Bunch) b0 φ (r : OneOrMany (List Bunch)) w, e.track opmd fuel bunches b0 φ = .returned (r, w) →
        ∃ ls : List (List Bunch), r = pack ls ∧ ls.length = bunches.toList.length ∧
          ∀ (i : ℕ) (b : Bunch), bunches.toList[i]? = some b → b.Fits → b.zInjection = none → b.qSpecies = q → b.mSpecies = m →
            ∃ l, ls[i]? = some l ∧ ∀ (j : ℕ) (b' : Bunch), l[j]? = some b' → b'.n = b.n ∧ ∀ p < b.n, b'.ph p = Ψ j (b.ph p) :=
  tracked_by_class (boris_class n _ hm hp) hs (Or.inr hp) hf hd

/-- Non-vacuous: a quadrupole and an adiabatic lens (smooth to every order, also real analytic), and the
tracking of bunches through them returns. -/
example (sch : ℕ → Sched) (hsch : ∀ n, (sch n).Valid n) (bunches : OneOrMany Bunch) (b0 : Bunch) :
    let fields : List PField := [fun _ x y xi v => (LibField.quadrupole 3).gather1 x y xi v,
      fun t x y xi v => (LibField.linearBTheta (1 / (1 + t ^ 2))).gather1 x y xi v]
    let e : Elem ℝ Unit := { demo sch with dtBunch := .one (some (3 / 10)), felt := fun _ => fields }
    SmoothFields ⊤ fields ∧ (∀ n, (e.sch n).Valid n) ∧ e.pusher = "boris" ∧ (∀ φ, e.felt φ = fields) ∧
      ∃ fuel r, e.track false fuel bunches b0 () = .returned r := by
  intro fields e
  refine ⟨smoothFields_of fun f hf => ?_, hsch, rfl, fun _ => rfl, ?_⟩
  · simp only [fields, List.mem_cons, List.not_mem_nil, or_false] at hf
    rcases hf with rfl | rfl
    · exact smooth_lib (fun _ => .quadrupole 3) fun _ => trivial
    · exact smooth_lib (fun t => .linearBTheta (1 / (1 + t ^ 2))) fun _ => trivial
  · have h := demo_ok sch
    refine track_returns (e := e) ⟨h.length, h.c, ?_, h.auto, h.fields, h.mono, h.sep⟩ strictMono_id
      (by norm_num [e, demo]) (δ := 1 / 5) (by norm_num) (fun b => ?_) bunches (fun l hl => by cases hl) false b0 ()
    · intro d hd
      simp [e, OneOrMany.toList] at hd
      rw [hd]
      norm_num
    · show 1 / 5 ≤ 1 / 5 + b.propDistance ^ 2
      nlinarith [sq_nonneg b.propDistance]

end WakeT.FieldElement
