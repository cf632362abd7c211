import Verif.Tracker.Lockstep
import Verif.Push.Scaled
import Verif.Stage.Macroparticles

/-! # Only the charge-to-mass ratio and the charge of the macroparticles matter (C182) -/

set_option linter.unusedSectionVars false

/-! ### Specification -/

namespace WakeT.Push

/-- Specification: the field `f'` is weaker than `f` by the factor `l`. -/
def FieldWeaker (l : ℝ) (f f' : PField) : Prop := ∀ t x y xi v, f' t x y xi (weaker l v) = weaker l (f t x y xi v)

end WakeT.Push

namespace WakeT.FieldElement

open Bunch

/-- Specification: the same particles, of a species whose ratio of charge to mass is larger by the factor `l`. -/
def Lighter (l : ℝ) (b b' : Bunch) : Prop :=
  b'.n = b.n ∧ (∀ i < b.n, b'.ph i = b.ph i) ∧ b'.propDistance = b.propDistance ∧ b'.zInjection = b.zInjection ∧
  b'.qSpecies / b'.mSpecies = l * (b.qSpecies / b.mSpecies)

/-- Specification: the same particles, with the same charges, of a species with the same ratio of charge to mass. -/
def SameRatio (b b' : Bunch) : Prop := Lighter 1 b b' ∧ ∀ i < b.n, b'.w i * b'.qSpecies = b.w i * b.qSpecies

end WakeT.FieldElement

/-! ### The pushers -/

namespace WakeT.Push

open Fields (EB)

variable {l : ℝ}

theorem felt_weaker {fs fs' : List PField} (h : List.Forall₂ (FieldWeaker l) fs fs') (t : ℝ) (p : Ph) :
    felt fs' t p = weaker l (felt fs t p) := by
  unfold felt
  have h0 : (⟨0, 0, 0, 0, 0, 0⟩ : EB ℝ) = weaker l ⟨0, 0, 0, 0, 0, 0⟩ := by
    unfold weaker
    simp
  have key : ∀ v : EB ℝ, fs'.foldl (fun v f => f t p.x p.y p.xi v) (weaker l v) =
      weaker l (fs.foldl (fun v f => f t p.x p.y p.xi v) v) := by
    induction h with
    | nil => intro v; rfl
    | cons hf _ ih =>
      intro v
      rw [List.foldl_cons, List.foldl_cons, hf, ih]
  rw [← key, ← h0]

theorem motion_lighter (hl : l ≠ 0) {k k' : Const} (hc : k'.c = k.c) (hq : k'.q / k'.m = l * (k.q / k.m)) {fs fs' : List PField}
    (h : List.Forall₂ (FieldWeaker l) fs fs') : motion k' fs' = motion k fs := by
  funext t p
  have hk : k'.q / (k'.m * k'.c) = l * (k.q / (k.m * k.c)) := by
    rw [← div_div, hq, hc, mul_div_assoc, div_div]
  unfold motion
  dsimp only
  rw [felt_weaker h, hk, hc]
  generalize k.q / (k.m * k.c) = a
  unfold weaker
  congr 1 <;> field_simp

theorem borisStep_lighter (hl : l ≠ 0) {k k' : Const} (hc : k'.c = k.c) (hq : k'.q / k'.m = l * (k.q / k.m)) {fs fs' : List PField}
    (h : List.Forall₂ (FieldWeaker l) fs fs') (t dt : ℝ) (p : Ph) : borisStep k' fs' t dt p = borisStep k fs t dt p := by
  have hk : k'.qmc = l * k.qmc := by
    unfold Const.qmc
    rw [← div_div, hq, hc, mul_div_assoc, div_div]
  have hh : ∀ p, halfPush1 k' dt p = halfPush1 k dt p := by
    intro p
    unfold halfPush1
    rw [hc]
  have hm : ∀ f p, pushMomentum1 k' dt (weaker l f) p = pushMomentum1 k dt f p := by
    intro f p
    have e : ∀ a : ℝ, l * k.qmc * dt / 2 * (a / l) = k.qmc * dt / 2 * a := fun a => by field_simp
    have e' : ∀ a b : ℝ, l * k.qmc * dt / 2 * b * (a / l) = k.qmc * dt / 2 * b * a := fun a b => by field_simp
    unfold pushMomentum1 weaker
    dsimp only
    rw [hk, hc]
    simp only [e, e']
  unfold borisStep
  dsimp only
  rw [hh, hh, felt_weaker h, hm]

end WakeT.Push

/-! ### Elements -/

namespace WakeT.FieldElement

open Tracker Bunch
open Push (PField Sched FieldWeaker)

variable {l : ℝ}

theorem evolve_lighter (hl : l ≠ 0) {b b' : Bunch} (h : Lighter l b b') (hf : b.Fits) (hf' : b'.Fits) (c : ℝ)
    {fields fields' : List PField} (hfl : List.Forall₂ (FieldWeaker l) fields fields') {sch sch' : Sched}
    (hs : sch.Valid b.n) (hs' : sch'.Valid b'.n) (t dt : ℝ) (pusher : String) :
    Lighter l (b.evolve c fields sch t dt pusher).1 (b'.evolve c fields' sch' t dt pusher).1 ∧
    (b.evolve c fields sch t dt pusher).1.Fits ∧ (b'.evolve c fields' sch' t dt pusher).1.Fits ∧
    (b.evolve c fields sch t dt pusher).1.w = b.w ∧ (b'.evolve c fields' sch' t dt pusher).1.w = b'.w ∧
    (b.evolve c fields sch t dt pusher).1.n = b.n ∧
    (b.evolve c fields sch t dt pusher).1.qSpecies = b.qSpecies ∧ (b'.evolve c fields' sch' t dt pusher).1.qSpecies = b'.qSpecies := by
  obtain ⟨h1, h2, h3, h4, h5⟩ := id h
  have hmax : amax b'.n (fun i => (b'.ph i).xi) = amax b.n fun i => (b.ph i).xi := by
    rw [h1]
    cases hn : b.n with
    | zero => rfl
    | succ n =>
      unfold amax
      dsimp only
      rw [h2 0 (by omega)]
      congr 1
      have : ∀ (L : List ℕ) (x : ℝ), (∀ i ∈ L, i < n) → L.foldl (fun m i => max m (b'.ph (i + 1)).xi) x =
          L.foldl (fun m i => max m (b.ph (i + 1)).xi) x := by
        intro L
        induction L with
        | nil => intro x _; rfl
        | cons i L ih =>
          intro x hL
          rw [List.foldl_cons, List.foldl_cons, h2 (i + 1) (by have := hL i List.mem_cons_self; omega)]
          exact ih _ fun j hj => hL j (List.mem_cons_of_mem _ hj)
      exact this _ _ fun i hi => List.mem_range.mp hi
  have ha : (∃ x, b.activeFields fields = .error x ∧ b'.activeFields fields' = .error x) ∨
      ∃ fs fs', b.activeFields fields = .ok fs ∧ b'.activeFields fields' = .ok fs' ∧ List.Forall₂ (FieldWeaker l) fs fs' := by
    unfold Bunch.activeFields
    rw [h4, h3, hmax]
    cases b.zInjection with
    | none => exact Or.inr ⟨_, _, rfl, rfl, hfl⟩
    | some z =>
      cases amax b.n (fun i => (b.ph i).xi) with
      | none => exact Or.inl ⟨_, rfl, rfl⟩
      | some m =>
        refine Or.inr ⟨_, _, rfl, rfl, ?_⟩
        split_ifs
        · exact .nil
        · exact hfl
  rcases ha with ⟨x, hb, hb'⟩ | ⟨fs, fs', hb, hb', hfs⟩
  · rw [evolve_error c b fields sch t dt pusher hb, evolve_error c b' fields' sch' t dt pusher hb']
    exact ⟨h, hf, hf', rfl, rfl, rfl, rfl, rfl⟩
  · by_cases hp : pusher = "rk4" ∨ pusher = "boris"
    · obtain ⟨r, e1, g1, g2, g3, g4, -, -, g5, g6, g7, -, -, g8, g9⟩ := evolve_spec c b fields fs hs t dt hp hf hb
      obtain ⟨r', e1', g1', g2', g3', g4', -, -, g5', g6', g7', -, -, g8', g9'⟩ :=
        evolve_spec c b' fields' fs' hs' t dt hp hf' hb'
      rw [e1, e1']
      refine ⟨⟨by rw [g1', g1, h1], fun i hi => ?_, by rw [g4', g4, h3], by rw [g8', g8, h4], by rw [g6', g6, g7', g7, h5]⟩,
        g9, g9', g2, g2', g1, g6, g6'⟩
      dsimp only at hi ⊢
      rw [g1] at hi
      rw [g3, g3', if_pos hi, if_pos (h1.symm ▸ hi), h2 i hi]
      unfold stepOf
      split_ifs
      · rw [Push.motion_lighter hl (k := b.const c) (k' := b'.const c) rfl h5 hfs]
      · exact Push.borisStep_lighter hl (k := b.const c) (k' := b'.const c) rfl h5 hfs _ _ _
    · rw [evolve_unknown c b fields fs sch t dt hp hb, evolve_unknown c b' fields' fs' sch' t dt hp hb']
      exact ⟨h, hf, hf', rfl, rfl, rfl, rfl, rfl⟩

theorem forall₂_and {α : Type} {R : α → α → Prop} {P : α → Prop} {m m' : List α} (h : List.Forall₂ R m m') (hp : ∀ a ∈ m ++ m', P a) :
    List.Forall₂ (fun a a' => R a a' ∧ P a ∧ P a') m m' := by
  induction h with
  | nil => exact .nil
  | @cons x y xs ys hx _ ih =>
    refine .cons ⟨hx, hp _ (by simp), hp _ (by simp)⟩ (ih fun b hb => hp b ?_)
    rcases List.mem_append.mp hb with hb | hb <;> simp [hb]

theorem OutRel.imp {B B' : Bunch → Bunch → Prop} (h : ∀ b b', B b b' → B' b b') {r r' : OneOrMany (List Bunch)} (hr : OutRel B r r') :
    OutRel B' r r' := by
  cases r with
  | one m =>
    cases r' with
    | one m' => exact List.Forall₂.imp h hr
    | many m' => exact hr.elim
  | many m =>
    cases r' with
    | one m' => exact hr.elim
    | many m' => exact List.Forall₂.imp (fun _ _ => List.Forall₂.imp h) hr

variable {F Φ : Type} [LinearOrder F]

/-- **C182, given fields.** In elements whose fields do not depend on the bunches, a species with a charge-to-mass ratio larger by
the factor `l`, possibly negative, in fields weaker by the same factor, moves along the same trajectories. -/
theorem track_lighter (hl : l ≠ 0) {e e' : Elem F Φ} {fs fs' : List PField} (hfs : List.Forall₂ (FieldWeaker l) fs fs')
    (hfelt : ∀ φ, e.felt φ = fs ∧ e'.felt φ = fs') (hup : ∀ bs φ j, e.update bs φ j = φ ∧ e'.update bs φ j = φ)
    (hauto : ∀ b b', Lighter l b b' → e'.autoDt b' = e.autoDt b) (hsch : ∀ n, (e.sch n).Valid n ∧ (e'.sch n).Valid n)
    (hsame : e'.length = e.length ∧ e'.dtBunch = e.dtBunch ∧ e'.nOut = e.nOut ∧ e'.numFields = e.numFields ∧
      e'.pushBefore = e.pushBefore ∧ e'.c = e.c ∧ e'.pusher = e.pusher ∧ e'.f32 = e.f32) (opmd : Bool) (fuel : ℕ)
    {bs bs' : OneOrMany Bunch} (hb : List.Forall₂ (Lighter l) bs.toList bs'.toList) (hf : ∀ b ∈ bs.toList ++ bs'.toList, b.Fits)
    (b0 b0' : Bunch) (φ : Φ) {r : OneOrMany (List Bunch)} {w : World Φ} (hr : e.track opmd fuel bs b0 φ = .returned (r, w)) :
    ∃ r' w', e'.track opmd fuel bs' b0' φ = .returned (r', w') ∧ OutRel (Lighter l) r r' := by
  obtain ⟨s1, s2, s3, s4, s5, s6, s7, s8⟩ := hsame
  have hstep : e.Lockstep e' (fun b b' => Lighter l b b' ∧ b.Fits ∧ b'.Fits) Eq := {
    length := s1
    dtBunch := s2
    nOut := s3
    numFields := s4
    autoDt := fun b b' h => hauto b b' h.1
    pushBefore := s5
    c := s6
    push := by
      rintro φ φ' b b' t dt rfl ⟨h1, h2, h3⟩
      rw [s6, s7, (hfelt φ).1, (hfelt φ).2]
      obtain ⟨g1, g2, g3, -⟩ := evolve_lighter hl h1 h2 h3 e.c hfs (hsch b.n).1 (hsch b'.n).2 t dt e.pusher
      exact ⟨g1, g2, g3⟩
    update := by
      rintro bs bs' φ φ' j - rfl
      rw [(hup bs φ j).1, (hup bs' φ j).2]
    f32 := s8 }
  obtain ⟨r', w', g1, g2, -⟩ := track_lockstep hstep opmd fuel (forall₂_and hb hf) b0 b0' (φ := φ) rfl hr
  exact ⟨r', w', g1, g2.imp fun _ _ h => h.1⟩

end WakeT.FieldElement

/-! ### Plasma stages -/

namespace WakeT.Stage

open Bunch FieldElement Laser Tracker
open Push (PField Sched Ph FieldWeaker)
open Fields (NumField)

theorem minGamma_ratio {l : ℝ} {b b' : Bunch} (h : Lighter l b b') : minGamma b' = minGamma b := by
  unfold minGamma
  rw [h.1]
  congr 2
  refine List.map_congr_left fun i hi => ?_
  rw [h.2.1 i (List.mem_range.mp hi)]

theorem stageDt_ratio {b b' : Bunch} (h : Lighter 1 b b') (k : Const) (density : ℝ → ℝ) (length : ℝ) :
    stageDt k density length b' = stageDt k density length b := by
  unfold stageDt
  rw [minGamma_ratio h, h.2.2.2.2, one_mul]

theorem sameCharge_ratio {m m' : List Bunch} (h : List.Forall₂ SameRatio m m') : SameCharge m m' := by
  intro G
  induction h with
  | nil => rfl
  | @cons b b' _ _ hb _ ih =>
    rw [List.map_cons, List.map_cons, List.sum_cons, List.sum_cons, ih, hb.1.1]
    congr 1
    refine Finset.sum_congr rfl fun i hi => ?_
    have hi := Finset.mem_range.mp hi
    unfold Bunch.q
    rw [hb.2 i hi, hb.1.2.1 i hi]

theorem weaker_one (f : PField) : FieldWeaker 1 f f := by
  intro t x y xi v
  have : ∀ v, Push.weaker 1 v = v := fun v => by
    unfold Push.weaker
    simp only [div_one]
  rw [this, this]

variable {F : Type} [LinearOrder F]

/-- **C182, plasma stages.** If every bunch is replaced by one of another species with the same charge-to-mass ratio, whose
macroparticles have the same phase-space coordinates and charges, then the outputs have the same coordinates and charges, and the
wakefields are the same. -/
theorem stage_ratio {p : PStage F} (hw : p.wake.Kinetic) (hsch : ∀ n, (p.sch n).Valid n)
    (hA : ∃ a : Dt → ℝ, ∀ b, p.autoDt b = a (stageDt p.wake.k p.wake.density p.length b)) (opmd : Bool) (fuel : ℕ)
    {bs bs' : OneOrMany Bunch} (hb : List.Forall₂ SameRatio bs.toList bs'.toList) (hf : ∀ b ∈ bs.toList ++ bs'.toList, b.Fits)
    (b0 b0' : Bunch) {r : OneOrMany (List Bunch)} {w : World (NumField ℝ (Option Props))}
    (hr : p.track opmd fuel bs b0 = .returned (r, w)) :
    ∃ r' w', p.track opmd fuel bs' b0' = .returned (r', w') ∧ OutRel SameRatio r r' ∧ w'.flds = w.flds := by
  obtain ⟨a, hA⟩ := hA
  have hstep : p.elem.Lockstep p.elem (fun b b' => SameRatio b b' ∧ b.Fits ∧ b'.Fits) Eq := {
    length := rfl
    dtBunch := rfl
    nOut := rfl
    numFields := rfl
    autoDt := by
      rintro b b' ⟨h, -, -⟩
      show p.autoDt b' = p.autoDt b
      rw [hA, hA, stageDt_ratio h.1]
    pushBefore := rfl
    c := rfl
    push := by
      rintro φ φ' b b' t dt rfl ⟨h1, h2, h3⟩
      obtain ⟨g1, g2, g3, g4, g5, g6, g7, g8⟩ := evolve_lighter one_ne_zero h1.1 h2 h3 p.elem.c (fields := p.elem.felt φ)
        (List.forall₂_same.mpr fun f _ => weaker_one f) (hsch b.n) (hsch b'.n) t dt p.elem.pusher
      refine ⟨⟨g1, fun i hi => ?_⟩, g2, g3⟩
      have hi : i < b.n := lt_of_lt_of_eq hi g6
      have := h1.2 i hi
      rw [← g4, ← g5, ← g7, ← g8] at this
      exact this
    update := by
      rintro m m' φ φ' j hm rfl
      exact (elem_kinetic hw (sameCharge_ratio (hm.imp fun _ _ h => h.1)) φ j).symm
    f32 := rfl }
  unfold PStage.track at hr ⊢
  cases hd : p.wake.dtUpdate p.length with
  | none => rw [hd] at hr; cases hr
  | some dt =>
    rw [hd] at hr
    obtain ⟨r', w', g1, g2, g3⟩ := track_lockstep hstep opmd fuel (forall₂_and hb hf) b0 b0' (φ := Wake.start dt) rfl hr
    exact ⟨r', w', g1, g2.imp fun _ _ h => h.1, g3.symm⟩

/-- The automatic steps of quadrupoles and plasma lenses agree. -/
theorem quadDt_lighter {l : ℝ} (hl : l ≠ 0) {b b' : Bunch} (h : Lighter l b b') (k : Const) (foc : ℝ) :
    quadDt k (foc / l) b' = quadDt k foc b := by
  unfold quadDt
  rw [minGamma_ratio h, h.2.2.2.2]
  generalize b.qSpecies / b.mSpecies = a
  have : l * a * k.c * (foc / l) = a * k.c * foc := by field_simp
  rw [this]

/-! ### Instances -/

/-- A quadrupole with the gradient `g`. -/
noncomputable def lensOf (sch : ℕ → Sched) (g : ℝ) : Elem ℝ Unit :=
  { FieldElement.demo sch with
    felt := fun _ => [fun _ x y xi v => (Fields.LibField.quadrupole g).gather1 x y xi v]
    autoDt := fun b => match quadDt ⟨1, 1, 1, 1⟩ g b with
      | .finite d => 1 / 5 + d ^ 2
      | _ => 1 }

/-- Electrons in a quadrupole, and positrons at the same places in the reversed quadrupole. -/
example (sch : ℕ → Sched) (hsch : ∀ n, (sch n).Valid n) (g : ℝ) (b b' : Bunch) (hq : b'.qSpecies = -b.qSpecies)
    (hb : b' = { b with qSpecies := b'.qSpecies }) (hf : b.Fits) :
    ∃ fuel r r' w w', (lensOf sch g).track false fuel (.many [b, b]) b () = .returned (r, w) ∧
      (lensOf sch (-g)).track false fuel (.many [b', b']) b' () = .returned (r', w') ∧ OutRel (Lighter (-1)) r r' := by
  have hL : Lighter (-1) b b' := by
    rw [hb, hq]
    refine ⟨rfl, fun i _ => rfl, rfl, rfl, ?_⟩
    show -b.qSpecies / b.mSpecies = -1 * (b.qSpecies / b.mSpecies)
    rw [neg_div, neg_one_mul]
  have hf' : b'.Fits := by
    rw [hb]
    exact hf
  have hpos : ∀ c, 1 / 5 ≤ (lensOf sch g).autoDt c := by
    intro c
    unfold lensOf
    dsimp only
    split
    · exact le_add_of_nonneg_right (sq_nonneg _)
    · norm_num
  have hok : (lensOf sch g).Ok :=
    ⟨(FieldElement.demo_ok sch).length, (FieldElement.demo_ok sch).c, (FieldElement.demo_ok sch).steps,
      fun c => lt_of_lt_of_le (by norm_num) (hpos c), (FieldElement.demo_ok sch).fields, (FieldElement.demo_ok sch).mono,
      (FieldElement.demo_ok sch).sep⟩
  obtain ⟨fuel, ⟨r, w⟩, hr⟩ := track_returns hok strictMono_id (by norm_num [lensOf, FieldElement.demo]) (δ := 1 / 5) (by norm_num)
    hpos (.many [b, b]) (by intro l hl; cases hl; rfl) false b ()
  obtain ⟨r', w', g1, g2⟩ := track_lighter (l := -1) (by norm_num) (e := lensOf sch g) (e' := lensOf sch (-g)) (.cons (by
      intro t x y xi v
      unfold Push.weaker Fields.LibField.gather1
      dsimp only
      congr 1 <;> ring) .nil) (fun _ => ⟨rfl, rfl⟩) (fun _ _ _ => ⟨rfl, rfl⟩) (by
      intro c c' h
      unfold lensOf
      dsimp only
      rw [show -g = g / -1 by rw [div_neg, div_one], quadDt_lighter (by norm_num) h])
    (fun n => ⟨hsch n, hsch n⟩) ⟨rfl, rfl, rfl, rfl, rfl, rfl, rfl, rfl⟩ false fuel (bs := .many [b, b]) (bs' := .many [b', b'])
    (.cons hL (.cons hL .nil)) (by
      intro c hc
      have : c = b ∨ c = b' := by simpa [OneOrMany.toList] using hc
      rcases this with rfl | rfl
      · exact hf
      · exact hf') b b' () hr
  exact ⟨fuel, r, r', w, w', hr, g1, g2⟩

/-- The particles of `b` as particles of twice the charge and twice the mass. -/
noncomputable def doubled (b : Bunch) : Bunch :=
  { b with qSpecies := 2 * b.qSpecies, mSpecies := 2 * b.mSpecies, w := fun i => b.w i / 2 }

theorem doubled_ratio (b : Bunch) : SameRatio b (doubled b) := by
  refine ⟨⟨rfl, fun i _ => rfl, rfl, rfl, ?_⟩, fun i _ => ?_⟩
  · show 2 * b.qSpecies / (2 * b.mSpecies) = 1 * (b.qSpecies / b.mSpecies)
    rw [one_mul, mul_div_mul_left _ _ two_ne_zero]
  · show b.w i / 2 * (2 * b.qSpecies) = b.w i * b.qSpecies
    ring

/-- A bunch in a plasma with a laser. -/
example (sch : ℕ → Sched) (hsch : ∀ n, (sch n).Valid n) (b : Bunch) (hf : b.Fits) :
    ∃ fuel r r' x y, (demoStage true sch).track false fuel (.one b) b = .returned (r, x) ∧
      (demoStage true sch).track false fuel (.one (doubled b)) b = .returned (r', y) ∧ OutRel SameRatio r r' ∧ y.flds = x.flds := by
  obtain ⟨fuel, ⟨r, x⟩, hr⟩ := demo_returns true sch (.one b) b
  have hkin : (demoStage true sch).wake.Kinetic := quasi_kinetic _ _ _ (.inl rfl) rfl
  obtain ⟨r', y, g1, g2, g3⟩ := stage_ratio (p := demoStage true sch) hkin hsch
    ⟨fun d => match d with | .finite d => 1 / 5 + d ^ 2 | _ => 1, fun b => rfl⟩ false fuel (bs := .one b) (bs' := .one (doubled b))
    (.cons (doubled_ratio b) .nil) (by
      intro c hc
      have : c = b ∨ c = doubled b := by simpa [OneOrMany.toList] using hc
      rcases this with rfl | rfl
      · exact hf
      · exact hf) b b hr
  exact ⟨fuel, r, r', x, y, hr, g1, g2, g3⟩

end WakeT.Stage
