import Verif.Tracker.Regroup
import Verif.Stage.Charge
import Verif.Stage.Causal

/-! # Plasma stages do not depend on how particles are grouped into bunches (C156) -/

set_option linter.unusedSectionVars false

namespace WakeT.Stage

open Bunch FieldElement Laser Tracker
open Plasma (QS)
open Plasma.QS (Fld)
open Push (PField Sched Ph)
open Fields (NumField FieldOps)
open Deposition (Grid depositShape)

/-! ### The beams of the plasma models -/

/-- Something that adds up over the particles, and is zero for those without charge. -/
theorem sum_charged (g : Ph × ℝ → ℝ) (hg : ∀ x, g (x, 0) = 0) (l : List Bunch) :
    (l.map fun b => ((List.range b.n).map fun i => g (b.ph i, b.q i)).sum).sum = ((charged l).map g).sum := by
  classical
  induction l with
  | nil => rfl
  | cons b l ih =>
    unfold charged at ih ⊢
    rw [List.map_cons, List.sum_cons, ih, List.flatMap_cons, List.map_append, List.sum_append]
    congr 1
    generalize List.range b.n = r
    induction r with
    | nil => rfl
    | cons i r ih2 =>
      rw [List.map_cons, List.sum_cons, ih2, List.map_cons, List.filter_cons]
      by_cases h : b.q i = 0
      · rw [if_neg (by simpa using h), h, hg, zero_add]
      · rw [if_pos (by simpa using h), List.map_cons, List.sum_cons]

/-- The array of all bunches depends on the charged particles only. -/
theorem deposit_charged (sh : Deposition.Shape) (g : Grid ℝ) (s f : ℝ) {l l' : List Bunch} (h : (charged l).Perm (charged l')) (i j : ℤ) :
    (l'.map fun b => depositShape sh true g (partsOf s f b) (fun _ _ => 0) i j).sum =
      (l.map fun b => depositShape sh true g (partsOf s f b) (fun _ _ => 0) i j).sum := by
  have key : ∀ l : List Bunch, (l.map fun b => depositShape sh true g (partsOf s f b) (fun _ _ => 0) i j).sum =
      ((charged l).map fun x => Deposition.effect (Deposition.writes sh true g
        ⟨x.1.xi / s, √((x.1.x / s) ^ 2 + (x.1.y / s) ^ 2), x.2 * f⟩) i j).sum := by
    intro l
    rw [← sum_charged (fun x => Deposition.effect (Deposition.writes sh true g
        ⟨x.1.xi / s, √((x.1.x / s) ^ 2 + (x.1.y / s) ^ 2), x.2 * f⟩) i j)
      (fun x => by dsimp only; rw [mul_comm, effect_weight, mul_zero])]
    congr 1
    refine List.map_congr_left fun b _ => ?_
    rw [Deposition.depositShape_apply, zero_add]
    unfold partsOf
    rw [List.map_map]
    rfl
  rw [key, key]
  exact (h.symm.map _).sum_eq

/-- Specification: the wakefield depends on the bunches only through their charged particles. -/
def Wake.Collective (w : Wake) : Prop := ∀ t np env f (l l' : List Bunch), (charged l).Perm (charged l') →
  w.solve t np env l' f = w.solve t np env l f

theorem elem_collective {F : Type} {p : PStage F} (h : p.wake.Collective) : p.elem.Collective := by
  intro l l' hl φ j
  show (if j = 0 then φ.update (p.wake.ops φ.dt) l' else φ) = if j = 0 then φ.update (p.wake.ops φ.dt) l else φ
  have hc : ∀ t s, p.wake.calculateProps t l' s = p.wake.calculateProps t l s := by
    intro t s
    unfold Wake.calculateProps
    dsimp only
    rw [h _ _ _ _ l l' hl]
  have : φ.update (p.wake.ops φ.dt) l' = φ.update (p.wake.ops φ.dt) l := by
    unfold NumField.update Wake.ops
    dsimp only
    simp only [hc]
  rw [this]

/-- The quasistatic model. -/
theorem quasi_collective (w : Wake) (a : Plasma1) (q : QArgs) (hs : q.pShape = "linear" ∨ q.pShape = "cubic")
    (hw : w.solve = w.quasiCalc a q) : w.Collective := by
  intro t np env f l l' h
  rw [hw]
  unfold Wake.quasiCalc
  dsimp only
  generalize a.skinDepth (np / 1e6) = s
  set c := w.quasi q s (q.parabolic (t * w.k.c)) with hc
  generalize 1 / w.k.e / (2 * Real.pi * c.dr * c.dxi * s ^ 3 * np) = m
  have hsh : ∃ sh, Deposition.parseShape c.pShape = some sh := by
    rcases hs with h | h
    · exact ⟨.linear, by show Deposition.parseShape q.pShape = _; simp [Deposition.parseShape, h]⟩
    · exact ⟨.cubic, by show Deposition.parseShape q.pShape = _; simp [Deposition.parseShape, h]⟩
  obtain ⟨sh, hsh⟩ := hsh
  have : c.beamField (l'.map (partsOf s m)) = c.beamField (l.map (partsOf s m)) := by
    rw [QS.beamField_eq hsh, QS.beamField_eq hsh]
    have hd : depositShape sh true c.grid (l'.map (partsOf s m)).flatten (fun _ _ => 0) =
        depositShape sh true c.grid (l.map (partsOf s m)).flatten fun _ _ => 0 := by
      funext i j
      rw [deposit_flatten, deposit_flatten, List.map_map, List.map_map]
      exact deposit_charged sh c.grid s m h i j
    unfold Plasma.calculateBeamSource
    rw [hd]
  unfold QS.calculate
  rw [this]

/-- The cold fluid model. -/
theorem cold_collective (w : Wake) (a : Plasma1) (bw : Bool) (shape : String) (hs : shape = "linear" ∨ shape = "cubic")
    (hw : w.solve = w.coldCalc a bw shape) : w.Collective := by
  intro t np env f l l' h
  rw [hw]
  unfold Wake.coldCalc
  dsimp only
  have hsh : ∃ sh, Deposition.parseShape shape = some sh := by
    rcases hs with h | h
    · exact ⟨.linear, by simp [Deposition.parseShape, h]⟩
    · exact ⟨.cubic, by simp [Deposition.parseShape, h]⟩
  obtain ⟨sh, hsh⟩ := hsh
  have key : ∀ (s : ℝ) (l : List Bunch), w.beamHist shape s np l = some fun i k : ℕ =>
      (l.map fun b => depositShape sh true (w.gridIn s) (partsOf s (1 / w.k.e) b) (fun _ _ => 0) ((i : ℤ) + 2) ((k : ℤ) + 2)).sum *
        (1 / (Real.pi * (w.rMax / w.nR / s) ^ 2 * (1 + 2 * (k : ℝ)) * ((w.xiMax - w.xiMin) / ((w.nXi : ℝ) - 1) / s) * np) / s ^ 3) := by
    intro s l
    cases l with
    | nil => simp [Wake.beamHist]
    | cons b l =>
      unfold Wake.beamHist
      dsimp only
      rw [hsh, Option.map_some]
      congr 1
      funext i k
      rw [fold_deposit, zero_add]
      rfl
  rw [key, key]
  simp only [deposit_charged sh (w.gridIn _) _ _ h]

/-! ### Stages -/

variable {F : Type} [LinearOrder F]

/-- The same stage with other time steps of the bunches (plasma_stage.py 100-116). -/
def PStage.withSteps (p : PStage F) (d : OneOrMany (Option ℝ)) : PStage F := { p with dtBunch := d }

/-- Specification: the time steps of `n` bunches, if there is one for each bunch. -/
def stepsOf (d : OneOrMany (Option ℝ)) (n : ℕ) (l : List (Option ℝ)) : Prop :=
  match d with
  | .one x => l = List.replicate n x
  | .many l' => l = l' ∧ l.length = n

theorem stepsOf_dtList {Φ : Type} (e : Elem F Φ) {d : OneOrMany (Option ℝ)} {n : ℕ} {l : List (Option ℝ)} (h : stepsOf d n l)
    (he : e.dtBunch = d) : e.dtList n = some l := by
  unfold Elem.dtList
  rw [he]
  cases d with
  | one x => exact congrArg some (show l = _ from h).symm
  | many l' =>
    obtain ⟨h1, h2⟩ := h
    subst h1
    exact if_neg (not_not.mpr h2)

/-- **C156.** The order of the bunches in a plasma stage is irrelevant: changing it, together with
that of their time steps (which may be adaptive), changes the order of the results only. -/
theorem stage_reordered {p : PStage F} (hw : p.wake.Collective) (hn : 0 < p.nOut) {σ : ℕ → ℕ} {bs bs' : OneOrMany Bunch}
    (hσ : Shuffle σ bs.toList.length) (hb : Reordered σ bs.toList bs'.toList) {d' : OneOrMany (Option ℝ)} {dts dts' : List (Option ℝ)}
    (hd : stepsOf p.dtBunch bs.toList.length dts) (hd' : stepsOf d' bs'.toList.length dts') (hdd : Reordered σ dts dts')
    {opmd : Bool} {fuel : ℕ} {b0 : Bunch} {r : OneOrMany (List Bunch)} {w : World (NumField ℝ (Option Props))}
    (hr : p.track opmd fuel bs b0 = .returned (r, w)) :
    ∃ fuel' ls ls' w', r = pack ls ∧ (p.withSteps d').track opmd fuel' bs' b0 = .returned (pack ls', w') ∧
      ls.length = bs.toList.length ∧ Reordered σ ls ls' ∧ w'.flds = w.flds := by
  unfold PStage.track at hr ⊢
  rw [show (p.withSteps d').wake.dtUpdate (p.withSteps d').length = p.wake.dtUpdate p.length from rfl]
  cases hdt : p.wake.dtUpdate p.length with
  | none => rw [hdt] at hr; cases hr
  | some dt =>
    rw [hdt] at hr
    exact track_reordered (elem_collective hw).unordered hn hσ hb (d' := d') (stepsOf_dtList p.elem hd rfl)
      (stepsOf_dtList _ hd' rfl) hdd hr

/-- **C156.** How the charged particles are grouped into bunches is irrelevant, if each of them keeps its (fixed) time
step: neither their motion nor the wakefields change.  Particles and bunches without charge may be left out. -/
theorem stage_regrouped {p : PStage F} (hw : p.wake.Collective) (hsch : ∀ n, (p.sch n).Valid n) (hn : 0 < p.nOut) {κ : ℕ → ℕ}
    {ι : ℕ → ℕ → ℕ} {bs bs' : OneOrMany Bunch} (hb : SameParticles κ ι bs.toList bs'.toList)
    (hz : ∀ b ∈ bs.toList, b.zInjection = none ∧ b.Fits) (hz' : ∀ b ∈ bs'.toList, b.zInjection = none ∧ b.Fits)
    {d' : OneOrMany (Option ℝ)} {dts dts' : List (Option ℝ)} (hd : stepsOf p.dtBunch bs.toList.length dts)
    (hd' : stepsOf d' bs'.toList.length dts')
    (hdd : ∀ k < bs'.toList.length, ∃ d, dts[κ k]? = some (some d) ∧ dts'[k]? = some (some d))
    {opmd : Bool} {fuel : ℕ} {b0 : Bunch} {r : OneOrMany (List Bunch)} {w : World (NumField ℝ (Option Props))}
    (hr : p.track opmd fuel bs b0 = .returned (r, w)) :
    ∃ fuel' ls ls' w', r = pack ls ∧ (p.withSteps d').track opmd fuel' bs' b0 = .returned (pack ls', w') ∧
      ls.length = bs.toList.length ∧ ls'.length = bs'.toList.length ∧ w'.flds = w.flds ∧
      ∀ k < bs'.toList.length, List.Forall₂ (PartOf (ι k)) (ls.getD (κ k) []) (ls'.getD k []) := by
  unfold PStage.track at hr ⊢
  rw [show (p.withSteps d').wake.dtUpdate (p.withSteps d').length = p.wake.dtUpdate p.length from rfl]
  cases hdt : p.wake.dtUpdate p.length with
  | none => rw [hdt] at hr; cases hr
  | some dt =>
    rw [hdt] at hr
    exact track_regrouped (elem_collective hw) hsch hn hb hz hz' (d' := d') (stepsOf_dtList p.elem hd rfl)
      (stepsOf_dtList _ hd' rfl) hdd hr

/-! ### Instances -/

theorem demo2_collective : demoWake2.Collective := quasi_collective _ _ _ (.inl rfl) rfl

/-- A driver and a witness in the other order. -/
example (sch : ℕ → Sched) (d w : Bunch) : ∃ fuel fuel' a b x y,
    (demoStage2 sch).track false fuel (.many [d, w]) d = .returned (.many [a, b], x) ∧
    ((demoStage2 sch).withSteps (.many [none, some (3 / 10)])).track false fuel' (.many [w, d]) d = .returned (.many [b, a], y) := by
  obtain ⟨fuel, ⟨r, x⟩, hr⟩ : ∃ fuel r, (demoStage2 sch).track false fuel (.many [d, w]) d = .returned r := by
    unfold PStage.track
    have : (demoStage2 sch).wake.dtUpdate (demoStage2 sch).length = some (3 / 5 / 1) := rfl
    rw [this]
    exact track_returns (demo2_ok sch) strictMono_id (by norm_num [PStage.elem, demoStage2]) (δ := 1 / 5) (by norm_num)
      (fun b => by show (1 / 5 : ℝ) ≤ 1 / 5 + b.propDistance ^ 2; nlinarith [sq_nonneg b.propDistance])
      _ (by intro l hl; cases hl; rfl) false d _
  have two : ∀ k < 2, k = 0 ∨ k = 1 := fun k hk => by omega
  have hn : 0 < (demoStage2 sch).nOut := Nat.succ_pos 1
  have hσ : Shuffle (fun k => 1 - k) 2 := ⟨fun k _ => by omega, fun k _ k' _ h => by omega⟩
  have hb : Reordered (fun k => 1 - k) [d, w] [w, d] := ⟨rfl, fun k hk => by rcases two k hk with rfl | rfl <;> rfl⟩
  have hs : Reordered (fun k => 1 - k) [some (3 / 10 : ℝ), none] [none, some (3 / 10)] :=
    ⟨rfl, fun k hk => by rcases two k hk with rfl | rfl <;> rfl⟩
  obtain ⟨fuel', ls, ls', y, h1, h2, h3, h4, -⟩ := stage_reordered (p := demoStage2 sch) demo2_collective hn
    (bs := .many [d, w]) (bs' := .many [w, d]) hσ hb (d' := .many [none, some (3 / 10)]) ⟨rfl, rfl⟩ ⟨rfl, rfl⟩ hs hr
  obtain ⟨a, b, rfl⟩ := List.length_eq_two.mp h3
  obtain ⟨b', a', rfl⟩ := List.length_eq_two.mp (h4.length.trans h3)
  have e1 : b' = b := Option.some.inj (h4.get 0 Nat.two_pos)
  have e2 : a' = a := Option.some.inj (h4.get 1 Nat.one_lt_two)
  subst e1 e2
  exact ⟨fuel, fuel', a', b', x, y, by rw [hr, h1]; rfl, h2⟩

/-- The first stage of the examples, with a fixed time step. -/
noncomputable def demoFixed (sch : ℕ → Sched) : PStage ℝ := { demoStage true sch with dtBunch := .one (some (3 / 10)) }

/-- The particles with index `i` of a bunch alone. -/
def single (b : Bunch) (i : ℕ) : Bunch := { b with n := 1, ph := fun _ => b.ph i, w := fun _ => b.w i }

/-- A bunch of three particles, of which the second one has no charge, in a plasma with a laser: the others
are tracked in the same way in two bunches. -/
example (sch : ℕ → Sched) (hsch : ∀ n, (sch n).Valid n) (b : Bunch) (hb : b.n = 3) (h1 : b.w 1 = 0)
    (hz : b.zInjection = none) (hf : b.fieldArrays = none ∧ b.rk4Arrays = none) :
    ∃ fuel fuel' l l0 l2 x y, (demoFixed sch).track false fuel (.one b) b = .returned (.one l, x) ∧
      (demoFixed sch).track false fuel' (.many [single b 2, single b 0]) b = .returned (.many [l2, l0], y) ∧
      List.Forall₂ (PartOf fun _ => 0) l l0 ∧ List.Forall₂ (PartOf fun _ => 2) l l2 := by
  have hok : (demoFixed sch).elem.Ok := by
    have h := demo_ok true sch
    refine ⟨h.length, h.c, ?_, h.auto, h.fields, h.mono, h.sep⟩
    intro d hd
    have : some d = some (3 / 10 : ℝ) := by simpa [PStage.elem, demoFixed, OneOrMany.toList] using hd
    rw [Option.some.inj this]
    norm_num
  obtain ⟨fuel, ⟨r, x⟩, hr⟩ : ∃ fuel r, (demoFixed sch).track false fuel (.one b) b = .returned r := by
    have hdt : (demoFixed sch).wake.dtUpdate (demoFixed sch).length = some (1 / 2) := demo_dt true
    unfold PStage.track
    rw [hdt]
    exact track_returns hok strictMono_id (Nat.succ_pos 1) (δ := 1 / 5)
      (by norm_num) (demo_auto true sch) _ (by intro l hl; cases hl) false b _
  have hcol : (demoFixed sch).wake.Collective := quasi_collective _ _ _ (.inl rfl) rfl
  have hn : 0 < (demoFixed sch).nOut := Nat.succ_pos 1
  have two : ∀ k < 2, k = 0 ∨ k = 1 := fun k hk => by omega
  have hfit : ∀ b' : Bunch, b'.fieldArrays = none → b'.rk4Arrays = none → b'.Fits := by
    intro b' g1 g2
    unfold Bunch.Fits
    rw [g1, g2]
    exact ⟨fun a h => (Option.not_mem_none a h).elim, fun a h => (Option.not_mem_none a h).elim⟩
  have hp : ∀ i < 3, PartOf (fun _ => i) b (single b i) := fun i hi =>
    ⟨fun _ _ => hb.symm ▸ hi, fun _ _ => rfl, fun _ _ => rfl, rfl, rfl, rfl⟩
  have hsame : SameParticles (fun _ => 0) (fun k _ => 2 - 2 * k) [b] [single b 2, single b 0] := by
    refine ⟨fun k b' h => ?_, fun k k' c c' h h' p hp p' hp' _ e => ?_, fun i c h p hp hq => ?_⟩
    · rcases two k (List.getElem?_eq_some_iff.mp h).1 with rfl | rfl
      · cases h; exact ⟨b, rfl, hp 2 (by omega)⟩
      · cases h; exact ⟨b, rfl, hp 0 (by omega)⟩
    · have e1 : c.n = 1 ∧ c'.n = 1 := by
        constructor
        · rcases two k (List.getElem?_eq_some_iff.mp h).1 with rfl | rfl <;> cases h <;> rfl
        · rcases two k' (List.getElem?_eq_some_iff.mp h').1 with rfl | rfl <;> cases h' <;> rfl
      have e2 := two k (List.getElem?_eq_some_iff.mp h).1
      have e3 := two k' (List.getElem?_eq_some_iff.mp h').1
      have e : 2 - 2 * k = 2 - 2 * k' := e
      omega
    · have hi : i = 0 := by have : i < 1 := (List.getElem?_eq_some_iff.mp h).1; omega
      subst hi
      have hc : b = c := Option.some.inj h
      subst hc
      have hp1 : p ≠ 1 := by
        rintro rfl
        exact hq (by unfold Bunch.q; rw [h1, zero_mul])
      have : p = 0 ∨ p = 2 := by omega
      rcases this with rfl | rfl
      · exact ⟨1, single b 0, 0, rfl, Nat.one_pos, rfl, rfl⟩
      · exact ⟨0, single b 2, 0, rfl, Nat.one_pos, rfl, rfl⟩
  have hzz : ∀ b' ∈ [single b 2, single b 0], b'.zInjection = none ∧ b'.Fits := by
    intro b' h
    simp only [List.mem_cons, List.not_mem_nil, or_false] at h
    rcases h with rfl | rfl
    · exact ⟨hz, hfit _ hf.1 hf.2⟩
    · exact ⟨hz, hfit _ hf.1 hf.2⟩
  obtain ⟨fuel', ls, ls', y, g1, g2, g3, g4, -, g5⟩ := stage_regrouped (p := demoFixed sch) hcol hsch hn (bs := .one b)
    (bs' := .many [single b 2, single b 0]) hsame (by intro b' h; rw [List.mem_singleton.mp h]; exact ⟨hz, hfit _ hf.1 hf.2⟩) hzz
    (d' := .one (some (3 / 10))) (dts := [some (3 / 10)]) (dts' := [some (3 / 10), some (3 / 10)]) rfl rfl
    (by intro k hk; rcases two k hk with rfl | rfl <;> exact ⟨3 / 10, rfl, rfl⟩) hr
  obtain ⟨l, rfl⟩ := List.length_eq_one_iff.mp g3
  obtain ⟨l2, l0, rfl⟩ := List.length_eq_two.mp g4
  exact ⟨fuel, fuel', l, l0, l2, x, y, by rw [hr, g1]; rfl, g2, g5 1 Nat.one_lt_two, g5 0 Nat.two_pos⟩

end WakeT.Stage
