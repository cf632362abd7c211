import Verif.Stage.Regroup

/-! # Splitting macroparticles does not change the physics (C177) -/

set_option linter.unusedSectionVars false

namespace WakeT.Stage

open Bunch FieldElement Laser Tracker
open Plasma (QS)
open Plasma.QS (Fld)
open Push (PField Sched Ph)
open Fields (NumField FieldOps)
open Deposition (Grid depositShape)

/-! ### Specification -/

/-- The bunch `b'` is the bunch `b` with its macroparticles split: particle `p` of `b'` is one of the pieces of particle `g p` of `b`,
and the weights of the pieces of a particle add up to its weight. -/
structure SplitOf (g : ℕ → ℕ) (b b' : Bunch) : Prop where
  lt : ∀ p < b'.n, g p < b.n
  onto : ∀ i < b.n, ∃ p < b'.n, g p = i
  ph : ∀ p < b'.n, b'.ph p = b.ph (g p)
  w : ∀ i < b.n, ∑ p ∈ Finset.range b'.n, (if g p = i then b'.w p else 0) = b.w i
  q : b'.qSpecies = b.qSpecies
  m : b'.mSpecies = b.mSpecies
  dist : b'.propDistance = b.propDistance

/-- The same distribution of charge in phase space: the same integrals of all functions. -/
def SameCharge (l l' : List Bunch) : Prop := ∀ G : Ph → ℝ,
  (l'.map fun b => ∑ i ∈ Finset.range b.n, b.q i * G (b.ph i)).sum = (l.map fun b => ∑ i ∈ Finset.range b.n, b.q i * G (b.ph i)).sum

/-- The wakefield depends on the bunches only through the distribution of charge. -/
def Wake.Kinetic (w : Wake) : Prop := ∀ t np env f (l l' : List Bunch), SameCharge l l' → w.solve t np env l' f = w.solve t np env l f

/-! ### The plasma models -/

theorem deposit_sameCharge (sh : Deposition.Shape) (g : Grid ℝ) (s f : ℝ) {l l' : List Bunch} (h : SameCharge l l') (i j : ℤ) :
    (l'.map fun b => depositShape sh true g (partsOf s f b) (fun _ _ => 0) i j).sum =
      (l.map fun b => depositShape sh true g (partsOf s f b) (fun _ _ => 0) i j).sum := by
  have key : ∀ b : Bunch, depositShape sh true g (partsOf s f b) (fun _ _ => 0) i j = ∑ p ∈ Finset.range b.n, b.q p *
      Deposition.effect (Deposition.writes sh true g ⟨(b.ph p).xi / s, √(((b.ph p).x / s) ^ 2 + ((b.ph p).y / s) ^ 2), f⟩) i j := by
    intro b
    rw [Deposition.depositShape_apply, zero_add]
    unfold partsOf
    rw [List.map_map, Finset.sum_range, ← List.sum_ofFn, List.ofFn_eq_map, ← List.map_coe_finRange_eq_range, List.map_map]
    congr 1
    refine List.map_congr_left fun p _ => ?_
    show Deposition.effect (Deposition.writes sh true g ⟨_, _, b.q p * f⟩) i j = _
    rw [mul_comm, effect_weight, mul_comm]
  simp only [key]
  exact h fun x => Deposition.effect (Deposition.writes sh true g ⟨x.xi / s, √((x.x / s) ^ 2 + (x.y / s) ^ 2), f⟩) i j

/-- The quasistatic model. -/
theorem quasi_kinetic (w : Wake) (a : Plasma1) (q : QArgs) (hs : q.pShape = "linear" ∨ q.pShape = "cubic")
    (hw : w.solve = w.quasiCalc a q) : w.Kinetic := by
  intro t np env f l l' h
  rw [hw]
  unfold Wake.quasiCalc
  dsimp only
  generalize a.skinDepth (np / 1e6) = s
  set c := w.quasi q s (q.parabolic (t * w.k.c)) with hc
  generalize 1 / w.k.e / (2 * Real.pi * c.dr * c.dxi * s ^ 3 * np) = m
  have hsh : ∃ sh, Deposition.parseShape c.pShape = some sh := by
    rcases hs with h | h
    · exact ⟨.linear, by show Deposition.parseShape q.pShape = _; simp [Deposition.parseShape, h]⟩
    · exact ⟨.cubic, by show Deposition.parseShape q.pShape = _; simp [Deposition.parseShape, h]⟩
  obtain ⟨sh, hsh⟩ := hsh
  have : c.beamField (l'.map (partsOf s m)) = c.beamField (l.map (partsOf s m)) := by
    rw [QS.beamField_eq hsh, QS.beamField_eq hsh]
    have hd : depositShape sh true c.grid (l'.map (partsOf s m)).flatten (fun _ _ => 0) =
        depositShape sh true c.grid (l.map (partsOf s m)).flatten fun _ _ => 0 := by
      funext i j
      rw [deposit_flatten, deposit_flatten, List.map_map, List.map_map]
      exact deposit_sameCharge sh c.grid s m h i j
    unfold Plasma.calculateBeamSource
    rw [hd]
  unfold QS.calculate
  rw [this]

/-- The cold fluid model. -/
theorem cold_kinetic (w : Wake) (a : Plasma1) (bw : Bool) (shape : String) (hs : shape = "linear" ∨ shape = "cubic")
    (hw : w.solve = w.coldCalc a bw shape) : w.Kinetic := by
  intro t np env f l l' h
  rw [hw]
  unfold Wake.coldCalc
  dsimp only
  have hsh : ∃ sh, Deposition.parseShape shape = some sh := by
    rcases hs with h | h
    · exact ⟨.linear, by simp [Deposition.parseShape, h]⟩
    · exact ⟨.cubic, by simp [Deposition.parseShape, h]⟩
  obtain ⟨sh, hsh⟩ := hsh
  have key : ∀ (s : ℝ) (l : List Bunch), w.beamHist shape s np l = some fun i k : ℕ =>
      (l.map fun b => depositShape sh true (w.gridIn s) (partsOf s (1 / w.k.e) b) (fun _ _ => 0) ((i : ℤ) + 2) ((k : ℤ) + 2)).sum *
        (1 / (Real.pi * (w.rMax / w.nR / s) ^ 2 * (1 + 2 * (k : ℝ)) * ((w.xiMax - w.xiMin) / ((w.nXi : ℝ) - 1) / s) * np) / s ^ 3) := by
    intro s l
    cases l with
    | nil => simp [Wake.beamHist]
    | cons b l =>
      unfold Wake.beamHist
      dsimp only
      rw [hsh, Option.map_some]
      congr 1
      funext i k
      rw [fold_deposit, zero_add]
      rfl
  rw [key, key]
  simp only [deposit_sameCharge sh (w.gridIn _) _ _ h]

/-! ### Split bunches -/

theorem SplitOf.sum {g : ℕ → ℕ} {b b' : Bunch} (h : SplitOf g b b') (G : Ph → ℝ) :
    ∑ p ∈ Finset.range b'.n, b'.q p * G (b'.ph p) = ∑ i ∈ Finset.range b.n, b.q i * G (b.ph i) := by
  have h1 : ∀ i ∈ Finset.range b.n, b.q i * G (b.ph i) =
      ∑ p ∈ Finset.range b'.n, if g p = i then b'.q p * G (b'.ph p) else 0 := by
    intro i hi
    unfold Bunch.q
    rw [← h.w i (Finset.mem_range.mp hi), Finset.sum_mul, Finset.sum_mul]
    refine Finset.sum_congr rfl fun p hp => ?_
    split_ifs with hg
    · rw [h.q, h.ph p (Finset.mem_range.mp hp), hg]
    · rw [zero_mul, zero_mul]
  rw [Finset.sum_congr rfl h1, Finset.sum_comm]
  refine Finset.sum_congr rfl fun p hp => ?_
  rw [Finset.sum_ite_eq, if_pos (Finset.mem_range.mpr (h.lt p (Finset.mem_range.mp hp)))]

/-- The total charge of a split bunch. -/
theorem SplitOf.charge {g : ℕ → ℕ} {b b' : Bunch} (h : SplitOf g b b') :
    ∑ p ∈ Finset.range b'.n, b'.q p = ∑ i ∈ Finset.range b.n, b.q i := by
  simpa using h.sum fun _ => 1

/-- The smallest momentum of a split bunch. -/
theorem SplitOf.minGamma {g : ℕ → ℕ} {b b' : Bunch} (h : SplitOf g b b') : minGamma b' = minGamma b := by
  have key : ∀ a, a ∈ (List.range b'.n).map (fun i => (b'.ph i).pz) ↔ a ∈ (List.range b.n).map fun i => (b.ph i).pz := by
    intro a
    simp only [List.mem_map, List.mem_range]
    constructor
    · rintro ⟨p, hp, rfl⟩
      exact ⟨g p, h.lt p hp, by rw [h.ph p hp]⟩
    · rintro ⟨i, hi, rfl⟩
      obtain ⟨p, hp, rfl⟩ := h.onto i hi
      exact ⟨p, hp, by rw [h.ph p hp]⟩
  unfold Stage.minGamma
  congr 1
  generalize (List.range b'.n).map (fun i => (b'.ph i).pz) = l' at key
  generalize (List.range b.n).map (fun i => (b.ph i).pz) = l at key
  cases hm : l.min? with
  | none =>
    rw [List.min?_eq_none_iff] at hm ⊢
    subst hm
    rcases l' with _ | ⟨a, l'⟩
    · rfl
    · exact absurd ((key a).mp List.mem_cons_self) List.not_mem_nil
  | some x =>
    rw [List.min?_eq_some_iff] at hm ⊢
    exact ⟨(key x).mpr hm.1, fun y hy => hm.2 y ((key y).mp hy)⟩

/-- The automatic step of a split bunch (C47). -/
theorem SplitOf.stageDt {g : ℕ → ℕ} {b b' : Bunch} (h : SplitOf g b b') (k : Const) (density : ℝ → ℝ) (length : ℝ) :
    stageDt k density length b' = stageDt k density length b := by
  unfold Stage.stageDt
  rw [h.minGamma, h.q, h.m]

theorem SplitOf.push {F Φ : Type} [LinearOrder F] (e : Elem F Φ) (hsch : ∀ n, (e.sch n).Valid n) {g : ℕ → ℕ} {b0 b0' : Bunch} (φ : Φ)
    {b b' : Bunch} (t dt : ℝ) (h1 : Kept b0 b) (h2 : Kept b0' b') (h3 : SplitOf g b b') :
    Kept b0 (e.push1 φ b t dt) ∧ Kept b0' (e.push1 φ b' t dt) ∧ SplitOf g (e.push1 φ b t dt) (e.push1 φ b' t dt) := by
  obtain ⟨G, δ, hG⟩ := push1_kept e hsch φ t dt
  obtain ⟨a1, a2, a3⟩ := hG _ _ h1
  obtain ⟨c1, c2, c3⟩ := hG _ _ h2
  have hn1 : (e.push1 φ b t dt).n = b.n := a1.n.trans h1.n.symm
  have hn2 : (e.push1 φ b' t dt).n = b'.n := c1.n.trans h2.n.symm
  refine ⟨a1, c1, fun p hp => ?_, fun i hi => ?_, fun p hp => ?_, fun i hi => ?_, ?_, ?_, ?_⟩
  · rw [hn1]; exact h3.lt p (hn2 ▸ hp)
  · rw [hn2]; exact h3.onto i (hn1 ▸ hi)
  · have hp : p < b'.n := hn2 ▸ hp
    rw [a2 _ (h3.lt p hp), c2 _ hp, h3.ph p hp, show b'.const e.c = b.const e.c by unfold Bunch.const; rw [h3.q, h3.m]]
  · rw [hn2, a1.w, c1.w, ← h1.w, ← h2.w]
    exact h3.w i (hn1 ▸ hi)
  · rw [a1.q, c1.q, ← h1.q, ← h2.q, h3.q]
  · rw [a1.m, c1.m, ← h1.m, ← h2.m, h3.m]
  · rw [a3, c3, h3.dist]

/-! ### Stages -/

variable {F : Type} [LinearOrder F]

theorem elem_kinetic {p : PStage F} (h : p.wake.Kinetic) {l l' : List Bunch} (hl : SameCharge l l') (φ : NumField ℝ (Option Props)) (j : ℕ) :
    p.elem.update l' φ j = p.elem.update l φ j := by
  show (if j = 0 then φ.update (p.wake.ops φ.dt) l' else φ) = if j = 0 then φ.update (p.wake.ops φ.dt) l else φ
  have hc : ∀ t s, p.wake.calculateProps t l' s = p.wake.calculateProps t l s := by
    intro t s
    unfold Wake.calculateProps
    dsimp only
    rw [h _ _ _ _ l l' hl]
  have : φ.update (p.wake.ops φ.dt) l' = φ.update (p.wake.ops φ.dt) l := by
    unfold NumField.update Wake.ops
    dsimp only
    simp only [hc]
  rw [this]

/-- **C177.** Splitting macroparticles of the bunches in a plasma stage changes neither the wakefields nor the motion: in all
outputs the bunches are those of the original tracking with their particles split in the same way.  (Time steps may be fixed or automatic.) -/
theorem stage_macroparticles {p : PStage F} (hw : p.wake.Kinetic) (hsch : ∀ n, (p.sch n).Valid n) (hn : 0 < p.nOut)
    (hA : ∃ a : Dt → ℝ, ∀ b, p.autoDt b = a (stageDt p.wake.k p.wake.density p.length b)) {ι : ℕ → ℕ → ℕ} {bs bs' : OneOrMany Bunch}
    (hlen : bs'.toList.length = bs.toList.length)
    (hb : ∀ k b b', bs.toList[k]? = some b → bs'.toList[k]? = some b' → SplitOf (ι k) b b')
    (hz : ∀ b ∈ bs.toList ++ bs'.toList, b.zInjection = none ∧ b.Fits) {opmd : Bool} {fuel : ℕ} {b0 : Bunch}
    {r : OneOrMany (List Bunch)} {w : World (NumField ℝ (Option Props))} (hr : p.track opmd fuel bs b0 = .returned (r, w)) :
    ∃ fuel' ls ls' w', r = pack ls ∧ p.track opmd fuel' bs' b0 = .returned (pack ls', w') ∧ ls.length = bs.toList.length ∧
      ls'.length = ls.length ∧ w'.flds = w.flds ∧ ∀ k < ls.length, List.Forall₂ (SplitOf (ι k)) (ls.getD k []) (ls'.getD k []) := by
  obtain ⟨a, hA⟩ := hA
  unfold PStage.track at hr ⊢
  cases hdt : p.wake.dtUpdate p.length with
  | none => rw [hdt] at hr; cases hr
  | some dt =>
    rw [hdt] at hr
    dsimp only at hr ⊢
    set l := bs.toList with hl
    set l' := bs'.toList with hl'
    cases hd : p.elem.dtList l.length with
    | none =>
      unfold Elem.track at hr
      dsimp only at hr
      rw [← hl, hd] at hr
      cases hr
    | some dts =>
    have hget : ∀ (l : List Bunch) (i : ℕ), i < l.length → l[i]? = some (l.getD i b0) := by
      intro l i hi
      rw [List.getD_eq_getElem?_getD, List.getElem?_eq_getElem hi]
      rfl
    have hmem : ∀ (l : List Bunch) (i : ℕ), i < l.length → l.getD i b0 ∈ l := fun l i hi => List.mem_of_getElem? (hget l i hi)
    have hsp : ∀ k < l'.length, SplitOf (ι k) (l.getD k b0) (l'.getD k b0) :=
      fun k hk => hb k _ _ (hget l k (hlen ▸ hk)) (hget l' k hk)
    have hreg : p.elem.Regroups l.length l'.length dts dts id
        (fun k b b' => Kept (l.getD k b0) b ∧ Kept (l'.getD k b0) b' ∧ SplitOf (ι k) b b') (fun _ _ => True) := by
      refine ⟨fun k hk => hlen ▸ hk, fun k hk => rfl, ?_, ?_, fun _ _ _ _ _ _ _ => trivial, ?_⟩
      · rintro k hk - b b' ⟨-, -, h⟩
        show p.autoDt b' = p.autoDt b
        rw [hA, hA, h.stageDt]
      · rintro k hk φ b b' t dt ⟨h1, h2, h3⟩
        exact h3.push p.elem hsch φ t dt h1 h2
      · intro f f' φ j hff _
        refine elem_kinetic hw (fun G => ?_) φ j
        rw [← hlen, List.map_map, List.map_map]
        congr 1
        refine List.map_congr_left fun k hk => ?_
        exact (hff k (List.mem_range.mp hk)).2.2.sum G
    have hk0 : ∀ (m : List Bunch), (∀ b ∈ m, b.zInjection = none ∧ b.Fits) → ∀ i < m.length, Kept (m.getD i b0) (m.getD i b0) := fun m hm i hi =>
      ⟨rfl, rfl, rfl, rfl, (hm _ (hmem m i hi)).1, (hm _ (hmem m i hi)).2⟩
    have hm1 : ∀ b ∈ l, b.zInjection = none ∧ b.Fits := fun b h => hz b (List.mem_append_left _ h)
    have hm2 : ∀ b ∈ l', b.zInjection = none ∧ b.Fits := fun b h => hz b (List.mem_append_right _ h)
    obtain ⟨fuel', ls, ls', w', h1, h2, h3, h4, h5, h6⟩ := track_related (e := p.elem) p.dtBunch hn hd (dts' := dts)
      (by rw [← hl', hlen]; exact hd) hreg (b0 := b0) (b0' := b0) (φ := _)
      ⟨rfl, rfl, rfl, fun k hk => ⟨hk0 l hm1 k (hlen ▸ hk), hk0 l' hm2 k hk, hsp k hk⟩, fun _ _ => trivial⟩ (opmd' := opmd) hr
    refine ⟨fuel', ls, ls', w', h1, h2, h3, h4.trans (hlen.trans h3.symm), h5, fun k hk => ?_⟩
    exact (h6 k (by rw [← hl', hlen, ← h3]; exact hk)).imp fun _ _ h => h.2.2

/-! ### Instances -/

/-- Every macroparticle cut into two. -/
noncomputable def halves (b : Bunch) : Bunch := { b with n := 2 * b.n, ph := fun p => b.ph (p / 2), w := fun p => b.w (p / 2) / 2 }

theorem halves_split (b : Bunch) : SplitOf (fun p => p / 2) b (halves b) := by
  refine ⟨fun p hp => ?_, fun i hi => ⟨2 * i, ?_, by omega⟩, fun p _ => rfl, fun i hi => ?_, rfl, rfl, rfl⟩
  · have : p < 2 * b.n := hp
    omega
  · show 2 * i < 2 * b.n
    omega
  · show ∑ p ∈ Finset.range (2 * b.n), (if p / 2 = i then b.w (p / 2) / 2 else 0) = b.w i
    rw [← Finset.sum_filter, show (Finset.range (2 * b.n)).filter (fun p => p / 2 = i) = {2 * i, 2 * i + 1} by
      ext p
      simp only [Finset.mem_filter, Finset.mem_range, Finset.mem_insert, Finset.mem_singleton]
      omega]
    rw [Finset.sum_pair (by omega), show 2 * i / 2 = i by omega, show (2 * i + 1) / 2 = i by omega]
    ring

/-- A bunch in a plasma with a laser, and the same bunch with twice as many particles. -/
example (sch : ℕ → Sched) (hsch : ∀ n, (sch n).Valid n) (b : Bunch) (hz : b.zInjection = none) (hf : b.fieldArrays = none ∧ b.rk4Arrays = none) :
    ∃ fuel fuel' l l' x y, (demoStage true sch).track false fuel (.one b) b = .returned (.one l, x) ∧
      (demoStage true sch).track false fuel' (.one (halves b)) b = .returned (.one l', y) ∧ y.flds = x.flds ∧
      List.Forall₂ (SplitOf fun p => p / 2) l l' := by
  obtain ⟨fuel, ⟨r, x⟩, hr⟩ := demo_returns true sch (.one b) b
  have hkin : (demoStage true sch).wake.Kinetic := quasi_kinetic _ _ _ (.inl rfl) rfl
  have hfit : ∀ b' : Bunch, b'.fieldArrays = none → b'.rk4Arrays = none → b'.Fits := by
    intro b' g1 g2
    unfold Bunch.Fits
    rw [g1, g2]
    exact ⟨fun a h => (Option.not_mem_none a h).elim, fun a h => (Option.not_mem_none a h).elim⟩
  obtain ⟨fuel', ls, ls', y, h1, h2, h3, h4, h5, h6⟩ := stage_macroparticles (p := demoStage true sch) hkin hsch (Nat.succ_pos 1)
    ⟨fun d => match d with | .finite d => 1 / 5 + d ^ 2 | _ => 1, fun b => rfl⟩ (ι := fun _ p => p / 2) (bs := .one b) (bs' := .one (halves b)) rfl
    (by
      intro k c c' h h'
      have hk : k = 0 := by have : k < 1 := (List.getElem?_eq_some_iff.mp h).1; omega
      subst hk
      cases h
      cases h'
      exact halves_split b)
    (by
      intro c hc
      have : c = b ∨ c = halves b := by simpa [OneOrMany.toList] using hc
      rcases this with rfl | rfl
      · exact ⟨hz, hfit _ hf.1 hf.2⟩
      · exact ⟨hz, hfit _ hf.1 hf.2⟩) hr
  obtain ⟨l, rfl⟩ := List.length_eq_one_iff.mp h3
  obtain ⟨l', rfl⟩ := List.length_eq_one_iff.mp (h4.trans h3)
  exact ⟨fuel, fuel', l, l', x, y, by rw [hr, h1]; rfl, h2, h5, h6 0 Nat.one_pos⟩

end WakeT.Stage
