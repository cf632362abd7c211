import Verif.Tracker.FieldElement
import Verif.Tracker.Simulation

/-! # Outputs do not influence the tracking (C157)

Without `push_bunches_before_diags`, the state of the bunches and fields in an output depends only on
its time. -/

set_option linter.unusedSectionVars false

namespace WakeT.Tracker

section
variable {K F σ : Type*} [Field K] [LinearOrder K] [IsStrictOrderedRing K] [LinearOrder F]

/-- The bunch or field that is next. -/
def Cfg.next (c : Cfg K F σ) (s : St K σ) : ℕ := argmin (fun i => c.f32 (s.t i + s.dt i)) (c.nBunch + c.nField - 1)

/-- When it is next. -/
def Cfg.key (c : Cfg K F σ) (s : St K σ) : F := c.f32 (s.t (c.next s) + s.dt (c.next s))

/-- The state after `m` pushes of bunches and updates of fields. -/
def Cfg.core (c : Cfg K F σ) : ℕ → St K σ → St K σ
  | 0, s => s
  | m + 1, s => advance c (c.core m s) (c.next (c.core m s))

/-- Specification: `w` is the world after the pushes and updates up to (the rounded time) `T`. -/
def Cfg.At (c : Cfg K F σ) (s : St K σ) (T : F) (w : σ) : Prop :=
  ∃ m, w = (c.core m s).w ∧ (∀ j < m, c.key (c.core j s) ≤ T) ∧ T < c.key (c.core m s)

/-- There is one such world. -/
theorem At.unique {c : Cfg K F σ} {s : St K σ} {T : F} {w w' : σ} (h : c.At s T w) (h' : c.At s T w') : w = w' := by
  obtain ⟨m, h1, h2, h3⟩ := h
  obtain ⟨m', h1', h2', h3'⟩ := h'
  rcases lt_trichotomy m m' with hm | hm | hm
  · exact absurd (h2' m hm) (not_le.mpr h3)
  · rw [h1, h1', hm]
  · exact absurd (h2 m' hm) (not_le.mpr h3')

/-- The same bunches and fields, with the same clocks. -/
structure SameCore (c : Cfg K F σ) (s s' : St K σ) : Prop where
  w : s'.w = s.w
  t : ∀ i < c.nBunch + c.nField, s'.t i = s.t i
  dt : ∀ i < c.nBunch + c.nField, s'.dt i = s.dt i

variable {c : Cfg K F σ}

theorem SameCore.next {s s' : St K σ} (h : SameCore c s s') (h0 : 0 < c.nBunch + c.nField) : c.next s' = c.next s := by
  unfold Cfg.next
  have hle := argmin_le (fun i => c.f32 (s.t i + s.dt i)) (c.nBunch + c.nField - 1)
  have hk : ∀ i ≤ c.nBunch + c.nField - 1, c.f32 (s'.t i + s'.dt i) = c.f32 (s.t i + s.dt i) := by
    intro i hi
    rw [h.t i (by omega), h.dt i (by omega)]
  refine argmin_eq hle (fun j hj => ?_) (fun j hj => ?_)
  · rw [hk _ hle, hk j hj]
    exact argmin_min (fun i => c.f32 (s.t i + s.dt i)) _ j hj
  · rw [hk _ hle, hk j (by omega)]
    exact argmin_first (fun i => c.f32 (s.t i + s.dt i)) _ j hj

theorem next_lt (h0 : 0 < c.nBunch + c.nField) (s : St K σ) : c.next s < c.nBunch + c.nField := by
  have := argmin_le (fun i => c.f32 (s.t i + s.dt i)) (c.nBunch + c.nField - 1)
  unfold Cfg.next
  omega

theorem SameCore.key {s s' : St K σ} (h : SameCore c s s') (h0 : 0 < c.nBunch + c.nField) : c.key s' = c.key s := by
  unfold Cfg.key
  rw [h.next h0, h.t _ (next_lt h0 s), h.dt _ (next_lt h0 s)]

theorem SameCore.refl (s : St K σ) : SameCore c s s := ⟨rfl, fun _ _ => rfl, fun _ _ => rfl⟩

theorem SameCore.advance {s s' : St K σ} (h : SameCore c s s') {i : ℕ} (hi : i < c.nBunch + c.nField) :
    SameCore c (advance c s i) (advance c s' i) := by
  have hu : ∀ (f f' : ℕ → K) (a : K), (∀ j < c.nBunch + c.nField, f' j = f j) → ∀ j < c.nBunch + c.nField,
      Function.update f' i a j = Function.update f i a j := by
    intro f f' a hf j hj
    by_cases hji : j = i
    · subst hji; rw [Function.update_self, Function.update_self]
    · rw [Function.update_of_ne hji, Function.update_of_ne hji, hf j hj]
  unfold Tracker.advance
  dsimp only
  by_cases hb : i < c.nBunch
  · rw [if_pos hb, if_pos hb]
    unfold evolveBunch
    dsimp only
    rw [h.w, h.t i hi, h.dt i hi]
    cases hd : c.dtBunch i with
    | none =>
      refine ⟨rfl, hu _ _ _ h.t, fun j hj => ?_⟩
      simp only [Function.update_self]
      split_ifs
      · exact hu _ _ _ (hu _ _ _ h.dt) j hj
      · exact hu _ _ _ h.dt j hj
    | some x =>
      refine ⟨rfl, hu _ _ _ h.t, fun j hj => ?_⟩
      simp only [h.dt i hi]
      split_ifs
      · exact hu _ _ _ h.dt j hj
      · exact h.dt j hj
  · rw [if_neg hb, if_neg hb, if_pos hi, if_pos hi, h.w, h.t i hi, h.dt i hi]
    exact ⟨rfl, hu _ _ _ h.t, h.dt⟩

theorem SameCore.core {s s' : St K σ} (h : SameCore c s s') (h0 : 0 < c.nBunch + c.nField) (m : ℕ) :
    SameCore c (c.core m s) (c.core m s') := by
  induction m with
  | zero => exact h
  | succ m ih =>
    unfold Cfg.core
    rw [ih.next h0]
    exact ih.advance (next_lt h0 _)

theorem SameCore.at {s s' : St K σ} (h : SameCore c s s') (h0 : 0 < c.nBunch + c.nField) {T : F} {w : σ} (hw : c.At s' T w) :
    c.At s T w := by
  obtain ⟨m, h1, h2, h3⟩ := hw
  exact ⟨m, h1.trans (h.core h0 m).w, fun j hj => (h.core h0 j).key h0 ▸ h2 j hj, (h.core h0 m).key h0 ▸ h3⟩

/-- What is known of a state `s` that was reached from `s0`. -/
structure Follows (c : Cfg K F σ) (s0 : St K σ) (m : ℕ) (s : St K σ) : Prop where
  core : SameCore c (c.core m s0) s
  past : ∀ j < m, c.key (c.core j s0) ≤ c.f32 (s.t (c.nBunch + c.nField) + s.dt (c.nBunch + c.nField)) ∧
    c.key (c.core j s0) ≤ c.f32 c.tFinal
  dt : 0 ≤ s.dt (c.nBunch + c.nField)
  snaps : ∃ T0 lt l, diagTimes s.log = T0 :: lt ∧ s.snaps = s0.w :: l ∧ List.Forall₂ (fun T w => c.At s0 (c.f32 T) w) lt l

/-- The loop follows the pushes and updates. -/
theorem follows_run (hm : Monotone c.f32) (h0 : 0 < c.nBunch + c.nField) (hn : 0 < c.nDiag) (hp : c.pushBeforeDiags = false)
    (s0 : St K σ) (fuel : ℕ) : ∀ (m : ℕ) (s r : St K σ), Follows c s0 m s → run c fuel s = some r →
      (∃ m', Follows c s0 m' r) ∧ c.At s0 (c.f32 c.tFinal) r.w := by
  have hob : c.nObj - 1 = c.nBunch + c.nField := by
    unfold Cfg.nObj
    rw [if_pos hn]
    omega
  induction fuel with
  | zero => intro m s r _ h; cases h
  | succ fuel ih =>
    intro m s r h hr
    set D := c.nBunch + c.nField with hD
    set g : ℕ → F := fun i => c.f32 (s.t i + s.dt i) with hg
    have hle := argmin_le g D
    have hmin := argmin_min g D
    have hfst := argmin_first g D
    have hstep : step c s = if g (argmin g D) > c.f32 c.tFinal then none else some (advance c s (argmin g D)) := by
      unfold step
      rw [hob]
    have hnext : ∀ i, i < D → argmin g D = i → c.next s = i := by
      intro i hi he
      rw [he] at hmin hfst
      exact argmin_eq (by omega) (fun j hj => hmin j (by omega)) hfst
    have hkey : c.key (c.core m s0) = g (c.next s) := (h.core.key h0).symm
    rw [run, hstep] at hr
    generalize hi : argmin g D = i at hr hmin hfst hle hnext
    by_cases hend : g i > c.f32 c.tFinal
    · rw [if_pos hend] at hr
      have hr : some s = some r := hr
      cases hr
      refine ⟨⟨m, h⟩, m, h.core.w, fun j hj => (h.past j hj).2, ?_⟩
      rw [hkey]
      exact lt_of_lt_of_le hend (hmin _ (next_lt h0 s).le)
    · rw [if_neg hend] at hr
      have hr : run c fuel (advance c s i) = some r := hr
      by_cases hiD : i < D
      · have hin := hnext i hiD rfl
        refine ih (m + 1) _ _ ⟨?_, fun j hj => ?_, ?_, ?_⟩ hr
        · show SameCore c (advance c (c.core m s0) (c.next (c.core m s0))) (advance c s i)
          rw [← h.core.next h0, hin]
          exact h.core.advance hiD
        · have e : (advance c s i).t D = s.t D ∧ (advance c s i).dt D = s.dt D := by
            unfold Tracker.advance
            dsimp only
            by_cases hb : i < c.nBunch
            · rw [if_pos hb]
              unfold evolveBunch
              dsimp only
              refine ⟨Function.update_of_ne (by omega) _ _, ?_⟩
              cases c.dtBunch i with
              | none =>
                dsimp only
                split_ifs
                · rw [Function.update_of_ne (by omega), Function.update_of_ne (by omega)]
                · rw [Function.update_of_ne (by omega)]
              | some x =>
                dsimp only
                split_ifs
                · rw [Function.update_of_ne (by omega)]
                · rfl
            · rw [if_neg hb, if_pos hiD]
              exact ⟨Function.update_of_ne (by omega) _ _, rfl⟩
          rw [e.1, e.2]
          rcases Nat.lt_succ_iff_lt_or_eq.mp hj with hj | rfl
          · exact h.past j hj
          · rw [hkey, hin]
            exact ⟨hmin D le_rfl, not_lt.mp hend⟩
        · have e : (advance c s i).dt D = s.dt D := by
            unfold Tracker.advance
            dsimp only
            by_cases hb : i < c.nBunch
            · rw [if_pos hb]
              unfold evolveBunch
              dsimp only
              cases c.dtBunch i with
              | none =>
                dsimp only
                split_ifs
                · rw [Function.update_of_ne (by omega), Function.update_of_ne (by omega)]
                · rw [Function.update_of_ne (by omega)]
              | some x =>
                dsimp only
                split_ifs
                · rw [Function.update_of_ne (by omega)]
                · rfl
            · rw [if_neg hb, if_pos hiD]
          rw [e]
          exact h.dt
        · obtain ⟨T0, lt, l, q1, q2, q3⟩ := h.snaps
          refine ⟨T0, lt, l, ?_, ?_, q3⟩
          · unfold Tracker.advance
            dsimp only
            by_cases hb : i < c.nBunch
            · rw [if_pos hb]
              unfold evolveBunch
              dsimp only
              rw [diagTimes_append, q1]
              exact List.append_nil _
            · rw [if_neg hb, if_pos hiD]
              dsimp only
              rw [diagTimes_append, q1]
              exact List.append_nil _
          · unfold Tracker.advance
            dsimp only
            by_cases hb : i < c.nBunch
            · rw [if_pos hb]; exact q2
            · rw [if_neg hb, if_pos hiD]; exact q2
      · obtain rfl : i = D := by omega
        have ha : advance c s D = { generateDiagnostics s (s.t D + s.dt D) with t := Function.update s.t D (s.t D + s.dt D) } := by
          unfold Tracker.advance
          dsimp only
          rw [if_neg (by omega), if_neg (by omega), hp]
          rfl
        rw [ha] at hr
        refine ih m _ _ (?_ : Follows c s0 m { generateDiagnostics s (s.t D + s.dt D) with
          t := Function.update s.t D (s.t D + s.dt D) }) hr
        refine ⟨⟨h.core.w, fun j hj => ?_, h.core.dt⟩, fun j hj => ?_, h.dt, ?_⟩
        · show Function.update s.t D _ j = _
          rw [Function.update_of_ne (by omega)]
          exact h.core.t j hj
        · show _ ≤ c.f32 (Function.update s.t D _ D + s.dt D) ∧ _
          rw [Function.update_self]
          exact ⟨(h.past j hj).1.trans (hm (le_add_of_nonneg_right h.dt)), (h.past j hj).2⟩
        · obtain ⟨T0, lt, l, q1, q2, q3⟩ := h.snaps
          refine ⟨T0, lt ++ [s.t D + s.dt D], l ++ [s.w], ?_, ?_, List.rel_append q3 (.cons ⟨m, h.core.w, ?_, ?_⟩ .nil)⟩
          · show diagTimes (s.log ++ [.diag _]) = _
            rw [diagTimes_append, q1]
            rfl
          · show s.snaps ++ [s.w] = _
            rw [q2]
            rfl
          · exact fun j hj => (h.past j hj).1
          · rw [hkey]
            exact hfst _ (next_lt h0 s)

/-- The state of the bunches and fields in an output, and at the end, is the one after the pushes and
updates up to this time. -/
theorem outputs_at (hm : Monotone c.f32) (h0 : 0 < c.nBunch + c.nField) (hp : c.pushBeforeDiags = false) (ht : 0 ≤ c.tFinal) {fuel : ℕ} {w : σ}
    {s : St K σ} (h : doTracking c fuel w = .returned s) :
    c.At (start c w) (c.f32 c.tFinal) s.w ∧ ∃ T0 lt l, diagTimes s.log = T0 :: lt ∧ s.snaps = (start c w).w :: l ∧
      List.Forall₂ (fun T w' => c.At (start c w) (c.f32 T) w') lt l := by
  obtain ⟨hn, -, hr⟩ := doTracking_returned h
  have hD : ∀ n, diagTimes (initFields c n (blank w)).log = [] ∧ (initFields c n (blank w)).snaps = [] := by
    intro n
    induction n with
    | zero => exact ⟨rfl, rfl⟩
    | succ n ih =>
      refine ⟨?_, ih.2⟩
      show diagTimes ((initFields c n (blank w)).log ++ [_]) = []
      rw [diagTimes_append, ih.1]
      rfl
  have hst : Follows c (start c w) 0 (start c w) := by
    refine ⟨.refl _, fun j hj => absurd hj (Nat.not_lt_zero j), ?_, 0, [], [], ?_, ?_, .nil⟩
    · show 0 ≤ c.dt0 _ _
      unfold Cfg.dt0
      rw [if_neg (by omega), if_neg (by omega)]
      exact div_nonneg ht (Nat.cast_nonneg _)
    · show diagTimes ((initFields c c.nField (blank w)).log ++ [.diag 0]) = _
      rw [diagTimes_append, (hD _).1]
      rfl
    · show (initFields c c.nField (blank w)).snaps ++ [_] = _
      rw [(hD _).2]
      rfl
  obtain ⟨⟨m, h1⟩, h2⟩ := follows_run hm h0 hn hp _ fuel 0 _ _ hst hr
  exact ⟨h2, h1.snaps⟩

/-- The same arguments with another number of outputs. -/
def Cfg.outputs (c : Cfg K F σ) (n : ℕ) (opmd : Bool) : Cfg K F σ := { c with nDiag := n, opmd := opmd }

theorem advance_outputs (n : ℕ) (o : Bool) (s : St K σ) {i : ℕ} (hi : i < c.nBunch + c.nField) :
    advance (c.outputs n o) s i = advance c s i := by
  unfold Tracker.advance
  dsimp only
  by_cases hb : i < c.nBunch
  · rw [if_pos hb, if_pos (show i < (c.outputs n o).nBunch from hb)]
    rfl
  · rw [if_neg hb, if_pos hi, if_neg (show ¬ i < (c.outputs n o).nBunch from hb),
      if_pos (show i < (c.outputs n o).nBunch + (c.outputs n o).nField from hi)]
    rfl

theorem core_outputs (n : ℕ) (o : Bool) (h0 : 0 < c.nBunch + c.nField) (m : ℕ) (s : St K σ) :
    (c.outputs n o).core m s = c.core m s := by
  induction m with
  | zero => rfl
  | succ m ih =>
    unfold Cfg.core
    rw [ih]
    exact advance_outputs n o _ (next_lt h0 _)

theorem at_outputs {n : ℕ} {o : Bool} (h0 : 0 < c.nBunch + c.nField) {T : F} {w : σ} {w' : σ}
    (h : (c.outputs n o).At (start (c.outputs n o) w) T w') : c.At (start c w) T w' := by
  have hi : ∀ m, (initFields (c.outputs n o) m (blank w)).w = (initFields c m (blank w)).w ∧
      (initFields (c.outputs n o) m (blank w)).t = (initFields c m (blank w)).t := by
    intro m
    induction m with
    | zero => exact ⟨rfl, rfl⟩
    | succ m ih =>
      refine ⟨?_, ih.2⟩
      show c.updateF (initFields (c.outputs n o) m (blank w)).w m = c.updateF (initFields c m (blank w)).w m
      rw [ih.1]
  have hs : SameCore c (start c w) (start (c.outputs n o) w) := by
    refine ⟨(hi c.nField).1, fun i _ => congrFun (hi c.nField).2 i, fun i hi' => ?_⟩
    show (c.outputs n o).dt0 (initFields (c.outputs n o) c.nField (blank w)).w i = c.dt0 (initFields c c.nField (blank w)).w i
    rw [(hi c.nField).1]
    unfold Cfg.dt0
    by_cases hb : i < c.nBunch
    · rw [if_pos hb, if_pos (show i < (c.outputs n o).nBunch from hb)]
      rfl
    · rw [if_neg hb, if_pos hi', if_neg (show ¬ i < (c.outputs n o).nBunch from hb),
        if_pos (show i < (c.outputs n o).nBunch + (c.outputs n o).nField from hi')]
      rfl
  obtain ⟨m, h1, h2, h3⟩ := h
  have hk : ∀ s, (c.outputs n o).key s = c.key s := fun _ => rfl
  refine hs.at h0 ⟨m, by rw [h1, core_outputs n o h0], fun j hj => ?_, ?_⟩
  · have := h2 j hj
    rwa [hk, core_outputs n o h0] at this
  · rwa [hk, core_outputs n o h0] at h3

/-- Tracking twice with different numbers of outputs: the final states and the outputs at the same times agree. -/
theorem outputs_agree (hm : Monotone c.f32) (hp : c.pushBeforeDiags = false) (hpos : c.Positive) (h0 : 0 < c.nBunch + c.nField)
    {n : ℕ} {o : Bool} (hsep : c.f32 c.tFinal < c.f32 (c.tFinal + c.tFinal / c.nDiag))
    (hsep' : c.f32 c.tFinal < c.f32 (c.tFinal + c.tFinal / n)) {fuel fuel' : ℕ} {w : σ} {s s' : St K σ}
    (h : doTracking c fuel w = .returned s) (h' : doTracking (c.outputs n o) fuel' w = .returned s') :
    s'.w = s.w ∧ ∀ k ≤ c.nDiag, ∀ k' ≤ n, k * n = k' * c.nDiag → s'.snaps[k']? = s.snaps[k]? ∧ k < s.snaps.length := by
  obtain ⟨a1, T0, lt, l, a2, a3, a4⟩ := outputs_at hm h0 hp hpos.tFinal.le h
  obtain ⟨b1, T0', lt', l', b2, b3, b4⟩ := outputs_at (c := c.outputs n o) hm h0 hp hpos.tFinal.le h'
  have hpos' : (c.outputs n o).Positive := ⟨hpos.tFinal, hpos.bunch, hpos.auto, hpos.field⟩
  obtain ⟨c1, c2⟩ := snapshot_times c w fuel s hpos hm hsep h
  obtain ⟨d1, d2⟩ := snapshot_times (c.outputs n o) w fuel' s' hpos' hm hsep' h'
  have hn : 0 < c.nDiag := (doTracking_returned h).1
  have hn' : 0 < n := (doTracking_returned h').1
  refine ⟨At.unique (at_outputs h0 b1) a1, fun k hk k' hk' hkk => ⟨?_, by omega⟩⟩
  have hsw : (start (c.outputs n o) w).w = (start c w).w := by
    have hi : ∀ m, (initFields (c.outputs n o) m (blank w)).w = (initFields c m (blank w)).w := by
      intro m
      induction m with
      | zero => rfl
      | succ m ih =>
        show c.updateF (initFields (c.outputs n o) m (blank w)).w m = c.updateF (initFields c m (blank w)).w m
        rw [ih]
    exact hi _
  cases k with
  | zero =>
    have : k' = 0 := by
      rw [zero_mul] at hkk
      rcases Nat.mul_eq_zero.mp hkk.symm with h | h
      · exact h
      · omega
    subst this
    rw [a3, b3, hsw]
    rfl
  | succ k =>
    cases k' with
    | zero =>
      rw [zero_mul] at hkk
      rcases Nat.mul_eq_zero.mp hkk with h | h <;> omega
    | succ k' =>
      rw [a3, b3, List.getElem?_cons_succ, List.getElem?_cons_succ]
      have e1 : l.length = c.nDiag := by rw [a3] at c1; simpa using c1
      have e2 : l'.length = n := by rw [b3] at d1; simpa [Cfg.outputs] using d1
      have e3 : lt[k]? = some (((k + 1 : ℕ) : K) * (c.tFinal / c.nDiag)) := by
        have := congrArg (fun x => x[k + 1]?) (a2.symm.trans c2)
        rw [List.getElem?_cons_succ] at this
        rw [this, List.getElem?_map, List.getElem?_range (by omega)]
        rfl
      have e4 : lt'[k']? = some (((k' + 1 : ℕ) : K) * (c.tFinal / n)) := by
        have := congrArg (fun x => x[k' + 1]?) (b2.symm.trans d2)
        rw [List.getElem?_cons_succ] at this
        rw [this, List.getElem?_map, List.getElem?_range (by show k' + 1 < n + 1; omega)]
        rfl
      have e5 : ((k + 1 : ℕ) : K) * (c.tFinal / c.nDiag) = ((k' + 1 : ℕ) : K) * (c.tFinal / n) := by
        have q1 : (c.nDiag : K) ≠ 0 := Nat.cast_ne_zero.mpr hn.ne'
        have q2 : (n : K) ≠ 0 := Nat.cast_ne_zero.mpr hn'.ne'
        have q3 : ((k + 1 : ℕ) : K) * n = ((k' + 1 : ℕ) : K) * c.nDiag := by exact_mod_cast hkk
        field_simp
        linear_combination c.tFinal * q3
      have f1 : k < l.length := by omega
      have f2 : k' < l'.length := by omega
      have g1 : k < lt.length := a4.length_eq ▸ f1
      have g2 : k' < lt'.length := b4.length_eq ▸ f2
      have x1 := a4.get g1 f1
      have x2 := b4.get g2 f2
      rw [List.getElem?_eq_getElem g1] at e3
      rw [List.getElem?_eq_getElem g2] at e4
      have e3 := Option.some.inj e3
      have e4 := Option.some.inj e4
      rw [List.getElem?_eq_getElem f1, List.getElem?_eq_getElem f2]
      refine congrArg some ?_
      have x2 := at_outputs h0 x2
      refine At.unique x2 ?_
      have : c.f32 (lt.get ⟨k, g1⟩) = (c.outputs n o).f32 (lt'.get ⟨k', g2⟩) := by
        show c.f32 (lt[k]) = c.f32 (lt'[k'])
        rw [e3, e4, e5]
      rw [← this]
      exact x1

end

end WakeT.Tracker

namespace WakeT.FieldElement

open Tracker Bunch
open Push (Sched)

variable {F Φ : Type} [LinearOrder F]

/-- **C157.** Without `push_bunches_before_diags`, the number of outputs (and of files) does not influence the
tracking: the bunches and the fields at the end are the same, and so are the outputs at the same
distances. -/
theorem track_outputs {e : Elem F Φ} (h : e.Ok) (hp : e.pushBefore = false) {n : ℕ}
    (hsep : e.f32 (e.length / e.c) < e.f32 (e.length / e.c + e.length / e.c / n)) {opmd opmd' : Bool} {fuel fuel' : ℕ}
    {bs : OneOrMany Bunch} (hb : bs.toList ≠ []) {b0 : Bunch} {φ : Φ} {r r' : OneOrMany (List Bunch)} {w w' : World Φ}
    (hr : e.track opmd fuel bs b0 φ = .returned (r, w))
    (hr' : ({ e with nOut := n } : Elem F Φ).track opmd' fuel' bs b0 φ = .returned (r', w')) :
    w' = w ∧ ∃ ls ls', r = pack ls ∧ r' = pack ls' ∧ ls.length = bs.toList.length ∧ ls'.length = bs.toList.length ∧
      ∀ i < bs.toList.length, ∀ k ≤ e.nOut, ∀ k' ≤ n, k * n = k' * e.nOut →
        ∃ b, (ls.getD i [])[k]? = some b ∧ (ls'.getD i [])[k']? = some b := by
  unfold Elem.track at hr hr'
  dsimp only at hr hr'
  rw [show ({ e with nOut := n } : Elem F Φ).dtList bs.toList.length = e.dtList bs.toList.length from rfl,
    show ({ e with nOut := n } : Elem F Φ).dtFields = e.dtFields from rfl] at hr'
  cases hd : e.dtList bs.toList.length with
  | none => rw [hd] at hr; cases hr
  | some dts =>
  rw [hd] at hr hr'
  dsimp only at hr hr'
  cases hf : e.dtFields with
  | none => rw [hf] at hr; cases hr
  | some dtF =>
  rw [hf] at hr hr'
  dsimp only at hr hr'
  have hc : ({ e with nOut := n } : Elem F Φ).cfg opmd' bs.toList.length dts dtF =
      (e.cfg opmd bs.toList.length dts dtF).outputs n opmd' := rfl
  rw [hc] at hr'
  cases hs : doTracking (e.cfg opmd bs.toList.length dts dtF) fuel (world bs.toList b0 φ) with
  | raised x => rw [hs] at hr; cases x <;> cases hr
  | running => rw [hs] at hr; cases hr
  | returned s =>
  cases hs' : doTracking ((e.cfg opmd bs.toList.length dts dtF).outputs n opmd') fuel' (world bs.toList b0 φ) with
  | raised x => rw [hs'] at hr'; cases x <;> cases hr'
  | running => rw [hs'] at hr'; cases hr'
  | returned s' =>
  rw [hs] at hr
  rw [hs'] at hr'
  dsimp only at hr hr'
  injection hr with hr
  injection hr with hr1 hr2
  injection hr' with hr'
  injection hr' with hr1' hr2'
  have hlen : 0 < bs.toList.length := List.length_pos_iff.mpr hb
  obtain ⟨a1, a2⟩ := outputs_agree (c := e.cfg opmd bs.toList.length dts dtF) h.mono hp (cfg_positive h opmd hd hf)
    (by show 0 < bs.toList.length + e.numFields.length; omega) h.sep hsep hs hs'
  refine ⟨by rw [← hr2, ← hr2', a1], _, _, hr1.symm, hr1'.symm, by simp [bunchLists], by simp [bunchLists], ?_⟩
  intro i hi k hk k' hk' hkk
  obtain ⟨g1, g2⟩ := a2 k hk k' hk' hkk
  have hget : ∀ l : List (World Φ), (bunchLists bs.toList.length l).getD i [] = l.map fun w => w.bunch i := by
    intro l
    simp [bunchLists, List.getD_eq_getElem?_getD, List.getElem?_map, List.getElem?_range, hi]
  rw [hget, hget, List.getElem?_map, List.getElem?_map, g1, List.getElem?_eq_getElem g2]
  exact ⟨_, rfl, rfl⟩

/-- The element of the examples with two and with six outputs: the middle output of the first is the third of
the second one. -/
example (sch : ℕ → Sched) (a b : Bunch) : ∃ fuel fuel' ls ls' w,
    ({ demo sch with pushBefore := false } : Elem ℝ Unit).track false fuel (.many [a, b]) a () = .returned (pack ls, w) ∧
    ({ demo sch with pushBefore := false, nOut := 6 } : Elem ℝ Unit).track true fuel' (.many [a, b]) a () = .returned (pack ls', w) ∧
    ∃ x, (ls.getD 1 [])[1]? = some x ∧ (ls'.getD 1 [])[3]? = some x := by
  have h := demo_ok sch
  have h1 : ({ demo sch with pushBefore := false } : Elem ℝ Unit).Ok := ⟨h.length, h.c, h.steps, h.auto, h.fields, h.mono, h.sep⟩
  have h2 : ({ demo sch with pushBefore := false, nOut := 6 } : Elem ℝ Unit).Ok :=
    ⟨h.length, h.c, h.steps, h.auto, h.fields, h.mono, by norm_num [demo]⟩
  have ha : ∀ b : Bunch, (1 / 5 : ℝ) ≤ 1 / 5 + b.propDistance ^ 2 := fun b => by nlinarith [sq_nonneg b.propDistance]
  obtain ⟨fuel, ⟨r, w⟩, hr⟩ := track_returns h1 strictMono_id (by show 0 < 2; norm_num) (δ := 1 / 5) (by norm_num) ha (.many [a, b])
    (by intro l hl; cases hl; rfl) false a ()
  obtain ⟨fuel', ⟨r', w'⟩, hr'⟩ := track_returns h2 strictMono_id (by show 0 < 6; norm_num) (δ := 1 / 5) (by norm_num) ha (.many [a, b])
    (by intro l hl; cases hl; rfl) true a ()
  obtain ⟨e1, ls, ls', e2, e3, -, -, e4⟩ := track_outputs h1 rfl (n := 6) h2.sep (by simp [OneOrMany.toList]) hr hr'
  subst e1 e2 e3
  exact ⟨fuel, fuel', ls, ls', w', hr, hr', e4 1 (by simp [OneOrMany.toList]) 1 (by show 1 ≤ 2; norm_num) 3 (by norm_num) rfl⟩

end WakeT.FieldElement
