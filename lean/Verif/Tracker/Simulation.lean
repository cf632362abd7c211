import Verif.Tracker.Props

/-! # Trackings that correspond to each other

A general statement about `Tracker.do_tracking` (`Verif.Tracker.Model`): if the bunches of one
tracking are among those of another, the fields and diagnostics are the same and the operations
correspond, then the results correspond.  Used for several bunches (C120) and symmetries (C121). -/

set_option linter.unusedSectionVars false

namespace WakeT.Tracker

variable {K F σ σ' : Type*} [Field K] [LinearOrder K] [IsStrictOrderedRing K] [LinearOrder F]

/-- Specification: the tracking `c'` has some of the bunches of the tracking `c`: bunch `i` of
`c'` is bunch `κ i` of `c`.  `R` is the relation of the worlds, which has to be respected by all
operations.  `QP`, `QU`: what may be assumed of the world of `c` when a bunch is pushed or a
field is updated. -/
structure Corr (c : Cfg K F σ) (c' : Cfg K F σ') (κ : ℕ → ℕ) (R : σ → σ' → Prop)
    (QP : σ → ℕ → K → K → Prop) (QU : σ → ℕ → Prop) : Prop where
  tFinal : c'.tFinal = c.tFinal
  nField : c'.nField = c.nField
  nDiag : c'.nDiag = c.nDiag
  dtField : ∀ j < c.nField, c'.dtField j = c.dtField j
  pushBefore : c'.pushBeforeDiags = c.pushBeforeDiags
  f32 : c'.f32 = c.f32
  lt : ∀ i < c'.nBunch, κ i < c.nBunch
  mono : ∀ i < c'.nBunch, ∀ j < i, κ j < κ i
  dtBunch : ∀ i < c'.nBunch, c'.dtBunch i = c.dtBunch (κ i)
  autoDt : ∀ i < c'.nBunch, c.dtBunch (κ i) = none → ∀ w w', R w w' → c'.autoDt w' i = c.autoDt w (κ i)
  evolve : ∀ i < c'.nBunch, ∀ w w' t dt, R w w' → QP w (κ i) t dt → R (c.evolve w (κ i) t dt) (c'.evolve w' i t dt)
  other : ∀ i < c.nBunch, (∀ k < c'.nBunch, κ k ≠ i) → ∀ w w' t dt, R w w' → QP w i t dt →
    R (c.evolve w i t dt) w'
  update : ∀ j < c.nField, ∀ w w', R w w' → QU w j → R (c.updateF w j) (c'.updateF w' j)

/-- Specification: the assumptions hold whenever a bunch is pushed or a field is updated in a
log of events that starts in the world `w`. -/
def Holds (c : Cfg K F σ) (QP : σ → ℕ → K → K → Prop) (QU : σ → ℕ → Prop) (w : σ) (log : List (Ev K)) : Prop :=
  (∀ before b i t dt after, log = before ++ .push b i t dt :: after → QP (before.foldl c.apply w) i t dt) ∧
  ∀ before j t after, log = before ++ .update j t :: after → QU (before.foldl c.apply w) j

/-- The object of `c` that corresponds to object `i` of `c'`. -/
def Cfg.obj (c : Cfg K F σ) (c' : Cfg K F σ') (κ : ℕ → ℕ) (i : ℕ) : ℕ :=
  if i < c'.nBunch then κ i else i - c'.nBunch + c.nBunch

variable {c : Cfg K F σ} {c' : Cfg K F σ'} {κ : ℕ → ℕ} {R : σ → σ' → Prop} {QP : σ → ℕ → K → K → Prop}
  {QU : σ → ℕ → Prop}

theorem argmin_eq {g : ℕ → F} {n i : ℕ} (hi : i ≤ n) (h1 : ∀ j ≤ n, g i ≤ g j) (h2 : ∀ j < i, g i < g j) :
    argmin g n = i := by
  have h3 := argmin_le g n
  have h4 := argmin_min g n i hi
  rcases lt_trichotomy (argmin g n) i with h | h | h
  · exact absurd h4 (not_le.mpr (h2 _ h))
  · exact h
  · exact absurd (argmin_first g n i h) (not_lt.mpr (h1 _ h3))

theorem obj_lt (h : Corr c c' κ R QP QU) {i : ℕ} (hi : i < c'.nObj) : c.obj c' κ i < c.nObj := by
  have h1 := h.nField
  have h2 := h.nDiag
  unfold Cfg.nObj Cfg.obj at *
  rw [h1, h2] at hi
  by_cases h3 : i < c'.nBunch
  · rw [if_pos h3]
    have := h.lt i h3
    omega
  · rw [if_neg h3]
    omega

theorem obj_mono (h : Corr c c' κ R QP QU) {i j : ℕ} (hij : i < j) : c.obj c' κ i < c.obj c' κ j := by
  unfold Cfg.obj
  split_ifs with h1 h2 h2
  · exact h.mono j h2 i hij
  · have := h.lt i h1
    omega
  · omega
  · omega

theorem obj_inj (h : Corr c c' κ R QP QU) {i j : ℕ} (hij : c.obj c' κ i = c.obj c' κ j) : i = j := by
  rcases lt_trichotomy i j with h1 | h1 | h1
  · exact absurd hij (obj_mono h h1).ne
  · exact h1
  · exact absurd hij (obj_mono h h1).ne'

/-- Every object of `c` that is not a bunch corresponds to one of `c'`. -/
theorem obj_cases (h : Corr c c' κ R QP QU) {i : ℕ} (hi : i < c.nObj) :
    (∃ k < c'.nObj, c.obj c' κ k = i) ∨ (i < c.nBunch ∧ ∀ k < c'.nBunch, κ k ≠ i) := by
  by_cases h1 : i < c.nBunch
  · by_cases h2 : ∃ k < c'.nBunch, κ k = i
    · obtain ⟨k, hk, rfl⟩ := h2
      refine Or.inl ⟨k, ?_, if_pos hk⟩
      unfold Cfg.nObj
      omega
    · exact Or.inr ⟨h1, fun k hk hki => h2 ⟨k, hk, hki⟩⟩
  · refine Or.inl ⟨i - c.nBunch + c'.nBunch, ?_, ?_⟩
    · have h2 := h.nField
      have h3 := h.nDiag
      unfold Cfg.nObj at *
      rw [h2, h3]
      omega
    · unfold Cfg.obj
      rw [if_neg (by omega)]
      omega

/-- Corresponding states. -/
structure Rel (c : Cfg K F σ) (c' : Cfg K F σ') (κ : ℕ → ℕ) (R : σ → σ' → Prop) (s : St K σ) (s' : St K σ') : Prop where
  t : ∀ i < c'.nObj, s'.t i = s.t (c.obj c' κ i)
  dt : ∀ i < c'.nObj, s'.dt i = s.dt (c.obj c' κ i)
  w : R s.w s'.w
  snaps : List.Forall₂ R s.snaps s'.snaps

theorem bunch_lt_nObj {c : Cfg K F σ} {i : ℕ} (hi : i < c.nBunch) : i < c.nObj := by
  unfold Cfg.nObj
  omega

theorem rel_evolve (h : Corr c c' κ R QP QU) {s : St K σ} {s' : St K σ'} (hr : Rel c c' κ R s s') {i : ℕ}
    (hi : i < c'.nBunch) (b : Bool) (tc tn d : K) (hQ : QP s.w (κ i) tc d) :
    Rel c c' κ R (evolveBunch c b s (κ i) tc tn d) (evolveBunch c' b s' i tc tn d) := by
  have ho : c.obj c' κ i = κ i := if_pos hi
  have hw := h.evolve i hi _ _ tc d hr.w hQ
  have hup : ∀ {f : ℕ → K} {f' : ℕ → K} (_ : ∀ k < c'.nObj, f' k = f (c.obj c' κ k)) (v : K), ∀ k < c'.nObj,
      Function.update f' i v k = Function.update f (κ i) v (c.obj c' κ k) := by
    intro f f' hf v k hk
    by_cases hki : k = i
    · subst hki
      rw [Function.update_self, ho, Function.update_self]
    · rw [Function.update_of_ne hki, Function.update_of_ne (fun e => hki (obj_inj h (e.trans ho.symm))), hf k hk]
  have hti : s'.t i = s.t (κ i) := by rw [hr.t i (bunch_lt_nObj hi), ho]
  have hfin : ∀ {f : ℕ → K} {f' : ℕ → K} (_ : ∀ k < c'.nObj, f' k = f (c.obj c' κ k)), ∀ k < c'.nObj,
      (if ¬ (c.f32 tn = c.f32 c.tFinal) ∧ tn + f' i > c.tFinal then Function.update f' i (c.tFinal - tn) else f') k =
      (if ¬ (c.f32 tn = c.f32 c.tFinal) ∧ tn + f (κ i) > c.tFinal then Function.update f (κ i) (c.tFinal - tn) else f)
        (c.obj c' κ k) := by
    intro f f' hf
    have hdi := hf i (bunch_lt_nObj hi)
    rw [ho] at hdi
    rw [hdi]
    split_ifs with hc
    · exact hup hf _
    · exact hf
  refine ⟨?_, ?_, hw, hr.snaps⟩
  · simp only [evolveBunch_t]
    rw [hti]
    exact hup hr.t _
  · unfold evolveBunch
    dsimp only
    rw [h.f32, h.tFinal, h.dtBunch i hi]
    cases hc : c.dtBunch (κ i) with
    | none =>
      dsimp only
      rw [h.autoDt i hi hc _ _ hw]
      exact hfin (hup hr.dt _)
    | some d => exact hfin hr.dt

theorem rel_other (h : Corr c c' κ R QP QU) {s : St K σ} {s' : St K σ'} (hr : Rel c c' κ R s s') {i : ℕ}
    (hi : i < c.nBunch) (hne : ∀ k < c'.nBunch, κ k ≠ i) (b : Bool) (tc tn d : K) (hQ : QP s.w i tc d) :
    Rel c c' κ R (evolveBunch c b s i tc tn d) s' := by
  have hko : ∀ k, c.obj c' κ k ≠ i := by
    intro k
    unfold Cfg.obj
    split_ifs with h1
    · exact hne k h1
    · omega
  refine ⟨fun k hk => ?_, fun k hk => ?_, h.other i hi hne _ _ _ _ hr.w hQ, hr.snaps⟩
  · rw [evolveBunch_t, Function.update_of_ne (hko k)]
    exact hr.t k hk
  · rw [evolveBunch_dt_ne _ _ _ _ _ _ _ (hko k)]
    exact hr.dt k hk

theorem rel_pushAll (h : Corr c c' κ R QP QU) {s : St K σ} {s' : St K σ'} (hr : Rel c c' κ R s s') (tn : K)
    (n : ℕ) (hn : n ≤ c.nBunch) (hQ : ∀ i < n, QP (pushAll c tn i s).w i (s.t i) (tn - s.t i)) :
    ∃ m ≤ c'.nBunch, (∀ k < m, κ k < n) ∧ (∀ k < c'.nBunch, m ≤ k → n ≤ κ k) ∧
      Rel c c' κ R (pushAll c tn n s) (pushAll c' tn m s') := by
  induction n with
  | zero => exact ⟨0, Nat.zero_le _, fun k hk => absurd hk (Nat.not_lt_zero k), fun k _ _ => Nat.zero_le _, hr⟩
  | succ n ih =>
    obtain ⟨m, h1, h2, h3, h4⟩ := ih (by omega) fun i hi => hQ i (by omega)
    have htn : (pushAll c tn n s).t n = s.t n := by rw [pushAll_t, if_neg (lt_irrefl n)]
    have hq := hQ n (by omega)
    by_cases hm : ∃ k < c'.nBunch, κ k = n
    · obtain ⟨k, hk, hkn⟩ := hm
      have hkm : k = m := by
        rcases lt_trichotomy k m with h5 | h5 | h5
        · exact absurd (h2 k h5) (by omega)
        · exact h5
        · have h6 := h.mono k hk m h5
          have h7 := h3 m (by omega) le_rfl
          omega
      subst hkm
      refine ⟨k + 1, hk, fun j hj => ?_, fun j hj hkj => ?_, ?_⟩
      · rcases Nat.lt_succ_iff_lt_or_eq.mp hj with h5 | h5
        · have := h2 j h5
          omega
        · rw [h5]
          omega
      · have := h.mono j hj k (by omega)
        omega
      · have htk : (pushAll c' tn k s').t k = (pushAll c tn n s).t n := by
          rw [h4.t k (bunch_lt_nObj hk)]
          unfold Cfg.obj
          rw [if_pos hk, hkn]
        show Rel c c' κ R (evolveBunch c true (pushAll c tn n s) n _ tn _) (evolveBunch c' true (pushAll c' tn k s') k _ tn _)
        rw [htk]
        have := rel_evolve h h4 hk true ((pushAll c tn n s).t n) tn (tn - (pushAll c tn n s).t n) (by
          rw [hkn, htn]
          exact hq)
        rw [hkn] at this
        exact this
    · refine ⟨m, h1, fun k hk => ?_, fun k hk hmk => ?_, ?_⟩
      · have := h2 k hk
        omega
      · have h5 := h3 k hk hmk
        rcases h5.lt_or_eq with h6 | h6
        · omega
        · exact absurd ⟨k, hk, h6.symm⟩ hm
      · refine rel_other h h4 (by omega) (fun k hk hkn => hm ⟨k, hk, hkn⟩) true _ tn _ ?_
        rw [htn]
        exact hq

/-- All bunches have been pushed. -/
theorem rel_pushAll_all (h : Corr c c' κ R QP QU) {s : St K σ} {s' : St K σ'} (hr : Rel c c' κ R s s') (tn : K)
    (hQ : ∀ i < c.nBunch, QP (pushAll c tn i s).w i (s.t i) (tn - s.t i)) :
    Rel c c' κ R (pushAll c tn c.nBunch s) (pushAll c' tn c'.nBunch s') := by
  obtain ⟨m, h1, -, h3, h4⟩ := rel_pushAll h hr tn c.nBunch le_rfl hQ
  have : m = c'.nBunch := by
    rcases h1.lt_or_eq with h5 | h5
    · have h6 := h3 m h5 le_rfl
      have h7 := h.lt m h5
      omega
    · exact h5
  rw [this] at h4
  exact h4

theorem rel_generate {s : St K σ} {s' : St K σ'} (hr : Rel c c' κ R s s') (t : K) :
    Rel c c' κ R (generateDiagnostics s t) (generateDiagnostics s' t) :=
  ⟨hr.t, hr.dt, hr.w, List.rel_append hr.snaps (List.Forall₂.cons hr.w List.Forall₂.nil)⟩

/-- The log of the initial state of a tracking is extended. -/
theorem log_evolve (b : Bool) (s : St K σ) (i : ℕ) (tc tn d : K) : s.log <+: (evolveBunch c b s i tc tn d).log :=
  ⟨_, rfl⟩

theorem log_advance (s : St K σ) (i : ℕ) : s.log <+: (advance c s i).log := by
  unfold advance
  dsimp only
  split_ifs
  · exact ⟨_, rfl⟩
  · exact ⟨_, rfl⟩
  · unfold generateDiagnostics
    dsimp only
    rw [pushAll_log, List.append_assoc]
    exact ⟨_, rfl⟩
  · exact ⟨_, rfl⟩

theorem log_run (n : ℕ) (s r : St K σ) (h : run c n s = some r) : s.log <+: r.log := by
  refine (run_induction (c := c) (fun x => s.log <+: x.log) (fun x y hx hy => ?_) n s r (List.prefix_refl _) h).1
  simp only [step] at hy
  split at hy
  · cases hy
  · cases hy
    exact hx.trans (log_advance _ _)

theorem run_more {n : ℕ} {s r : St K σ} (h : run c n s = some r) : run c (n + 1) s = some r := by
  induction n generalizing s with
  | zero => simp [run] at h
  | succ n ih =>
    rw [run] at h ⊢
    cases hs : step c s with
    | none =>
      rw [hs] at h
      exact h
    | some x =>
      rw [hs] at h
      exact ih h

theorem holds_push {w : σ} {log : List (Ev K)} (hH : Holds c QP QU w log) {l : List (Ev K)} {b : Bool} {i : ℕ} {t d : K}
    (hl : l ++ [.push b i t d] <+: log) : QP (l.foldl c.apply w) i t d := by
  obtain ⟨r, rfl⟩ := hl
  exact hH.1 l b i t d r (by simp)

theorem holds_update {w : σ} {log : List (Ev K)} (hH : Holds c QP QU w log) {l : List (Ev K)} {j : ℕ} {t : K}
    (hl : l ++ [.update j t] <+: log) : QU (l.foldl c.apply w) j := by
  obtain ⟨r, rfl⟩ := hl
  exact hH.2 l j t r (by simp)

theorem rel_advance (h : Corr c c' κ R QP QU) {s : St K σ} {s' : St K σ'} (hr : Rel c c' κ R s s') {w0 : σ}
    (hrep : Replayed c w0 s) {log : List (Ev K)} (hH : Holds c QP QU w0 log) {i : ℕ}
    (hl : (advance c s i).log <+: log) :
    (∀ k < c'.nObj, c.obj c' κ k = i → Rel c c' κ R (advance c s i) (advance c' s' k)) ∧
    (i < c.nBunch → (∀ k < c'.nBunch, κ k ≠ i) → Rel c c' κ R (advance c s i) s') := by
  refine ⟨fun k hk hki => ?_, fun hi hne => ?_⟩
  · have ht := hr.t k hk
    have hd := hr.dt k hk
    rw [hki] at ht hd
    have hup : ∀ (f : ℕ → K) (f' : ℕ → K) (_ : ∀ k < c'.nObj, f' k = f (c.obj c' κ k)) (v : K), ∀ k' < c'.nObj,
        Function.update f' k v k' = Function.update f i v (c.obj c' κ k') := by
      intro f f' hf v k' hk'
      by_cases he : k' = k
      · subst he
        rw [Function.update_self, hki, Function.update_self]
      · rw [Function.update_of_ne he, Function.update_of_ne (fun e => he (obj_inj h (e.trans hki.symm))), hf k' hk']
    by_cases hb : k < c'.nBunch
    · have hkk : κ k = i := by
        rw [← hki]
        exact (if_pos hb).symm
      have hib : i < c.nBunch := hkk ▸ h.lt k hb
      unfold advance at hl ⊢
      dsimp only at hl ⊢
      rw [if_pos hib] at hl ⊢
      rw [if_pos hb, ht, hd]
      have := rel_evolve h hr hb false (s.t i) (s.t i + s.dt i) (s.dt i) (by
        rw [hkk, hrep.1]
        exact holds_push hH hl)
      rw [hkk] at this
      exact this
    · have hik : i = k - c'.nBunch + c.nBunch := by
        rw [← hki]
        exact if_neg hb
      have hib : ¬ i < c.nBunch := by omega
      have hnf := h.nField
      by_cases hf : k < c'.nBunch + c'.nField
      · have hif : i < c.nBunch + c.nField := by omega
        unfold advance at hl ⊢
        dsimp only at hl ⊢
        rw [if_neg hib, if_pos hif] at hl ⊢
        rw [if_neg hb, if_pos hf, ht, hd]
        have e : k - c'.nBunch = i - c.nBunch := by omega
        rw [e]
        refine ⟨hup _ _ hr.t _, hr.dt, ?_, hr.snaps⟩
        refine h.update _ (by omega) _ _ hr.w ?_
        rw [hrep.1]
        exact holds_update hH hl
      · have hif : ¬ i < c.nBunch + c.nField := by omega
        unfold advance at hl ⊢
        dsimp only at hl ⊢
        rw [if_neg hib, if_neg hif] at hl ⊢
        rw [if_neg hb, if_neg hf, ht, hd, h.pushBefore]
        by_cases hpb : c.pushBeforeDiags = true
        · rw [if_pos hpb] at hl ⊢
          rw [if_pos hpb]
          have hQ : ∀ m < c.nBunch, QP (pushAll c (s.t i + s.dt i) m s).w m (s.t m) (s.t i + s.dt i - s.t m) := by
            intro m hm
            rw [(replayed_pushAll hrep (s.t i + s.dt i) m).1]
            refine holds_push (b := true) hH (List.IsPrefix.trans ?_ hl)
            unfold generateDiagnostics
            dsimp only
            rw [pushAll_log, pushAll_log]
            have : List.range c.nBunch = List.range m ++ (m :: (List.range' (m + 1) (c.nBunch - m - 1))) := by
              rw [List.range_eq_range', List.range_eq_range', ← List.range'_succ]
              have e := List.range'_append_1 (s := 0) (m := m) (n := c.nBunch - m - 1 + 1)
              rw [zero_add] at e
              rw [e]
              congr 1
              omega
            rw [this, List.map_append, List.map_cons]
            exact ⟨(List.range' (m + 1) (c.nBunch - m - 1)).map
              (fun j => Ev.push true j (s.t j) (s.t i + s.dt i - s.t j)) ++ [Ev.diag (s.t i + s.dt i)], by simp⟩
          have h1 := rel_generate (rel_pushAll_all h hr (s.t i + s.dt i) hQ) (s.t i + s.dt i)
          have h2 : (generateDiagnostics (pushAll c' (s.t i + s.dt i) c'.nBunch s') (s.t i + s.dt i)).t k =
              (generateDiagnostics (pushAll c (s.t i + s.dt i) c.nBunch s) (s.t i + s.dt i)).t i := by
            rw [h1.t k hk, hki]
          refine ⟨?_, h1.dt, h1.w, h1.snaps⟩
          dsimp only
          rw [h2]
          exact hup _ _ h1.t _
        · rw [if_neg hpb, if_neg hpb]
          have h1 := rel_generate hr (s.t i + s.dt i)
          refine ⟨?_, h1.dt, h1.w, h1.snaps⟩
          dsimp only
          have h2 : (generateDiagnostics s' (s.t i + s.dt i)).t k = (generateDiagnostics s (s.t i + s.dt i)).t i := ht
          rw [h2]
          exact hup _ _ h1.t _
  · unfold advance at hl ⊢
    dsimp only at hl ⊢
    rw [if_pos hi] at hl ⊢
    refine rel_other h hr hi hne false _ _ _ ?_
    rw [hrep.1]
    exact holds_push hH hl

theorem rel_run (h : Corr c c' κ R QP QU) (hn : 0 < c'.nObj) {w0 : σ} (n : ℕ) {s r : St K σ} {s' : St K σ'}
    (hr : Rel c c' κ R s s') (hrep : Replayed c w0 s) (hrun : run c n s = some r) (hH : Holds c QP QU w0 r.log) :
    ∃ r', run c' n s' = some r' ∧ Rel c c' κ R r r' := by
  have hcn : 0 < c.nObj := (Nat.zero_le _).trans_lt (obj_lt h hn)
  have hval : ∀ {s : St K σ} {s' : St K σ'} (_ : Rel c c' κ R s s') {k : ℕ}, k < c'.nObj →
      c'.f32 (s'.t k + s'.dt k) = c.f32 (s.t (c.obj c' κ k) + s.dt (c.obj c' κ k)) := by
    intro s s' hr k hk
    rw [hr.t k hk, hr.dt k hk, h.f32]
  induction n generalizing s s' with
  | zero => simp [run] at hrun
  | succ n ih =>
    rw [run] at hrun
    cases hs : step c s with
    | none =>
      rw [hs] at hrun
      cases hrun
      refine ⟨s', ?_, hr⟩
      have hst : step c' s' = none := by
        have h1 := step_none hs
        simp only [step]
        have hk : argmin (fun i => c'.f32 (s'.t i + s'.dt i)) (c'.nObj - 1) < c'.nObj := by
          have := argmin_le (fun i => c'.f32 (s'.t i + s'.dt i)) (c'.nObj - 1)
          omega
        rw [if_pos]
        have e := h1 _ (obj_lt h hk)
        rw [← hval hr hk, ← h.tFinal, ← h.f32] at e
        exact e
      rw [run, hst]
    | some s1 =>
      rw [hs] at hrun
      dsimp only at hrun
      have hrep1 := replayed_step _ _ hrep hs
      obtain ⟨i, hi, h1, h2, h3, rfl⟩ := step_some hs hcn
      obtain ⟨ha, hb⟩ := rel_advance (i := i) h hr hrep hH (log_run _ _ _ hrun)
      rcases obj_cases h hi with ⟨k, hk, hki⟩ | ⟨hib, hne⟩
      · obtain ⟨r', hr', hrel⟩ := ih (ha k hk hki) hrep1 hrun
        refine ⟨r', ?_, hrel⟩
        have hst : step c' s' = some (advance c' s' k) := by
          simp only [step]
          have hk' : argmin (fun i => c'.f32 (s'.t i + s'.dt i)) (c'.nObj - 1) = k := by
            refine argmin_eq (by omega) (fun j hj => ?_) (fun j hj => ?_)
            · rw [hval hr hk, hval hr (by omega), hki]
              exact h1 _ (obj_lt h (by omega))
            · rw [hval hr hk, hval hr (by omega), hki]
              exact h2 _ (hki ▸ obj_mono h hj)
          rw [hk', if_neg]
          rw [hval hr hk, hki, h.tFinal, h.f32]
          exact not_lt.mpr h3
        rw [run, hst]
        exact hr'
      · obtain ⟨r', hr', hrel⟩ := ih (hb hib hne) hrep1 hrun
        exact ⟨r', run_more hr', hrel⟩

theorem rel_initFields (h : Corr c c' κ R QP QU) {w : σ} {w' : σ'} (hw : R w w') (n : ℕ) (hn : n ≤ c.nField)
    {log : List (Ev K)} (hH : Holds c QP QU w log) (hl : (initFields c n (blank w)).log <+: log) :
    R (initFields c n (blank (K := K) w)).w (initFields c' n (blank (K := K) w')).w := by
  induction n with
  | zero => exact hw
  | succ n ih =>
    have hl' : (initFields c n (blank w)).log ++ [.update n 0] <+: log := hl
    refine h.update n (by omega) _ _ (ih (by omega) ((List.prefix_append _ _).trans hl')) ?_
    have hrep : Replayed c w (initFields c n (blank w)) := replayed_initFields ⟨rfl, rfl⟩ n
    rw [hrep.1]
    exact holds_update hH hl'

theorem dt0_eq (h : Corr c c' κ R QP QU) {w : σ} {w' : σ'} (hw : R w w') {i : ℕ} (_hi : i < c'.nObj) :
    c'.dt0 w' i = c.dt0 w (c.obj c' κ i) := by
  have hnf := h.nField
  unfold Cfg.dt0 Cfg.obj
  by_cases h1 : i < c'.nBunch
  · rw [if_pos h1, if_pos h1, if_pos (h.lt i h1), h.dtBunch i h1]
    cases hc : c.dtBunch (κ i) with
    | none => exact h.autoDt i h1 hc _ _ hw
    | some d => rfl
  · have h3 : ¬ i - c'.nBunch + c.nBunch < c.nBunch := by omega
    rw [if_neg h1, if_neg h1, if_neg h3]
    by_cases h2 : i < c'.nBunch + c'.nField
    · rw [if_pos h2, if_pos (by omega), h.dtField _ (by omega)]
      congr 1
      omega
    · rw [if_neg h2, if_neg (by omega)]
      unfold Cfg.dtDiag
      rw [h.tFinal, h.nDiag]

/-- If the operations of two trackings correspond, and the first one returns, then the second
one returns with corresponding world and corresponding snapshots. -/
theorem corr_tracking (h : Corr c c' κ R QP QU) {w : σ} {w' : σ'} (hw : R w w') {fuel : ℕ} {s : St K σ}
    (hs : doTracking c fuel w = .returned s) (hH : Holds c QP QU w s.log) :
    ∃ s', doTracking c' fuel w' = .returned s' ∧ R s.w s'.w ∧ List.Forall₂ R s.snaps s'.snaps := by
  obtain ⟨h1, h2, h3⟩ := doTracking_returned hs
  have hn' : 0 < c'.nDiag := h.nDiag ▸ h1
  have ho' : 0 < c'.nObj := by
    unfold Cfg.nObj
    rw [if_pos hn']
    omega
  have hlog : (start c w).log <+: s.log := log_run _ _ _ h3
  have hini := rel_initFields h hw c.nField le_rfl hH ((List.prefix_append _ _).trans hlog)
  have hst : Rel c c' κ R (start c w) (start c' w') := by
    rw [← h.nField] at hini
    refine ⟨fun i _ => ?_, fun i hi => ?_, ?_, ?_⟩
    · show (initFields c' c'.nField (blank w')).t i = (initFields c c.nField (blank w)).t _
      rw [initFields_t, initFields_t]
      rfl
    · show c'.dt0 (initFields c' c'.nField (blank (K := K) w')).w i = c.dt0 (initFields c c.nField (blank (K := K) w)).w _
      rw [← h.nField]
      exact dt0_eq h hini hi
    · show R (initFields c c.nField (blank w)).w _
      rw [← h.nField]
      exact hini
    · show List.Forall₂ R ((initFields c c.nField (blank w)).snaps ++ [(initFields c c.nField (blank w)).w])
        ((initFields c' c'.nField (blank w')).snaps ++ [(initFields c' c'.nField (blank w')).w])
      rw [initFields_snaps, initFields_snaps, ← h.nField]
      show List.Forall₂ R ([] ++ _) ([] ++ _)
      exact List.Forall₂.cons hini List.Forall₂.nil
  obtain ⟨s', h4, h5⟩ := rel_run h ho' fuel hst (replayed_start c w) h3 hH
  refine ⟨s', ?_, h5.w, h5.snaps⟩
  unfold doTracking
  rw [if_neg (by omega), if_neg (by omega), h4]
  dsimp only
  rw [if_neg (by omega)]

end WakeT.Tracker
