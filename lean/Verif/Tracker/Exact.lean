import Verif.Tracker.Invariant
import Mathlib.Algebra.Order.Floor.Semiring
import Mathlib.Algebra.BigOperators.Group.Finset.Basic
import Mathlib.Algebra.Order.BigOperators.Group.Finset

/-! # Tracker with exact comparison of times: order of events, termination -/

set_option linter.unusedSectionVars false

namespace WakeT.Tracker

variable {K F σ : Type*} [Field K] [LinearOrder K] [IsStrictOrderedRing K]
  [LinearOrder F]

/-- Time step of a bunch after it has been pushed to `T`. -/
def DtNew (c : Cfg K F σ) (j : ℕ) (dOld T d' : K) : Prop :=
  ∃ d1, (d1 = dOld ∨ c.dtBunch j = none ∧ ∃ w, d1 = c.autoDt w j) ∧
    ((d' = d1 ∧ (c.f32 T = c.f32 c.tFinal ∨ T + d1 ≤ c.tFinal)) ∨
     (d' = c.tFinal - T ∧ c.f32 T ≠ c.f32 c.tFinal ∧ c.tFinal < T + d1))

theorem evolveBunch_dtNew (c : Cfg K F σ) (b : Bool) (s : St K σ) (i : ℕ) (tc tn d : K) :
    DtNew c i (s.dt i) tn ((evolveBunch c b s i tc tn d).dt i) := by
  have h := evolveBunch_dt_self c b s i tc tn d
  simp only at h
  cases hb : c.dtBunch i with
  | none =>
    rw [hb] at h
    exact ⟨_, Or.inr ⟨hb, _, rfl⟩, h⟩
  | some e =>
    rw [hb] at h
    exact ⟨_, Or.inl rfl, h⟩

theorem pushAll_dtNew (c : Cfg K F σ) (tn : K) (n : ℕ) (s : St K σ) :
    ∀ j < n, DtNew c j (s.dt j) tn ((pushAll c tn n s).dt j) := by
  induction n with
  | zero => intro j hj; omega
  | succ n ih =>
    intro j hj
    simp only [pushAll]
    by_cases h : j = n
    · subst h
      have := evolveBunch_dtNew c true (pushAll c tn j s) j ((pushAll c tn j s).t j) tn
        (tn - (pushAll c tn j s).t j)
      rwa [pushAll_dt_ge c tn j s j le_rfl] at this
    · rw [evolveBunch_dt_ne _ _ _ _ _ _ _ h]
      exact ih j (by omega)

/-- Rank of object `i`. -/
def Cfg.rankObj (c : Cfg K F σ) (i : ℕ) : ℕ :=
  if i < c.nBunch then 0 else if i < c.nBunch + c.nField then 1 else 2

/-- Everything the exact analysis needs to know about one iteration. -/
structure Effect (c : Cfg K F σ) (s s' : St K σ) (i : ℕ) : Prop where
  lt : i < c.nObj
  min : ∀ j < c.nObj, c.f32 (s.t i + s.dt i) ≤ c.f32 (s.t j + s.dt j)
  first : ∀ j < i, c.f32 (s.t i + s.dt i) < c.f32 (s.t j + s.dt j)
  le : c.f32 (s.t i + s.dt i) ≤ c.f32 c.tFinal
  self : s'.t i = s.t i + s.dt i
  dtself : (i < c.nBunch ∧ DtNew c i (s.dt i) (s.t i + s.dt i) (s'.dt i)) ∨ s'.dt i = s.dt i
  other : ∀ j, j ≠ i → (s'.t j = s.t j ∧ s'.dt j = s.dt j) ∨
    (j < c.nBunch ∧ ¬ i < c.nBunch + c.nField ∧ s'.t j = s.t i + s.dt i ∧
      DtNew c j (s.dt j) (s.t i + s.dt i) (s'.dt j))
  log : ∃ evs, s'.log = s.log ++ evs ∧ ∀ e ∈ evs, e.time = s.t i + s.dt i ∧ e.rank = c.rankObj i

theorem effect_of_step {c : Cfg K F σ} {s s' : St K σ} (h : step c s = some s')
    (hn : 0 < c.nObj) : ∃ i, Effect c s s' i := by
  obtain ⟨i, hi, hmin, hfirst, hle, rfl⟩ := step_some h hn
  refine ⟨i, ?_⟩
  rcases Nat.lt_or_ge i c.nBunch with h1 | h1
  · rw [advance_bunch c s h1]
    refine ⟨hi, hmin, hfirst, hle, by simp, Or.inl ⟨h1, evolveBunch_dtNew _ _ _ _ _ _ _⟩, ?_, ?_⟩
    · intro j hj
      exact Or.inl ⟨by simp [Function.update_of_ne hj], evolveBunch_dt_ne _ _ _ _ _ _ _ hj⟩
    · refine ⟨_, evolveBunch_log _ _ _ _ _ _ _, ?_⟩
      intro e he
      simp at he
      subst he
      simp [Ev.time, Ev.rank, Cfg.rankObj, h1]
  · have h1' : ¬ i < c.nBunch := by omega
    rcases Nat.lt_or_ge i (c.nBunch + c.nField) with h2 | h2
    · rw [advance_field c s h1' h2]
      refine ⟨hi, hmin, hfirst, hle, by simp, Or.inr rfl, ?_, ?_⟩
      · intro j hj
        exact Or.inl ⟨by simp [Function.update_of_ne hj], rfl⟩
      · refine ⟨_, rfl, ?_⟩
        intro e he
        simp at he
        subst he
        simp [Ev.time, Ev.rank, Cfg.rankObj, h1', h2]
    · have h2' : ¬ i < c.nBunch + c.nField := by omega
      rw [advance_diag c s h1' h2']
      have hr : c.rankObj i = 2 := by simp [Cfg.rankObj, h1', h2']
      by_cases hpb : c.pushBeforeDiags = true
      · simp only [beforeDiag, hpb, if_true, generateDiagnostics]
        refine ⟨hi, hmin, hfirst, hle, by simp, Or.inr (pushAll_dt_ge _ _ _ _ _ h1), ?_, ?_⟩
        · intro j hj
          rcases Nat.lt_or_ge j c.nBunch with h3 | h3
          · right
            refine ⟨h3, h2', ?_, pushAll_dtNew _ _ _ _ j h3⟩
            simp [Function.update_of_ne hj, pushAll_t, h3]
          · left
            refine ⟨?_, pushAll_dt_ge _ _ _ _ _ h3⟩
            have : ¬ j < c.nBunch := by omega
            simp [Function.update_of_ne hj, pushAll_t, this]
        · refine ⟨(List.range c.nBunch).map (fun j => Ev.push true j (s.t j)
            (s.t i + s.dt i - s.t j)) ++ [Ev.diag (s.t i + s.dt i)], ?_, ?_⟩
          · rw [pushAll_log, List.append_assoc]
          · intro e he
            rw [hr]
            rcases List.mem_append.mp he with he | he
            · rw [List.mem_map] at he
              obtain ⟨a, _, rfl⟩ := he
              simp [Ev.time, Ev.rank]
            · simp at he; subst he; simp [Ev.time, Ev.rank]
      · simp only [beforeDiag, hpb, generateDiagnostics, Bool.false_eq_true, if_false]
        refine ⟨hi, hmin, hfirst, hle, by simp, Or.inr rfl, ?_, ?_⟩
        · intro j hj
          exact Or.inl ⟨by simp [Function.update_of_ne hj], rfl⟩
        · refine ⟨_, rfl, ?_⟩
          intro e he
          simp at he
          subst he
          simp [Ev.time, Ev.rank, hr]

/-- Order of two events: earlier time, or same time and rank not larger. -/
def Ev.before (a b : Ev K) : Prop := a.time < b.time ∨ (a.time = b.time ∧ a.rank ≤ b.rank)

/-- Exact invariant, for order and termination. -/
structure InvX (c : Cfg K F σ) (δ : K) (s : St K σ) : Prop where
  dtpos : ∀ i < c.nObj, 0 < s.dt i
  le : ∀ i < c.nObj, s.t i ≤ c.tFinal
  ahead : ∀ i < c.nObj, ∀ j < c.nObj, s.t i ≤ s.t j + s.dt j
  low : ∀ i < c.nObj, δ ≤ s.dt i ∨ s.t i + s.dt i = c.tFinal ∨ s.t i = c.tFinal
  ordered : s.log.Pairwise Ev.before
  past : ∀ e ∈ s.log, ∀ i < c.nObj, e.time < s.t i + s.dt i ∨
    (e.time = s.t i + s.dt i ∧ e.rank ≤ c.rankObj i)

/-- The time steps are bounded below by `δ`. -/
structure Cfg.Bounded (c : Cfg K F σ) (δ : K) : Prop where
  bunch : ∀ i < c.nBunch, ∀ d, c.dtBunch i = some d → δ ≤ d
  auto : ∀ w i, δ ≤ c.autoDt w i
  field : ∀ j < c.nField, δ ≤ c.dtField j
  diag : 0 < c.nDiag → δ ≤ c.dtDiag

theorem Cfg.Bounded.positive {c : Cfg K F σ} {δ : K} (h : c.Bounded δ) (hδ : 0 < δ)
    (ht : 0 < c.tFinal) : c.Positive :=
  ⟨ht, fun i hi d hd => hδ.trans_le (h.bunch i hi d hd),
    fun w i => hδ.trans_le (h.auto w i), fun j hj => hδ.trans_le (h.field j hj)⟩

theorem Cfg.Positive.bounded {c : Cfg K F σ} (h : c.Positive) : c.Bounded 0 :=
  ⟨fun i hi d hd => (h.bunch i hi d hd).le, fun w i => (h.auto w i).le,
    fun j hj => (h.field j hj).le, fun hn => (dtDiag_pos c h hn).le⟩

theorem dt0_low {c : Cfg K F σ} {δ : K} (h : c.Bounded δ) (w : σ) {i : ℕ} (hi : i < c.nObj) :
    δ ≤ c.dt0 w i := by
  by_cases h1 : i < c.nBunch
  · simp only [Cfg.dt0, h1, if_true]
    split
    · exact h.auto _ _
    · rename_i d hd; exact h.bunch i h1 d hd
  · simp only [Cfg.dt0, h1, if_false]
    split
    · exact h.field _ (by omega)
    · apply h.diag
      by_contra h2
      simp [Cfg.nObj, h2] at hi
      omega

theorem invX_start {c : Cfg K F σ} {δ : K} (h : c.Bounded δ) (hp : c.Positive) (w : σ) :
    InvX c δ (start c w) where
  dtpos i hi := by rw [start_dt]; exact dt0_pos c _ hp hi
  le i hi := by rw [start_t]; exact hp.tFinal.le
  ahead i hi j hj := by
    rw [start_t, start_dt]
    have := (dt0_pos c (start c w).w hp hj).le
    simpa using this
  low i hi := Or.inl (by rw [start_dt]; exact dt0_low h _ hi)
  ordered := by
    rw [start_log, List.pairwise_append]
    refine ⟨?_, by simp, ?_⟩
    · rw [List.pairwise_map]
      exact List.Pairwise.imp_of_mem (R := fun _ _ => True)
        (by simp [Ev.before, Ev.time, Ev.rank]) (List.pairwise_of_forall (by simp))
    · simp [Ev.before, Ev.time, Ev.rank]
  past e he i hi := by
    left
    have : e.time = 0 := by
      rw [start_log] at he
      simp at he
      rcases he with ⟨a, _, rfl⟩ | rfl <;> rfl
    rw [this, start_t, start_dt]
    have := dt0_pos c (start c w).w hp hi
    simpa using this

/-- The new time step under exact comparison. -/
theorem dtNew_exact {c : Cfg K F σ} {δ : K} (hb : c.Bounded δ) (hp : c.Positive) (hm : StrictMono c.f32)
    {j : ℕ} {t dOld T d' : K} (h : DtNew c j dOld T d') (hd : 0 < dOld) (hT : T ≤ c.tFinal)
    (ht : t ≤ T) (hlow : δ ≤ dOld ∨ t + dOld = c.tFinal ∨ t = c.tFinal) :
    0 < d' ∧ (δ ≤ d' ∨ T + d' = c.tFinal ∨ T = c.tFinal) := by
  obtain ⟨d1, h1, h2⟩ := h
  have hd1 : 0 < d1 := by
    rcases h1 with rfl | ⟨-, w, rfl⟩
    · exact hd
    · exact hp.auto _ _
  rcases h2 with ⟨rfl, h3⟩ | ⟨rfl, h3, _⟩
  · refine ⟨hd1, ?_⟩
    rcases h1 with rfl | ⟨-, w, rfl⟩
    · rcases hlow with h4 | h4 | h4
      · exact Or.inl h4
      · rcases h3 with h3 | h3
        · exact Or.inr (Or.inr (hm.injective h3))
        · right; left; linarith
      · right; right; linarith
    · exact Or.inl (hb.auto _ _)
  · have h4 : T ≠ c.tFinal := fun h => h3 (by rw [h])
    have h5 : T < c.tFinal := lt_of_le_of_ne hT h4
    exact ⟨by linarith, Or.inr (Or.inl (by ring))⟩

theorem rankObj_mono (c : Cfg K F σ) {i j : ℕ} (h : i ≤ j) : c.rankObj i ≤ c.rankObj j := by
  unfold Cfg.rankObj
  split_ifs <;> omega

theorem invX_step {c : Cfg K F σ} {δ : K} (hb : c.Bounded δ) (hp : c.Positive) (hm : StrictMono c.f32)
    (hn : 0 < c.nObj) (s s' : St K σ) (h : InvX c δ s)
    (hs : step c s = some s') : InvX c δ s' := by
  obtain ⟨i, E⟩ := effect_of_step hs hn
  set T := s.t i + s.dt i with hT
  have hTle : T ≤ c.tFinal := hm.le_iff_le.mp E.le
  have hmin : ∀ j < c.nObj, T ≤ s.t j + s.dt j := fun j hj => hm.le_iff_le.mp (E.min j hj)
  have hdi := h.dtpos i E.lt
  -- times and steps of all objects after the iteration
  have key : ∀ j < c.nObj, 0 < s'.dt j ∧ s'.t j ≤ T ∧
      (δ ≤ s'.dt j ∨ s'.t j + s'.dt j = c.tFinal ∨ s'.t j = c.tFinal) ∧
      T ≤ s'.t j + s'.dt j ∧
      (T < s'.t j + s'.dt j ∨
        (s'.t j = s.t j ∧ s'.dt j = s.dt j ∧ c.rankObj i ≤ c.rankObj j)) := by
    intro j hj
    by_cases hji : j = i
    · subst hji
      have h1 : 0 < s'.dt j ∧ (δ ≤ s'.dt j ∨ T + s'.dt j = c.tFinal ∨ T = c.tFinal) := by
        rcases E.dtself with ⟨_, h1⟩ | h1
        · exact dtNew_exact hb hp hm h1 hdi hTle (by linarith : s.t j ≤ T) (h.low j hj)
        · rw [h1]
          refine ⟨hdi, ?_⟩
          rcases h.low j hj with h2 | h2 | h2
          · exact Or.inl h2
          · right; right; exact h2
          · right; right; linarith
      rw [E.self]
      exact ⟨h1.1, le_rfl, h1.2, by linarith [h1.1], Or.inl (by linarith [h1.1])⟩
    · rcases E.other j hji with ⟨h1, h2⟩ | ⟨h1, h2, h3, h4⟩
      · rw [h1, h2]
        refine ⟨h.dtpos j hj, ?_, h.low j hj, hmin j hj, ?_⟩
        · exact (h.ahead j hj i E.lt)
        · rcases Nat.lt_or_ge j i with h3 | h3
          · exact Or.inl (hm.lt_iff_lt.mp (E.first j h3))
          · exact Or.inr ⟨rfl, rfl, rankObj_mono c h3⟩
      · have h5 := dtNew_exact hb hp hm h4 (h.dtpos j hj) hTle (h.ahead j hj i E.lt) (h.low j hj)
        rw [h3]
        exact ⟨h5.1, le_rfl, h5.2, by linarith [h5.1], Or.inl (by linarith [h5.1])⟩
  obtain ⟨evs, hlog, hevs⟩ := E.log
  have hpast : ∀ e ∈ s'.log, e.time ≤ T ∧ (e.time = T → e.rank ≤ c.rankObj i) := by
    intro e he
    rw [hlog] at he
    rcases List.mem_append.mp he with he | he
    · rcases h.past e he i E.lt with h1 | h1
      · exact ⟨h1.le, fun h2 => absurd h2 h1.ne⟩
      · exact ⟨h1.1.le, fun _ => h1.2⟩
    · exact ⟨(hevs e he).1.le, fun _ => (hevs e he).2.le⟩
  refine ⟨fun j hj => (key j hj).1, fun j hj => (key j hj).2.1.trans hTle, ?_,
    fun j hj => (key j hj).2.2.1, ?_, ?_⟩
  · intro j hj k hk
    exact (key j hj).2.1.trans (key k hk).2.2.2.1
  · rw [hlog, List.pairwise_append]
    refine ⟨h.ordered, ?_, ?_⟩
    · refine List.Pairwise.imp_of_mem (R := fun _ _ => True) ?_
        (List.pairwise_of_forall (by simp))
      intro a b ha hb _
      right
      rw [(hevs a ha).1, (hevs b hb).1, (hevs a ha).2, (hevs b hb).2]
      exact ⟨rfl, le_rfl⟩
    · intro a ha b hb
      unfold Ev.before
      rw [(hevs b hb).1, (hevs b hb).2]
      exact h.past a ha i E.lt
  · intro e he j hj
    obtain ⟨h1, h2⟩ := hpast e he
    rcases (key j hj).2.2.2.2 with h3 | ⟨h3, h4, h5⟩
    · left; linarith
    · rw [h3, h4]
      rcases lt_or_eq_of_le h1 with h6 | h6
      · left; exact h6.trans_le (hmin j hj)
      · rcases lt_or_eq_of_le (hmin j hj) with h7 | h7
        · left; rw [h6]; exact h7
        · right; exact ⟨h6.trans h7, (h2 h6).trans h5⟩

variable [FloorSemiring K]

/-- Upper bound for the number of iterations still to be done. -/
def potential (c : Cfg K F σ) (δ : K) (s : St K σ) : ℕ :=
  ∑ i ∈ Finset.range c.nObj, ⌈(c.tFinal - s.t i) / δ⌉₊

theorem potential_step {c : Cfg K F σ} {δ : K} (hb : c.Bounded δ) (hδ : 0 < δ)
    (hp : c.Positive) (hm : StrictMono c.f32)
    (hn : 0 < c.nObj) {s s' : St K σ} (h : InvX c δ s) (hs : step c s = some s') :
    potential c δ s' < potential c δ s := by
  have h' := invX_step hb hp hm hn s s' h hs
  obtain ⟨i, E⟩ := effect_of_step hs hn
  have hTle : s.t i + s.dt i ≤ c.tFinal := hm.le_iff_le.mp E.le
  have hdi := h.dtpos i E.lt
  apply Finset.sum_lt_sum
  · intro j hj
    have hj := Finset.mem_range.mp hj
    apply Nat.ceil_mono
    apply div_le_div_of_nonneg_right _ hδ.le
    have : s.t j ≤ s'.t j := by
      by_cases hji : j = i
      · subst hji; rw [E.self]; linarith
      · rcases E.other j hji with ⟨h1, _⟩ | ⟨_, _, h3, _⟩
        · rw [h1]
        · rw [h3]; exact h.ahead j hj i E.lt
    linarith
  · refine ⟨i, Finset.mem_range.mpr E.lt, ?_⟩
    rw [E.self]
    rcases h.low i E.lt with h1 | h1 | h1
    · rw [Nat.lt_ceil]
      have h2 : (c.tFinal - s.t i) / δ = (c.tFinal - (s.t i + δ)) / δ + 1 := by
        rw [eq_comm, div_add_one hδ.ne']; congr 1; ring
      rw [h2]
      have h3 : (c.tFinal - (s.t i + s.dt i)) / δ ≤ (c.tFinal - (s.t i + δ)) / δ :=
        div_le_div_of_nonneg_right (by linarith) hδ.le
      have h4 := Nat.ceil_lt_add_one
        (div_nonneg (by linarith : (0 : K) ≤ c.tFinal - (s.t i + s.dt i)) hδ.le)
      linarith
    · have : (c.tFinal - (s.t i + s.dt i)) / δ = 0 := by rw [h1]; simp
      rw [this, Nat.ceil_zero, Nat.ceil_pos]
      exact div_pos (by linarith) hδ
    · exfalso; linarith

theorem run_terminates {c : Cfg K F σ} {δ : K} (hb : c.Bounded δ) (hδ : 0 < δ)
    (hp : c.Positive) (hm : StrictMono c.f32)
    (hn : 0 < c.nObj) :
    ∀ (n : ℕ) (s : St K σ), InvX c δ s → potential c δ s < n → ∃ r, run c n s = some r := by
  intro n
  induction n with
  | zero => intro s _ h; omega
  | succ n ih =>
    intro s hs hpot
    simp only [run]
    cases hst : step c s with
    | none => exact ⟨s, rfl⟩
    | some s' =>
      have := potential_step hb hδ hp hm hn hs hst
      exact ih s' (invX_step hb hp hm hn s s' hs hst) (by omega)

end WakeT.Tracker
