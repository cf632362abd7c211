import Verif.Tracker.Lemmas
import Mathlib.Data.List.Basic

/-! # The invariant of the tracking loop -/

set_option linter.unusedSectionVars false

namespace WakeT.Tracker

variable {K F σ : Type*} [Field K] [LinearOrder K] [IsStrictOrderedRing K]
  [LinearOrder F]

/-- Everything that holds on entry of every iteration. -/
structure Inv (c : Cfg K F σ) (w0 : σ) (s : St K σ) : Prop where
  dtpos : ∀ i < c.nObj, 0 < s.dt i
  dtfield : ∀ j < c.nField, s.dt (c.nBunch + j) = c.dtField j
  dtdiag : s.dt c.iDiag = c.dtDiag
  bunchLe : ∀ i < c.nBunch, c.f32 (s.t i) ≤ c.f32 c.tFinal
  bunch : ∀ i < c.nBunch, c.f32 (s.t i) = c.f32 c.tFinal ∨ s.t i + s.dt i ≤ c.tFinal ∨
    (s.t i = 0 ∧ s.dt i = c.dt0 (start c w0).w i)
  tiles : ∀ i < c.nBunch, Tiles 0 (pushesOf i s.log) (s.t i)
  updates : ∀ j < c.nField, ∃ k : ℕ, s.t (c.nBunch + j) = k * c.dtField j ∧
    updateTimes j s.log = (List.range (k + 1)).map (fun m : ℕ => (m : K) * c.dtField j) ∧
    c.f32 (k * c.dtField j) ≤ c.f32 c.tFinal
  diags : ∃ k : ℕ, s.t c.iDiag = k * c.dtDiag ∧
    diagTimes s.log = (List.range (k + 1)).map (fun m : ℕ => (m : K) * c.dtDiag) ∧
    c.f32 (k * c.dtDiag) ≤ c.f32 c.tFinal
  sync : c.pushBeforeDiags → ∀ i < c.nBunch, c.f32 (s.t c.iDiag) ≤ c.f32 (s.t i)
  ordered : s.log.Pairwise (fun a b => c.f32 a.time ≤ c.f32 b.time)
  past : ∀ e ∈ s.log, ∀ i < c.nObj, c.f32 e.time ≤ c.f32 (s.t i + s.dt i)
  noLater : ∀ e ∈ s.log, c.f32 e.time ≤ c.f32 c.tFinal
  snapCount : s.snaps.length = (diagTimes s.log).length
  diagSync : c.pushBeforeDiags → ∀ (n : ℕ) (T : K), s.log[n]? = some (.diag T) →
    ∀ i < c.nBunch, Tiles 0 (pushesOf i (s.log.take n)) T

theorem nBunch_lt_nObj (c : Cfg K F σ) {i : ℕ} (h : i < c.nBunch) : i < c.nObj := by
  unfold Cfg.nObj; omega

theorem field_lt_nObj (c : Cfg K F σ) {j : ℕ} (h : j < c.nField) : c.nBunch + j < c.nObj := by
  unfold Cfg.nObj; omega

theorem inv_start (c : Cfg K F σ) (w : σ) (hp : c.Positive) (hm : Monotone c.f32) :
    Inv c w (start c w) where
  dtpos i hi := by rw [start_dt]; exact dt0_pos c _ hp hi
  dtfield j hj := by
    rw [start_dt]
    have h1 : ¬ c.nBunch + j < c.nBunch := by omega
    have h2 : c.nBunch + j < c.nBunch + c.nField := by omega
    simp [Cfg.dt0, hj]
  dtdiag := by
    rw [start_dt]
    have h1 : ¬ c.iDiag < c.nBunch := by unfold Cfg.iDiag; omega
    have h2 : ¬ c.iDiag < c.nBunch + c.nField := by unfold Cfg.iDiag; omega
    simp [Cfg.dt0, h1, h2]
  bunchLe i hi := by rw [start_t]; exact hm hp.tFinal.le
  bunch i hi := by rw [start_t, start_dt]; right; right; exact ⟨rfl, rfl⟩
  tiles i hi := by
    rw [start_t, start_log]
    simp [pushesOf_updates, Tiles]
  updates j hj := by
    refine ⟨0, ?_, ?_, ?_⟩
    · rw [start_t]; simp
    · rw [start_log]; simp [updateTimes_updates, hj]
    · simpa using hm hp.tFinal.le
  diags := by
    refine ⟨0, ?_, ?_, ?_⟩
    · rw [start_t]; simp
    · rw [start_log]; simp [diagTimes_updates]
    · simpa using hm hp.tFinal.le
  sync _ i hi := by rw [start_t]
  ordered := by
    rw [start_log]
    rw [List.pairwise_append]
    refine ⟨?_, by simp, ?_⟩
    · rw [List.pairwise_map]
      exact List.Pairwise.imp_of_mem (R := fun _ _ => True) (by simp [Ev.time])
        (List.pairwise_of_forall (by simp))
    · simp [Ev.time]
  past e he i hi := by
    have : e.time = 0 := by
      rw [start_log] at he
      simp at he
      rcases he with ⟨a, _, rfl⟩ | rfl <;> rfl
    rw [this, start_t, start_dt]
    apply hm
    have := (dt0_pos c (start c w).w hp hi).le
    simpa using this
  noLater e he := by
    have : e.time = 0 := by
      rw [start_log] at he
      simp at he
      rcases he with ⟨a, _, rfl⟩ | rfl <;> rfl
    rw [this]
    exact hm hp.tFinal.le
  snapCount := by rw [start_snaps, start_log]; simp [diagTimes_updates]
  diagSync _ n T hn i hi := by
    rw [start_log] at hn ⊢
    rcases Nat.lt_or_ge n c.nField with h | h
    · rw [List.getElem?_append_left (by simpa using h)] at hn
      simp [h] at hn
    · rw [List.getElem?_append_right (by simpa using h)] at hn
      have hn' : n = c.nField := by
        by_contra h2
        have h3 : n - c.nField ≠ 0 := by omega
        obtain ⟨m, hm⟩ := Nat.exists_eq_succ_of_ne_zero h3
        simp [hm] at hn
      subst hn'
      simp at hn
      subst hn
      rw [List.take_append_of_le_length (by simp)]
      simp [List.take_of_length_le, pushesOf_updates, Tiles]

/-- Adding an event that is not a diagnostics keeps `diagSync`. -/
theorem diagSync_append {l : List (Ev K)} {e : Ev K} {P : ℕ → Prop}
    (h : ∀ (n : ℕ) (T : K), l[n]? = some (.diag T) →
      ∀ i, P i → Tiles 0 (pushesOf i (l.take n)) T)
    (he : ∀ T, e = .diag T → ∀ i, P i → Tiles 0 (pushesOf i l) T) :
    ∀ (n : ℕ) (T : K), (l ++ [e])[n]? = some (.diag T) →
      ∀ i, P i → Tiles 0 (pushesOf i ((l ++ [e]).take n)) T := by
  intro n T hn i hi
  rcases Nat.lt_or_ge n l.length with h1 | h1
  · rw [List.getElem?_append_left h1] at hn
    rw [List.take_append_of_le_length h1.le]
    exact h n T hn i hi
  · rw [List.getElem?_append_right h1] at hn
    have hn' : n = l.length := by
      by_contra h2
      have h3 : n - l.length ≠ 0 := by omega
      obtain ⟨m, hm⟩ := Nat.exists_eq_succ_of_ne_zero h3
      simp [hm] at hn
    subst hn'
    simp at hn
    rw [List.take_append_of_le_length le_rfl, List.take_length]
    exact he T hn i hi

/-- Order of events under appending. -/
theorem ordered_append {c : Cfg K F σ} {l l' : List (Ev K)} {x : F}
    (h : l.Pairwise (fun a b => c.f32 a.time ≤ c.f32 b.time))
    (hl : ∀ e ∈ l, c.f32 e.time ≤ x) (hl' : ∀ e ∈ l', c.f32 e.time = x) :
    (l ++ l').Pairwise (fun a b => c.f32 a.time ≤ c.f32 b.time) := by
  rw [List.pairwise_append]
  refine ⟨h, ?_, ?_⟩
  · refine List.Pairwise.imp_of_mem (R := fun _ _ => True) ?_
      (List.pairwise_of_forall (by simp))
    intro a b ha hb _
    rw [hl' a ha, hl' b hb]
  · intro a ha b hb
    rw [hl' b hb]
    exact hl a ha

theorem inv_bunch {c : Cfg K F σ} {w0 : σ} {s : St K σ} (hp : c.Positive)
    (hm : Monotone c.f32) (h : Inv c w0 s) {i : ℕ} (hi : i < c.nBunch)
    (hmin : ∀ j < c.nObj, c.f32 (s.t i + s.dt i) ≤ c.f32 (s.t j + s.dt j))
    (hle : c.f32 (s.t i + s.dt i) ≤ c.f32 c.tFinal) :
    Inv c w0 (advance c s i) := by
  rw [advance_bunch c s hi]
  have hio := nBunch_lt_nObj c hi
  have hd := h.dtpos i hio
  obtain ⟨hg1, hg2⟩ := evolveBunch_dt_good c false s i (s.t i) (s.t i + s.dt i) (s.dt i) hp hm hd hle
  have hne : ∀ j, j ≠ i → (evolveBunch c false s i (s.t i) (s.t i + s.dt i) (s.dt i)).dt j = s.dt j :=
    fun j hj => evolveBunch_dt_ne _ _ _ _ _ _ _ hj
  have htne : ∀ j, j ≠ i → (evolveBunch c false s i (s.t i) (s.t i + s.dt i) (s.dt i)).t j = s.t j :=
    fun j hj => by simp [Function.update_of_ne hj]
  have hts : (evolveBunch c false s i (s.t i) (s.t i + s.dt i) (s.dt i)).t i = s.t i + s.dt i := by
    simp
  have hf : ∀ j, c.nBunch + j ≠ i := fun j => by omega
  have hD : c.iDiag ≠ i := by unfold Cfg.iDiag; omega
  refine
    { dtpos := ?_, dtfield := ?_, dtdiag := ?_, bunchLe := ?_, bunch := ?_, tiles := ?_,
      updates := ?_, diags := ?_, sync := ?_, ordered := ?_, past := ?_, noLater := ?_,
      snapCount := ?_, diagSync := ?_ }
  · intro j hj
    by_cases hji : j = i
    · subst hji; exact hg1
    · rw [hne j hji]; exact h.dtpos j hj
  · intro j hj; rw [hne _ (hf j)]; exact h.dtfield j hj
  · rw [hne _ hD]; exact h.dtdiag
  · intro j hj
    by_cases hji : j = i
    · subst hji; rw [hts]; exact hle
    · rw [htne j hji]; exact h.bunchLe j hj
  · intro j hj
    by_cases hji : j = i
    · subst hji; rw [hts]
      rcases hg2 with h2 | h2
      · exact Or.inl h2
      · exact Or.inr (Or.inl h2)
    · rw [htne j hji, hne j hji]; exact h.bunch j hj
  · intro j hj
    rw [evolveBunch_log]
    by_cases hji : j = i
    · subst hji; rw [hts]
      simpa using (h.tiles j hj).snoc
    · rw [htne j hji]
      have : ¬ i = j := fun h => hji h.symm
      simpa [this] using h.tiles j hj
  · intro j hj
    rw [htne _ (hf j), evolveBunch_log]
    simpa using h.updates j hj
  · rw [htne _ hD, evolveBunch_log]
    simpa using h.diags
  · intro hb j hj
    rw [htne _ hD]
    by_cases hji : j = i
    · subst hji; rw [hts]
      exact (h.sync hb j hj).trans (hm (by linarith))
    · rw [htne j hji]; exact h.sync hb j hj
  · rw [evolveBunch_log]
    apply ordered_append h.ordered (fun e he => h.past e he i hio)
    intro e he
    simp at he
    subst he
    rfl
  · have key : ∀ e ∈ s.log ++ [Ev.push false i (s.t i) (s.dt i)],
        c.f32 e.time ≤ c.f32 (s.t i + s.dt i) := by
      intro e he
      rcases List.mem_append.mp he with he | he
      · exact h.past e he i hio
      · simp at he; subst he; exact le_rfl
    intro e he j hj
    rw [evolveBunch_log] at he
    by_cases hji : j = i
    · subst hji; rw [hts]
      exact (key e he).trans (hm (by linarith))
    · rw [htne j hji, hne j hji]
      exact (key e he).trans (hmin j hj)
  · intro e he
    rw [evolveBunch_log] at he
    rcases List.mem_append.mp he with he | he
    · exact h.noLater e he
    · simp at he; subst he; exact hle
  · rw [evolveBunch_snaps, evolveBunch_log]
    simpa using h.snapCount
  · intro hb
    rw [evolveBunch_log]
    exact diagSync_append (P := fun i => i < c.nBunch) (h.diagSync hb) (by intro T hT; cases hT)

theorem inv_field {c : Cfg K F σ} {w0 : σ} {s : St K σ}
    (hm : Monotone c.f32) (h : Inv c w0 s) {j0 : ℕ} (hj0 : j0 < c.nField)
    (hmin : ∀ j < c.nObj, c.f32 (s.t (c.nBunch + j0) + s.dt (c.nBunch + j0)) ≤
      c.f32 (s.t j + s.dt j))
    (hle : c.f32 (s.t (c.nBunch + j0) + s.dt (c.nBunch + j0)) ≤ c.f32 c.tFinal) :
    Inv c w0 (advance c s (c.nBunch + j0)) := by
  rw [advance_field c s (by omega) (by omega)]
  simp only [Nat.add_sub_cancel_left]
  have hio := field_lt_nObj c hj0
  have hd := h.dtpos _ hio
  have hb : ∀ j < c.nBunch, j ≠ c.nBunch + j0 := fun j hj => by omega
  have hD : c.iDiag ≠ c.nBunch + j0 := by unfold Cfg.iDiag; omega
  refine
    { dtpos := h.dtpos, dtfield := h.dtfield, dtdiag := h.dtdiag, bunchLe := ?_, bunch := ?_,
      tiles := ?_, updates := ?_, diags := ?_, sync := ?_, ordered := ?_, past := ?_,
      noLater := ?_, snapCount := ?_, diagSync := ?_ }
  · intro j hj; simp only [Function.update_of_ne (hb j hj)]; exact h.bunchLe j hj
  · intro j hj; simp only [Function.update_of_ne (hb j hj)]; exact h.bunch j hj
  · intro j hj; simp only [Function.update_of_ne (hb j hj)]
    simpa using h.tiles j hj
  · intro j hj
    by_cases hjj : j = j0
    · subst hjj
      obtain ⟨k, hk1, hk2, hk3⟩ := h.updates j hj
      have e : s.t (c.nBunch + j) + s.dt (c.nBunch + j) = ((k + 1 : ℕ) : K) * c.dtField j := by
        rw [hk1, h.dtfield j hj]; push_cast; ring
      refine ⟨k + 1, ?_, ?_, ?_⟩
      · simp only [Function.update_self]; exact e
      · rw [List.range_succ, List.map_append, updateTimes_append, hk2, e]
        simp
      · rw [← e]; exact hle
    · have h1 : c.nBunch + j ≠ c.nBunch + j0 := by omega
      have h2 : ¬ j0 = j := fun h => hjj h.symm
      simp only [Function.update_of_ne h1]
      simpa [h2] using h.updates j hj
  · simp only [Function.update_of_ne hD]
    simpa using h.diags
  · intro hb' j hj
    simp only [Function.update_of_ne hD, Function.update_of_ne (hb j hj)]
    exact h.sync hb' j hj
  · apply ordered_append h.ordered (fun e he => h.past e he _ hio)
    intro e he
    simp at he
    subst he
    rfl
  · have key : ∀ e ∈ s.log ++ [Ev.update j0 (s.t (c.nBunch + j0) + s.dt (c.nBunch + j0))],
        c.f32 e.time ≤ c.f32 (s.t (c.nBunch + j0) + s.dt (c.nBunch + j0)) := by
      intro e he
      rcases List.mem_append.mp he with he | he
      · exact h.past e he _ hio
      · simp at he; subst he; exact le_rfl
    intro e he j hj
    by_cases hji : j = c.nBunch + j0
    · subst hji
      simp only [Function.update_self]
      exact (key e he).trans (hm (by linarith))
    · simp only [Function.update_of_ne hji]
      exact (key e he).trans (hmin j hj)
  · intro e he
    rcases List.mem_append.mp he with he | he
    · exact h.noLater e he
    · simp at he; subst he; exact hle
  · simpa using h.snapCount
  · intro hb'
    exact diagSync_append (P := fun i => i < c.nBunch) (h.diagSync hb') (by intro T hT; cases hT)

/-- Appending several pushes and then the diagnostics. -/
theorem diagSync_append_pushes {l : List (Ev K)} {P : ℕ → Prop}
    (h : ∀ (n : ℕ) (T : K), l[n]? = some (.diag T) →
      ∀ i, P i → Tiles 0 (pushesOf i (l.take n)) T) (N : ℕ) (f g : ℕ → K) :
    ∀ (n : ℕ) (T : K),
      (l ++ (List.range N).map (fun j => Ev.push true j (f j) (g j)))[n]? = some (.diag T) →
      ∀ i, P i → Tiles 0 (pushesOf i
        ((l ++ (List.range N).map (fun j => Ev.push true j (f j) (g j))).take n)) T := by
  induction N with
  | zero => simpa using h
  | succ N ih =>
    rw [List.range_succ, List.map_append, ← List.append_assoc]
    exact diagSync_append ih (by intro T hT; cases hT)

theorem inv_diag {c : Cfg K F σ} {w0 : σ} {s : St K σ} (hp : c.Positive)
    (hm : Monotone c.f32) (h : Inv c w0 s) (hn : 0 < c.nDiag)
    (hmin : ∀ j < c.nObj, c.f32 (s.t c.iDiag + s.dt c.iDiag) ≤ c.f32 (s.t j + s.dt j))
    (hle : c.f32 (s.t c.iDiag + s.dt c.iDiag) ≤ c.f32 c.tFinal) :
    Inv c w0 (advance c s c.iDiag) := by
  rw [advance_diag c s (by unfold Cfg.iDiag; omega) (by unfold Cfg.iDiag; omega)]
  set tn := s.t c.iDiag + s.dt c.iDiag with htn
  have hio : c.iDiag < c.nObj := by unfold Cfg.iDiag Cfg.nObj; simp [hn]
  have hd := h.dtpos _ hio
  have hb : ∀ j < c.nBunch, j ≠ c.iDiag := fun j hj => by unfold Cfg.iDiag; omega
  have hf : ∀ j < c.nField, c.nBunch + j ≠ c.iDiag := fun j hj => by unfold Cfg.iDiag; omega
  have hobj : ∀ j < c.nObj, j < c.nBunch ∨ (∃ m < c.nField, j = c.nBunch + m) ∨ j = c.iDiag := by
    intro j hj
    unfold Cfg.iDiag
    unfold Cfg.nObj at hj
    simp only [hn, if_true] at hj
    rcases Nat.lt_or_ge j c.nBunch with h1 | h1
    · exact Or.inl h1
    · rcases Nat.lt_or_ge j (c.nBunch + c.nField) with h2 | h2
      · exact Or.inr (Or.inl ⟨j - c.nBunch, by omega, by omega⟩)
      · exact Or.inr (Or.inr (by omega))
  obtain ⟨k, hk1, hk2, hk3⟩ := h.diags
  have eD : tn = ((k + 1 : ℕ) : K) * c.dtDiag := by
    rw [htn, hk1, h.dtdiag]; push_cast; ring
  by_cases hpb : c.pushBeforeDiags = true
  · -- with the bunches pushed before
    simp only [beforeDiag, hpb, if_true, generateDiagnostics]
    have hdj : ∀ j < c.nBunch, 0 < s.dt j := fun j hj => h.dtpos j (nBunch_lt_nObj c hj)
    have hg := pushAll_dt_good c tn hp hm hle c.nBunch s hdj
    have hdge := pushAll_dt_ge c tn c.nBunch s
    have ht : ∀ j < c.nBunch, (pushAll c tn c.nBunch s).t j = tn := fun j hj => by
      rw [pushAll_t]; simp [hj]
    have htf : ∀ j, c.nBunch ≤ j → (pushAll c tn c.nBunch s).t j = s.t j := fun j hj => by
      rw [pushAll_t]; simp; omega
    have hDge : c.nBunch ≤ c.iDiag := by unfold Cfg.iDiag; omega
    have hlogT : ∀ e ∈ (List.range c.nBunch).map
        (fun j => Ev.push true j (s.t j) (tn - s.t j)) ++ [Ev.diag tn],
        c.f32 e.time = c.f32 tn := by
      intro e he
      rcases List.mem_append.mp he with he | he
      · rw [List.mem_map] at he
        obtain ⟨a, _, rfl⟩ := he
        simp [Ev.time]
      · simp at he; subst he; rfl
    have hloge : (pushAll c tn c.nBunch s).log ++ [Ev.diag tn] = s.log ++
        ((List.range c.nBunch).map (fun j => Ev.push true j (s.t j) (tn - s.t j)) ++
          [Ev.diag tn]) := by
      rw [pushAll_log, List.append_assoc]
    have hpo : ∀ j < c.nBunch, pushesOf j (pushAll c tn c.nBunch s).log =
        pushesOf j s.log ++ [(s.t j, tn - s.t j)] := fun j hj => by
      rw [pushAll_log, pushesOf_append, pushesOf_pushAll]; simp [hj]
    have htile : ∀ j < c.nBunch, Tiles 0 (pushesOf j (pushAll c tn c.nBunch s).log) tn := by
      intro j hj
      rw [hpo j hj]
      have := (h.tiles j hj).snoc (dt := tn - s.t j)
      simpa using this
    refine
      { dtpos := ?_, dtfield := ?_, dtdiag := ?_, bunchLe := ?_, bunch := ?_, tiles := ?_,
        updates := ?_, diags := ?_, sync := ?_, ordered := ?_, past := ?_, noLater := ?_,
        snapCount := ?_, diagSync := ?_ }
    · intro j hj
      rcases Nat.lt_or_ge j c.nBunch with h1 | h1
      · exact (hg j h1).1
      · simp only [hdge j h1]; exact h.dtpos j hj
    · intro j hj; simp only [hdge _ (by omega : c.nBunch ≤ c.nBunch + j)]; exact h.dtfield j hj
    · simp only [hdge _ hDge]; exact h.dtdiag
    · intro j hj; simp only [Function.update_of_ne (hb j hj), ht j hj]; exact hle
    · intro j hj; simp only [Function.update_of_ne (hb j hj), ht j hj]
      rcases (hg j hj).2 with h2 | h2
      · exact Or.inl h2
      · exact Or.inr (Or.inl h2)
    · intro j hj; simp only [Function.update_of_ne (hb j hj), ht j hj]
      simpa using htile j hj
    · intro j hj
      simp only [Function.update_of_ne (hf j hj), htf _ (by omega : c.nBunch ≤ c.nBunch + j)]
      rw [hloge]
      simpa [updateTimes_pushAll] using h.updates j hj
    · refine ⟨k + 1, ?_, ?_, ?_⟩
      · simp only [Function.update_self]; exact eD
      · rw [hloge, List.range_succ (n := k + 1), List.map_append, diagTimes_append,
          diagTimes_append, diagTimes_pushAll]
        rw [hk2]
        simp only [diagTimes_diag, List.nil_append, List.map_cons, List.map_nil]
        rw [eD]
      · rw [← eD]; exact hle
    · intro _ j hj
      simp only [Function.update_self, Function.update_of_ne (hb j hj), ht j hj, le_refl]
    · show List.Pairwise _ ((pushAll c tn c.nBunch s).log ++ [Ev.diag tn])
      rw [hloge]
      exact ordered_append h.ordered (fun e he => h.past e he _ hio) hlogT
    · have key : ∀ e ∈ (pushAll c tn c.nBunch s).log ++ [Ev.diag tn],
          c.f32 e.time ≤ c.f32 tn := by
        rw [hloge]
        intro e he
        rcases List.mem_append.mp he with he | he
        · exact h.past e he _ hio
        · exact (hlogT e he).le
      intro e he j hj
      have h0 := key e he
      rcases hobj j hj with h1 | ⟨m, h1, rfl⟩ | rfl
      · simp only [Function.update_of_ne (hb j h1), ht j h1]
        exact h0.trans (hm (by linarith [(hg j h1).1]))
      · simp only [Function.update_of_ne (hf m h1),
          htf _ (by omega : c.nBunch ≤ c.nBunch + m),
          hdge _ (by omega : c.nBunch ≤ c.nBunch + m)]
        exact h0.trans (hmin _ hj)
      · simp only [Function.update_self, hdge _ hDge]
        exact h0.trans (hm (by linarith))
    · show ∀ e ∈ (pushAll c tn c.nBunch s).log ++ [Ev.diag tn], _
      rw [hloge]
      intro e he
      rcases List.mem_append.mp he with he | he
      · exact h.noLater e he
      · rw [hlogT e he]; exact hle
    · show (_ ++ [_]).length = _
      rw [List.length_append, pushAll_snaps, h.snapCount]
      show _ = (diagTimes ((pushAll c tn c.nBunch s).log ++ [Ev.diag tn])).length
      rw [hloge]
      simp [diagTimes_pushAll]
    · intro _
      show ∀ (n : ℕ) (T : K), ((pushAll c tn c.nBunch s).log ++ [Ev.diag tn])[n]? = _ → _
      refine diagSync_append (P := fun i => i < c.nBunch) ?_ ?_
      · rw [pushAll_log]
        exact diagSync_append_pushes (P := fun i => i < c.nBunch) (h.diagSync hpb) _ _ _
      · intro T hT i hi
        cases hT
        exact htile i hi
  · -- without
    simp only [beforeDiag, hpb, generateDiagnostics, Bool.false_eq_true, if_false]
    refine
      { dtpos := h.dtpos, dtfield := h.dtfield, dtdiag := h.dtdiag, bunchLe := ?_, bunch := ?_,
        tiles := ?_, updates := ?_, diags := ?_, sync := ?_, ordered := ?_, past := ?_,
        noLater := ?_, snapCount := ?_, diagSync := ?_ }
    · intro j hj; simp only [Function.update_of_ne (hb j hj)]; exact h.bunchLe j hj
    · intro j hj; simp only [Function.update_of_ne (hb j hj)]; exact h.bunch j hj
    · intro j hj; simp only [Function.update_of_ne (hb j hj)]
      simpa using h.tiles j hj
    · intro j hj
      simp only [Function.update_of_ne (hf j hj)]
      simpa using h.updates j hj
    · refine ⟨k + 1, ?_, ?_, ?_⟩
      · simp only [Function.update_self]; exact eD
      · rw [List.range_succ, List.map_append, diagTimes_append, hk2, eD]
        simp
      · rw [← eD]; exact hle
    · intro hb'; exact absurd hb' hpb
    · apply ordered_append h.ordered (fun e he => h.past e he _ hio)
      intro e he
      simp at he
      subst he
      rfl
    · have key : ∀ e ∈ s.log ++ [Ev.diag tn], c.f32 e.time ≤ c.f32 tn := by
        intro e he
        rcases List.mem_append.mp he with he | he
        · exact h.past e he _ hio
        · simp at he; subst he; exact le_rfl
      intro e he j hj
      by_cases hji : j = c.iDiag
      · subst hji
        simp only [Function.update_self]
        exact (key e he).trans (hm (by linarith))
      · simp only [Function.update_of_ne hji]
        exact (key e he).trans (hmin j hj)
    · intro e he
      rcases List.mem_append.mp he with he | he
      · exact h.noLater e he
      · simp at he; subst he; exact hle
    · show (s.snaps ++ [s.w]).length = _
      rw [List.length_append, h.snapCount]
      simp
    · intro hb'; exact absurd hb' hpb

theorem inv_step {c : Cfg K F σ} {w0 : σ} (hp : c.Positive) (hm : Monotone c.f32)
    (hn : 0 < c.nObj) (s s' : St K σ) (h : Inv c w0 s) (hs : step c s = some s') :
    Inv c w0 s' := by
  obtain ⟨i, hi, hmin, _, hle, rfl⟩ := step_some hs hn
  rcases Nat.lt_or_ge i c.nBunch with h1 | h1
  · exact inv_bunch hp hm h h1 hmin hle
  · rcases Nat.lt_or_ge i (c.nBunch + c.nField) with h2 | h2
    · obtain ⟨j, rfl⟩ := Nat.exists_eq_add_of_le h1
      exact inv_field hm h (by omega) hmin hle
    · have h3 : 0 < c.nDiag := by
        by_contra h4
        simp [Cfg.nObj, h4] at hi
        omega
      have h4 : i = c.iDiag := by
        simp [Cfg.nObj, h3] at hi
        unfold Cfg.iDiag
        omega
      subst h4
      exact inv_diag hp hm h h3 hmin hle

/-- The invariant holds when the tracking returns, and no object is due any more. -/
theorem inv_returned {c : Cfg K F σ} {w : σ} {n : ℕ} {s : St K σ} (hp : c.Positive)
    (hm : Monotone c.f32) (h : doTracking c n w = .returned s) :
    Inv c w s ∧ step c s = none ∧ 0 < c.nDiag := by
  obtain ⟨h1, h2, h3⟩ := doTracking_returned h
  obtain ⟨h4, h5⟩ := run_induction (Inv c w) (inv_step hp hm h2) n _ _ (inv_start c w hp hm) h3
  exact ⟨h4, h5, h1⟩

end WakeT.Tracker
