import Verif.Tracker.Spec
import Mathlib.Tactic.Linarith
import Mathlib.Tactic.FieldSimp
import Mathlib.Tactic.Ring

/-! # Helper lemmas for the tracker -/

set_option linter.unusedSectionVars false

namespace WakeT.Tracker

variable {K F σ : Type*} [Field K] [LinearOrder K] [IsStrictOrderedRing K]
  [LinearOrder F]

section argmin

theorem argmin_le (g : ℕ → F) (n : ℕ) : argmin g n ≤ n := by
  induction n with
  | zero => simp [argmin]
  | succ n ih => simp only [argmin]; split <;> omega

theorem argmin_min (g : ℕ → F) (n : ℕ) : ∀ j ≤ n, g (argmin g n) ≤ g j := by
  induction n with
  | zero => intro j hj; obtain rfl : j = 0 := by omega
            simp [argmin]
  | succ n ih =>
    intro j hj
    simp only [argmin]
    rcases Nat.lt_or_ge j (n + 1) with h | h
    · split
      · rename_i h'; exact (h'.le).trans (ih j (by omega))
      · exact ih j (by omega)
    · obtain rfl : j = n + 1 := by omega
      split
      · exact le_rfl
      · rename_i h'; exact not_lt.mp h'

theorem argmin_first (g : ℕ → F) (n : ℕ) : ∀ j < argmin g n, g (argmin g n) < g j := by
  induction n with
  | zero => intro j hj; simp [argmin] at hj
  | succ n ih =>
    intro j
    simp only [argmin]
    split
    · rename_i h'
      intro hj
      exact h'.trans_le (argmin_min g n j (by omega))
    · exact ih j

end argmin

section tiles

theorem Tiles.snoc {a : K} {l : List (K × K)} {b dt : K} (h : Tiles a l b) :
    Tiles a (l ++ [(b, dt)]) (b + dt) := by
  induction l generalizing a with
  | nil => obtain rfl : a = b := h
           exact ⟨rfl, rfl⟩
  | cons p l ih => obtain ⟨t, d⟩ := p
                   exact ⟨h.1, ih h.2⟩

theorem Tiles.sum {a : K} {l : List (K × K)} {b : K} (h : Tiles a l b) :
    a + (l.map Prod.snd).sum = b := by
  induction l generalizing a with
  | nil => simpa [Tiles] using h
  | cons p l ih => obtain ⟨t, d⟩ := p
                   have := ih h.2
                   simp only [List.map_cons, List.sum_cons]
                   linarith

@[simp] theorem pushesOf_append (i : ℕ) (l l' : List (Ev K)) :
    pushesOf i (l ++ l') = pushesOf i l ++ pushesOf i l' := by
  simp [pushesOf]

@[simp] theorem updateTimes_append (i : ℕ) (l l' : List (Ev K)) :
    updateTimes i (l ++ l') = updateTimes i l ++ updateTimes i l' := by
  simp [updateTimes]

@[simp] theorem diagTimes_append (l l' : List (Ev K)) :
    diagTimes (l ++ l') = diagTimes l ++ diagTimes l' := by
  simp [diagTimes]

@[simp] theorem pushesOf_nil (i : ℕ) : pushesOf i ([] : List (Ev K)) = [] := rfl
@[simp] theorem updateTimes_nil (i : ℕ) : updateTimes i ([] : List (Ev K)) = [] := rfl
@[simp] theorem diagTimes_nil : diagTimes ([] : List (Ev K)) = [] := rfl

@[simp] theorem pushesOf_push (b : Bool) (i j : ℕ) (t dt : K) :
    pushesOf i [Ev.push b j t dt] = if j = i then [(t, dt)] else [] := by
  by_cases h : j = i <;> simp [pushesOf, h]
@[simp] theorem pushesOf_update (i j : ℕ) (t : K) : pushesOf i [Ev.update j t] = [] := rfl
@[simp] theorem pushesOf_diag (i : ℕ) (t : K) : pushesOf i [Ev.diag t] = [] := rfl
@[simp] theorem updateTimes_push (b : Bool) (i j : ℕ) (t dt : K) :
    updateTimes i [Ev.push b j t dt] = [] := rfl
@[simp] theorem updateTimes_update (i j : ℕ) (t : K) :
    updateTimes i [Ev.update j t] = if j = i then [t] else [] := by
  by_cases h : j = i <;> simp [updateTimes, h]
@[simp] theorem updateTimes_diag (i : ℕ) (t : K) : updateTimes i [Ev.diag t] = [] := rfl
@[simp] theorem diagTimes_push (b : Bool) (j : ℕ) (t dt : K) :
    diagTimes [Ev.push b j t dt] = [] := rfl
@[simp] theorem diagTimes_update (j : ℕ) (t : K) : diagTimes [Ev.update j t] = [] := rfl
@[simp] theorem diagTimes_diag (t : K) : diagTimes [Ev.diag t] = [t] := rfl

end tiles

/-! ### Iteration -/

theorem step_none {c : Cfg K F σ} {s : St K σ} (h : step c s = none) :
    ∀ j < c.nObj, c.f32 c.tFinal < c.f32 (s.t j + s.dt j) := by
  intro j hj
  simp only [step] at h
  split at h
  · rename_i h1
    exact lt_of_lt_of_le h1
      (argmin_min (fun i => c.f32 (s.t i + s.dt i)) (c.nObj - 1) j (by omega))
  · cases h

/-- What one iteration does: the object with the first minimal next time is
advanced. -/
theorem step_some {c : Cfg K F σ} {s s' : St K σ} (h : step c s = some s')
    (hn : 0 < c.nObj) :
    ∃ i < c.nObj, (∀ j < c.nObj, c.f32 (s.t i + s.dt i) ≤ c.f32 (s.t j + s.dt j)) ∧
      (∀ j < i, c.f32 (s.t i + s.dt i) < c.f32 (s.t j + s.dt j)) ∧
      c.f32 (s.t i + s.dt i) ≤ c.f32 c.tFinal ∧ s' = advance c s i := by
  simp only [step] at h
  split at h
  · cases h
  · rename_i h1
    refine ⟨argmin (fun i => c.f32 (s.t i + s.dt i)) (c.nObj - 1), ?_, ?_, ?_, ?_, ?_⟩
    · have := argmin_le (fun i => c.f32 (s.t i + s.dt i)) (c.nObj - 1)
      omega
    · intro j hj
      exact argmin_min (fun i => c.f32 (s.t i + s.dt i)) (c.nObj - 1) j (by omega)
    · exact argmin_first (fun i => c.f32 (s.t i + s.dt i)) (c.nObj - 1)
    · exact not_lt.mp h1
    · exact (Option.some.inj h).symm

/-- Induction principle for the loop. -/
theorem run_induction {c : Cfg K F σ} (P : St K σ → Prop)
    (hstep : ∀ s s', P s → step c s = some s' → P s') :
    ∀ (n : ℕ) (s r : St K σ), P s → run c n s = some r → P r ∧ step c r = none := by
  intro n
  induction n with
  | zero => intro s r _ h; simp [run] at h
  | succ n ih =>
    intro s r hs h
    simp only [run] at h
    split at h
    · rename_i h1
      cases h
      exact ⟨hs, h1⟩
    · rename_i s' h1
      exact ih s' r (hstep s s' hs h1) h

theorem doTracking_returned {c : Cfg K F σ} {n : ℕ} {w : σ} {s : St K σ}
    (h : doTracking c n w = .returned s) :
    0 < c.nDiag ∧ 0 < c.nObj ∧ run c n (start c w) = some s := by
  unfold doTracking at h
  split at h
  · cases h
  · split at h
    · cases h
    · split at h
      · cases h
      · split at h
        · cases h
        · rename_i h2 _ s' h4 h5
          cases h
          exact ⟨by omega, by omega, h4⟩

/-! ### `evolveBunch` -/

section evolveBunch
variable (c : Cfg K F σ) (b : Bool) (s : St K σ) (i : ℕ) (tc tn d : K)

@[simp] theorem evolveBunch_t :
    (evolveBunch c b s i tc tn d).t = Function.update s.t i (s.t i + d) := rfl

@[simp] theorem evolveBunch_log :
    (evolveBunch c b s i tc tn d).log = s.log ++ [.push b i tc d] := rfl

@[simp] theorem evolveBunch_snaps :
    (evolveBunch c b s i tc tn d).snaps = s.snaps := rfl

theorem evolveBunch_dt_ne {j : ℕ} (h : j ≠ i) :
    (evolveBunch c b s i tc tn d).dt j = s.dt j := by
  simp only [evolveBunch]
  split <;> split <;> simp [Function.update_of_ne h]

/-- The time step of the bunch after a push: the old one or the adaptive one,
or the remaining time. -/
theorem evolveBunch_dt_self :
    let d' := (evolveBunch c b s i tc tn d).dt i
    let d1 := match c.dtBunch i with
      | none => c.autoDt (c.evolve s.w i tc d) i
      | some _ => s.dt i
    (d' = d1 ∧ (c.f32 tn = c.f32 c.tFinal ∨ tn + d1 ≤ c.tFinal)) ∨
    (d' = c.tFinal - tn ∧ c.f32 tn ≠ c.f32 c.tFinal ∧ c.tFinal < tn + d1) := by
  simp only [evolveBunch]
  cases hb : c.dtBunch i with
  | none =>
    simp only [Function.update_self]
    by_cases h : ¬ (c.f32 tn = c.f32 c.tFinal) ∧ tn + c.autoDt (c.evolve s.w i tc d) i > c.tFinal
    · right; rw [if_pos h]; simp; exact ⟨h.1, h.2⟩
    · left; rw [if_neg h]; simp
      by_cases h1 : c.f32 tn = c.f32 c.tFinal
      · exact Or.inl h1
      · right; by_contra h2; exact h ⟨h1, not_le.mp h2⟩
  | some e =>
    by_cases h : ¬ (c.f32 tn = c.f32 c.tFinal) ∧ tn + s.dt i > c.tFinal
    · right; rw [if_pos h]; simp; exact ⟨h.1, h.2⟩
    · left; rw [if_neg h]; simp
      by_cases h1 : c.f32 tn = c.f32 c.tFinal
      · exact Or.inl h1
      · right; by_contra h2; exact h ⟨h1, not_le.mp h2⟩

/-- Positivity of the new time step and the bound on the next time. -/
theorem evolveBunch_dt_good (hp : c.Positive) (hm : Monotone c.f32)
    (hd : 0 < s.dt i) (hle : c.f32 tn ≤ c.f32 c.tFinal) :
    0 < (evolveBunch c b s i tc tn d).dt i ∧
    (c.f32 tn = c.f32 c.tFinal ∨ tn + (evolveBunch c b s i tc tn d).dt i ≤ c.tFinal) := by
  have h1 : 0 < (match c.dtBunch i with
      | none => c.autoDt (c.evolve s.w i tc d) i
      | some _ => s.dt i) := by
    split
    · exact hp.auto _ _
    · exact hd
  rcases evolveBunch_dt_self c b s i tc tn d with ⟨h, h'⟩ | ⟨h, h2, h3⟩
  · rw [h]; exact ⟨h1, h'⟩
  · rw [h]
    have : tn < c.tFinal := by
      by_contra h4
      exact h2 (le_antisymm hle (hm (not_lt.mp h4)))
    exact ⟨by linarith, Or.inr (by linarith)⟩

end evolveBunch

/-! ### `pushAll` -/

section pushAll
variable (c : Cfg K F σ) (tn : K)

theorem pushAll_t (n : ℕ) (s : St K σ) :
    ∀ j, (pushAll c tn n s).t j = if j < n then tn else s.t j := by
  induction n with
  | zero => intro j; simp [pushAll]
  | succ n ih =>
    intro j
    simp only [pushAll, evolveBunch_t]
    by_cases h : j = n
    · subst h; simp
    · rw [Function.update_of_ne h, ih]
      by_cases h2 : j < n
      · simp [h2, Nat.lt_succ_of_lt h2]
      · have : ¬ j < n + 1 := by omega
        simp [h2, this]

theorem pushAll_log (n : ℕ) (s : St K σ) :
    (pushAll c tn n s).log =
      s.log ++ (List.range n).map (fun j => Ev.push true j (s.t j) (tn - s.t j)) := by
  induction n with
  | zero => simp [pushAll]
  | succ n ih =>
    simp only [pushAll, evolveBunch_log, ih, pushAll_t, lt_irrefl, if_false,
      List.range_succ, List.map_append, List.map_cons, List.map_nil, List.append_assoc]

@[simp] theorem pushAll_snaps (n : ℕ) (s : St K σ) :
    (pushAll c tn n s).snaps = s.snaps := by
  induction n with
  | zero => simp [pushAll]
  | succ n ih => simp [pushAll, ih]

theorem pushAll_dt_ge (n : ℕ) (s : St K σ) :
    ∀ j, n ≤ j → (pushAll c tn n s).dt j = s.dt j := by
  induction n with
  | zero => intro j _; simp [pushAll]
  | succ n ih =>
    intro j hj
    simp only [pushAll]
    rw [evolveBunch_dt_ne _ _ _ _ _ _ _ (by omega)]
    exact ih j (by omega)

theorem pushAll_dt_good (hp : c.Positive) (hm : Monotone c.f32)
    (hle : c.f32 tn ≤ c.f32 c.tFinal) (n : ℕ) (s : St K σ) (hd : ∀ j < n, 0 < s.dt j) :
    ∀ j < n, 0 < (pushAll c tn n s).dt j ∧
      (c.f32 tn = c.f32 c.tFinal ∨ tn + (pushAll c tn n s).dt j ≤ c.tFinal) := by
  induction n with
  | zero => intro j hj; omega
  | succ n ih =>
    intro j hj
    simp only [pushAll]
    by_cases h : j = n
    · subst h
      apply evolveBunch_dt_good c true _ j _ tn _ hp hm _ hle
      rw [pushAll_dt_ge c tn j s j le_rfl]
      exact hd j hj
    · rw [evolveBunch_dt_ne _ _ _ _ _ _ _ h]
      exact ih (fun j hj => hd j (by omega)) j (by omega)

theorem pushesOf_pushAll (n i : ℕ) (t : ℕ → K) :
    pushesOf i ((List.range n).map (fun j => Ev.push true j (t j) (tn - t j))) =
      if i < n then [(t i, tn - t i)] else [] := by
  induction n with
  | zero => simp
  | succ n ih =>
    simp only [List.range_succ, List.map_append, List.map_cons, List.map_nil, pushesOf_append, ih,
      pushesOf_push]
    rcases lt_trichotomy i n with h | h | h
    · simp [h, Nat.lt_succ_of_lt h]
      omega
    · subst h; simp
    · have h1 : ¬ i < n := by omega
      have h2 : ¬ i < n + 1 := by omega
      have h3 : ¬ n = i := by omega
      simp [h1, h2, h3]

theorem updateTimes_pushAll (n i : ℕ) (t : ℕ → K) :
    updateTimes i ((List.range n).map (fun j => Ev.push true j (t j) (tn - t j))) = [] := by
  induction n with
  | zero => simp
  | succ n ih => simp [List.range_succ, ih]

theorem diagTimes_pushAll (n : ℕ) (t : ℕ → K) :
    diagTimes ((List.range n).map (fun j => Ev.push true j (t j) (tn - t j))) = [] := by
  induction n with
  | zero => simp
  | succ n ih => simp [List.range_succ, ih]

end pushAll

/-! ### Start -/

section start
variable (c : Cfg K F σ) (w : σ)

theorem initFields_t (n : ℕ) (s : St K σ) : (initFields c n s).t = s.t := by
  induction n with
  | zero => rfl
  | succ n ih => simp [initFields, ih]

theorem initFields_snaps (n : ℕ) (s : St K σ) : (initFields c n s).snaps = s.snaps := by
  induction n with
  | zero => rfl
  | succ n ih => simp [initFields, ih]

theorem initFields_log (n : ℕ) (s : St K σ) :
    (initFields c n s).log = s.log ++ (List.range n).map (fun j => Ev.update j 0) := by
  induction n with
  | zero => simp [initFields]
  | succ n ih => simp [initFields, ih, List.range_succ]

theorem start_t : (start c w).t = fun _ => 0 := by
  simp [start, generateDiagnostics, initFields_t, blank]

theorem start_log : (start c w).log =
    (List.range c.nField).map (fun j => Ev.update j 0) ++ [Ev.diag 0] := by
  simp [start, generateDiagnostics, initFields_log, blank]

theorem start_snaps : (start c w).snaps.length = 1 := by
  simp [start, generateDiagnostics, initFields_snaps, blank]

theorem start_dt : (start c w).dt = c.dt0 (start c w).w := rfl

theorem pushesOf_updates (n i : ℕ) :
    pushesOf i ((List.range n).map (fun j => (Ev.update j 0 : Ev K))) = [] := by
  induction n with
  | zero => simp
  | succ n ih => simp [List.range_succ, ih]

theorem diagTimes_updates (n : ℕ) :
    diagTimes ((List.range n).map (fun j => (Ev.update j 0 : Ev K))) = [] := by
  induction n with
  | zero => simp
  | succ n ih => simp [List.range_succ, ih]

theorem updateTimes_updates (n i : ℕ) :
    updateTimes i ((List.range n).map (fun j => (Ev.update j 0 : Ev K))) =
      if i < n then [0] else [] := by
  induction n with
  | zero => simp
  | succ n ih =>
    simp only [List.range_succ, List.map_append, List.map_cons, List.map_nil, updateTimes_append,
      ih, updateTimes_update]
    rcases lt_trichotomy i n with h | h | h
    · have h3 : ¬ n = i := by omega
      simp [h, Nat.lt_succ_of_lt h, h3]
    · subst h; simp
    · have h1 : ¬ i < n := by omega
      have h2 : ¬ i < n + 1 := by omega
      have h3 : ¬ n = i := by omega
      simp [h1, h2, h3]

theorem dt0_bunch_pos (hp : c.Positive) {i : ℕ} (hi : i < c.nBunch) : 0 < c.dt0 w i := by
  simp only [Cfg.dt0, hi, if_true]
  split
  · exact hp.auto _ _
  · rename_i d h; exact hp.bunch i hi d h

theorem dtDiag_pos (hp : c.Positive) (hn : 0 < c.nDiag) : 0 < c.dtDiag :=
  div_pos hp.tFinal (by exact_mod_cast hn)

theorem dt0_pos (hp : c.Positive) {i : ℕ} (hi : i < c.nObj) : 0 < c.dt0 w i := by
  by_cases h : i < c.nBunch
  · exact dt0_bunch_pos c w hp h
  · simp only [Cfg.dt0, h, if_false]
    split
    · exact hp.field _ (by omega)
    · apply dtDiag_pos c hp
      by_contra h2
      simp [Cfg.nObj, h2] at hi
      omega

end start

/-! ### Effect of one iteration on the clocks -/

section advance
variable (c : Cfg K F σ) (s : St K σ)

theorem advance_bunch {i : ℕ} (hi : i < c.nBunch) :
    advance c s i = evolveBunch c false s i (s.t i) (s.t i + s.dt i) (s.dt i) := by
  simp [advance, hi]

theorem advance_field {i : ℕ} (h1 : ¬ i < c.nBunch) (h2 : i < c.nBunch + c.nField) :
    advance c s i = { s with
      w := c.updateF s.w (i - c.nBunch)
      log := s.log ++ [.update (i - c.nBunch) (s.t i + s.dt i)]
      t := Function.update s.t i (s.t i + s.dt i) } := by
  simp [advance, h1, h2]

/-- State just before the diagnostics are generated. -/
def beforeDiag (tn : K) : St K σ :=
  if c.pushBeforeDiags then pushAll c tn c.nBunch s else s

theorem advance_diag {i : ℕ} (h1 : ¬ i < c.nBunch) (h2 : ¬ i < c.nBunch + c.nField) :
    advance c s i =
      let s1 := generateDiagnostics (beforeDiag c s (s.t i + s.dt i)) (s.t i + s.dt i)
      { s1 with t := Function.update s1.t i (s.t i + s.dt i) } := by
  simp only [advance, h1, if_false, h2, beforeDiag]
  by_cases hb : c.pushBeforeDiags
  · simp only [hb, if_true, generateDiagnostics]
    have : (pushAll c (s.t i + s.dt i) c.nBunch s).t i = s.t i := by
      rw [pushAll_t]; simp [h1]
    rw [this]
  · simp [hb, generateDiagnostics]

end advance

end WakeT.Tracker
