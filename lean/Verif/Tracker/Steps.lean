import Verif.Tracker.Props

/-!
# Property C103: the length of the steps of a bunch
-/

set_option linter.unusedSectionVars false

namespace WakeT.Tracker

variable {K F σ : Type*} [Field K] [LinearOrder K] [IsStrictOrderedRing K]
  [LinearOrder F]

/-! ### Specification -/

/-- The step bunch `i` asks for in the world `w`: the fixed step it was given, or
the adaptive one. -/
def Cfg.wanted (c : Cfg K F σ) (w : σ) (i : ℕ) : K :=
  match c.dtBunch i with
  | none => c.autoDt w i
  | some d => d

/-- The step bunch `i` asked for last: right after its last push in the log, in
the world of that moment, or `first` if it has not been pushed yet.  The first
component is the world after the log. -/
def Cfg.asked (c : Cfg K F σ) (i : ℕ) (w : σ) (first : K) (log : List (Ev K)) : σ × K :=
  log.foldl (fun p e => (c.apply p.1 e, match e with
    | .push _ j _ _ => if j = i then c.wanted (c.apply p.1 e) i else p.2
    | _ => p.2)) (w, first)

/-- The length of a step of bunch `i` that starts at `t` after the events `log`:
the step asked for, but not beyond the final time.  The very first step is taken
as it is. -/
def Cfg.planned (c : Cfg K F σ) (i : ℕ) (w : σ) (first : K) (log : List (Ev K)) (t : K) : K :=
  if pushesOf i log = [] then (c.asked i w first log).2
  else min (c.asked i w first log).2 (c.tFinal - t)

/-! ### Proof -/

theorem asked_world (c : Cfg K F σ) (i : ℕ) (w : σ) (first : K) (log : List (Ev K)) :
    (c.asked i w first log).1 = log.foldl c.apply w := by
  induction log using List.reverseRecOn with
  | nil => rfl
  | append_singleton l e ih =>
    rw [Cfg.asked, List.foldl_append, List.foldl_append]
    rw [Cfg.asked] at ih
    simp only [List.foldl_cons, List.foldl_nil, ih]

theorem asked_snoc (c : Cfg K F σ) (i : ℕ) (w : σ) (first : K) (log : List (Ev K)) (e : Ev K) :
    (c.asked i w first (log ++ [e])).2 = match e with
      | .push _ j _ _ => if j = i then c.wanted (c.apply (log.foldl c.apply w) e) i
        else (c.asked i w first log).2
      | _ => (c.asked i w first log).2 := by
  have h := asked_world c i w first log
  rw [Cfg.asked] at h
  rw [Cfg.asked, List.foldl_append]
  cases e <;> simp [h, Cfg.asked]

theorem asked_fixed (c : Cfg K F σ) {i : ℕ} {d : K} (hd : c.dtBunch i = some d) (w : σ)
    (log : List (Ev K)) : (c.asked i w d log).2 = d := by
  induction log using List.reverseRecOn with
  | nil => rfl
  | append_singleton l e ih =>
    rw [asked_snoc]
    split
    · split
      · simp [Cfg.wanted, hd]
      · exact ih
    · exact ih

/-- Invariant of the loop. -/
structure SInv (c : Cfg K F σ) (w0 : σ) (v : ℕ → K) (s : St K σ) : Prop where
  rep : s.w = s.log.foldl c.apply w0
  dt : ∀ i < c.nBunch, s.t i = c.tFinal ∨ s.dt i = c.planned i w0 (v i) s.log (s.t i)
  done : ∀ before i t d, i < c.nBunch → before ++ [Ev.push false i t d] <+: s.log →
    d = c.planned i w0 (v i) before t

theorem planned_other (c : Cfg K F σ) (i : ℕ) (w : σ) (first : K) (log : List (Ev K)) (e : Ev K)
    (t : K) (he : ∀ b t d, e ≠ .push b i t d) :
    c.planned i w first (log ++ [e]) t = c.planned i w first log t := by
  have h1 : pushesOf i (log ++ [e]) = pushesOf i log := by
    rw [pushesOf_append]
    cases e with
    | push b j t d =>
      have : j ≠ i := by rintro rfl; exact he b t d rfl
      simp [this]
    | update j t => simp
    | diag t => simp
  have h2 : (c.asked i w first (log ++ [e])).2 = (c.asked i w first log).2 := by
    rw [asked_snoc]
    cases e with
    | push b j t d =>
      have : j ≠ i := by rintro rfl; exact he b t d rfl
      simp [this]
    | update j t => rfl
    | diag t => rfl
  unfold Cfg.planned
  rw [h1, h2]

theorem sinv_evolve {c : Cfg K F σ} {w0 : σ} {v : ℕ → K} {s : St K σ} (hm : StrictMono c.f32)
    (hv : ∀ i d, c.dtBunch i = some d → v i = d)
    (h : SInv c w0 v s) (forced : Bool) {i : ℕ} {tn d : K} (hd : d = tn - s.t i) (h0 : s.t i ≤ tn)
    (hT : tn ≤ c.tFinal)
    (hf : forced = false → d = c.planned i w0 (v i) s.log (s.t i)) :
    SInv c w0 v (evolveBunch c forced s i (s.t i) tn d) where
  rep := by rw [evolveBunch_log, List.foldl_append, ← h.rep]; rfl
  dt := by
    intro j hj
    by_cases hji : j = i
    · subst hji
      simp only [evolveBunch_t, Function.update_self, hd]
      rw [show s.t j + (tn - s.t j) = tn by ring]
      rcases eq_or_lt_of_le hT with e | hlt
      · exact Or.inl e
      · right
        have hne : c.f32 tn ≠ c.f32 c.tFinal := (hm hlt).ne
        have hp : pushesOf j (s.log ++ [Ev.push forced j (s.t j) (tn - s.t j)]) ≠ [] := by simp
        rw [evolveBunch_log]
        unfold Cfg.planned
        rw [if_neg hp, asked_snoc]
        simp only [if_true, ← h.rep]
        have hs := evolveBunch_dt_self c forced s j (s.t j) tn (tn - s.t j)
        simp only at hs
        have hq : ∀ e : K, (evolveBunch c forced s j (s.t j) tn (tn - s.t j)).dt j = e ∧
              (c.f32 tn = c.f32 c.tFinal ∨ tn + e ≤ c.tFinal) ∨
            (evolveBunch c forced s j (s.t j) tn (tn - s.t j)).dt j = c.tFinal - tn ∧
              c.f32 tn ≠ c.f32 c.tFinal ∧ c.tFinal < tn + e →
            (evolveBunch c forced s j (s.t j) tn (tn - s.t j)).dt j = min e (c.tFinal - tn) := by
          rintro e (⟨h1, h2⟩ | ⟨h1, h2, h3⟩)
          · rcases h2 with h2 | h2
            · exact absurd h2 hne
            · rw [h1, min_eq_left (by linarith)]
          · rw [h1, min_eq_right (by linarith)]
        rw [hq _ hs]
        cases hb : c.dtBunch j with
        | none => simp [Cfg.wanted, hb, Cfg.apply]
        | some e =>
          simp only [Cfg.wanted, hb]
          have hle : s.t j < c.tFinal := lt_of_le_of_lt h0 hlt
          rcases h.dt j hj with h1 | h1
          · exact absurd h1 hle.ne
          · rw [h1]
            unfold Cfg.planned
            rw [hv j e hb, asked_fixed c hb]
            split_ifs
            · rfl
            · rw [min_assoc, min_eq_right (show c.tFinal - tn ≤ c.tFinal - s.t j by linarith)]
    · rw [evolveBunch_dt_ne _ _ _ _ _ _ _ hji, evolveBunch_log, evolveBunch_t,
        Function.update_of_ne hji, planned_other]
      · exact h.dt j hj
      · intro b t d he
        cases he
        exact hji rfl
  done := by
    intro before j t d' hj hpre
    rw [evolveBunch_log] at hpre
    rcases List.prefix_concat_iff.mp hpre with e | hpre
    · obtain ⟨e1, e2⟩ := List.append_inj' e rfl
      simp only [List.cons.injEq, Ev.push.injEq, and_true] at e2
      obtain ⟨e3, e4, e5, e6⟩ := e2
      subst e4 e1
      rw [e6, e5]
      exact hf e3.symm
    · exact h.done before j t d' hj hpre

theorem sinv_snoc {c : Cfg K F σ} {w0 : σ} {v : ℕ → K} {s s' : St K σ} (h : SInv c w0 v s)
    {e : Ev K} (he : ∀ b i t d, e ≠ .push b i t d) (hw : s'.w = c.apply s.w e)
    (hl : s'.log = s.log ++ [e]) (ht : ∀ i < c.nBunch, s'.t i = s.t i)
    (hd : ∀ i < c.nBunch, s'.dt i = s.dt i) : SInv c w0 v s' where
  rep := by rw [hl, List.foldl_append, ← h.rep, hw]; rfl
  dt i hi := by
    rw [ht i hi, hd i hi, hl, planned_other _ _ _ _ _ _ _ (fun b t d => he b i t d)]
    exact h.dt i hi
  done before i t d hi hpre := by
    rw [hl] at hpre
    rcases List.prefix_concat_iff.mp hpre with e' | hpre
    · obtain ⟨-, e2⟩ := List.append_inj' e' rfl
      simp only [List.cons.injEq, and_true] at e2
      exact absurd e2.symm (he _ _ _ _)
    · exact h.done before i t d hi hpre

theorem sinv_pushAll {c : Cfg K F σ} {w0 : σ} {v : ℕ → K} {s : St K σ} (hm : StrictMono c.f32)
    (hv : ∀ i d, c.dtBunch i = some d → v i = d)
    (h : SInv c w0 v s) {tn : K} (hT : tn ≤ c.tFinal) (n : ℕ) (hn : n ≤ c.nBunch)
    (h0 : ∀ j < n, s.t j ≤ tn) : SInv c w0 v (pushAll c tn n s) := by
  induction n with
  | zero => exact h
  | succ n ih =>
    have := ih (by omega) (fun j hj => h0 j (by omega))
    simp only [pushAll]
    refine sinv_evolve hm hv this true rfl ?_ hT (by simp)
    rw [pushAll_t, if_neg (lt_irrefl n)]
    exact h0 n (by omega)

theorem sinv_start (c : Cfg K F σ) (w : σ) :
    SInv c w (fun i => c.dt0 (start c w).w i) (start c w) where
  rep := (replayed_start c w).1
  dt i hi := by
    right
    have h1 : pushesOf i (start c w).log = [] := by
      rw [start_log, pushesOf_append, pushesOf_updates]; simp
    unfold Cfg.planned
    rw [if_pos h1, start_dt, start_log]
    rw [asked_snoc]
    generalize c.dt0 (start c w).w i = v
    generalize c.nField = n
    induction n with
    | zero => rfl
    | succ n ih =>
      rw [List.range_succ, List.map_append, List.map_cons, List.map_nil, asked_snoc]
      exact ih
  done before i t d hi hpre := by
    exfalso
    have h1 : Ev.push false i t d ∈ (start c w).log := hpre.subset (by simp)
    rw [start_log] at h1
    simp at h1

/-- **C103**: every step of a bunch that is due by its own clock has the length
the bunch asked for after its previous push (or at the start, after the fields
were calculated): its fixed step, or the adaptive one for the bunch and fields of
that moment; shortened only in order not to pass the final time.  Steps forced
by the diagnostics end at the time of the diagnostics (C04). -/
theorem step_lengths (c : Cfg K F σ) (w : σ) (n : ℕ) (s : St K σ)
    (hp : c.Positive) (hm : StrictMono c.f32) (h : doTracking c n w = .returned s)
    (before after : List (Ev K)) (i : ℕ) (t d : K) (hi : i < c.nBunch)
    (hl : s.log = before ++ .push false i t d :: after) :
    ∃ w0, s.snaps.head? = some w0 ∧ d = c.planned i w (c.wanted w0 i) before t := by
  obtain ⟨h1, h2, h3⟩ := doTracking_returned h
  have hv : ∀ i d, c.dtBunch i = some d → c.wanted (start c w).w i = d := by
    intro i d hd; simp [Cfg.wanted, hd]
  have hv0 : ∀ i < c.nBunch, c.dt0 (start c w).w i = c.wanted (start c w).w i := by
    intro i hi
    simp only [Cfg.dt0, hi, if_true, Cfg.wanted]
    cases c.dtBunch i <;> rfl
  have hstart : SInv c w (fun i => c.wanted (start c w).w i) (start c w) := by
    have := sinv_start c w
    refine ⟨this.rep, fun i hi => ?_, fun b i t d hi hpre => ?_⟩
    · have := this.dt i hi; rwa [hv0 i hi] at this
    · have := this.done b i t d hi hpre; rwa [hv0 i hi] at this
  have key := run_induction
    (fun s => InvX c 0 s ∧ SInv c w (fun i => c.wanted (start c w).w i) s ∧
      s.snaps.head? = some (start c w).w) ?_ n (start c w) s ?_ h3
  · obtain ⟨⟨-, hS, hsn⟩, -⟩ := key
    exact ⟨_, hsn, hS.done before i t d hi ⟨after, by rw [hl]; simp⟩⟩
  · rintro s s' ⟨hX, hS, hsn⟩ hs
    refine ⟨invX_step hp.bounded hp hm h2 s s' hX hs, ?_⟩
    obtain ⟨i, hi, hmin, _, hle, rfl⟩ := step_some hs h2
    have hT : s.t i + s.dt i ≤ c.tFinal := hm.le_iff_le.mp hle
    have hd := hX.dtpos i hi
    by_cases hb : i < c.nBunch
    · rw [advance_bunch c s hb]
      refine ⟨sinv_evolve hm hv hS false (by ring) (by linarith) hT fun _ => ?_, by simpa using hsn⟩
      rcases hS.dt i hb with h | h
      · linarith
      · exact h
    · by_cases hf : i < c.nBunch + c.nField
      · rw [advance_field c s hb hf]
        refine ⟨sinv_snoc hS (e := .update (i - c.nBunch) (s.t i + s.dt i)) (by simp) rfl rfl
          (fun j hj => Function.update_of_ne (by omega) _ _) (fun _ _ => rfl), hsn⟩
      · rw [advance_diag c s hb hf]
        dsimp only
        have h4 : SInv c w (fun i => c.wanted (start c w).w i) (beforeDiag c s (s.t i + s.dt i)) := by
          unfold beforeDiag
          split
          · refine sinv_pushAll hm hv hS hT _ le_rfl fun j hj => ?_
            exact hX.ahead j (nBunch_lt_nObj c hj) i hi
          · exact hS
        refine ⟨sinv_snoc h4 (e := .diag (s.t i + s.dt i)) (by simp) rfl rfl
          (fun j hj => Function.update_of_ne (by omega) _ _) (fun _ _ => rfl), ?_⟩
        have h5 : (beforeDiag c s (s.t i + s.dt i)).snaps = s.snaps := by
          unfold beforeDiag; split <;> simp
        simp only [generateDiagnostics, h5, List.head?_append, hsn]
        rfl
  · refine ⟨invX_start hp.bounded hp w, hstart, ?_⟩
    simp [start, generateDiagnostics, initFields_snaps, blank]

/-- A tracking of one adaptive and one fixed bunch: the steps of the first grow
with its energy, the second is stopped at the final time. -/
example : (doTracking { demo with
      nBunch := 2, nField := 0, nDiag := 1, tFinal := 1, f32 := id, pushBeforeDiags := true
      dtBunch := fun i => if i = 0 then none else some (2 / 5)
      autoDt := fun w _ => 1 / 4 + w ^ 2, evolve := fun w _ _ d => w + d } 100 0).log? =
    some [.diag 0, .push false 0 0 (1 / 4), .push false 1 0 (2 / 5),
      .push false 0 (1 / 4) (5 / 16), .push false 1 (2 / 5) (2 / 5),
      .push false 0 (9 / 16) (7 / 16), .push false 1 (4 / 5) (1 / 5),
      .push true 0 1 0, .push true 1 1 0, .diag 1] := by decide +kernel

end WakeT.Tracker
