import Verif.Tracker.Scaled
import Verif.Tracker.Exact

/-! # A tracking in two parts

If all periods divide the time `T₁`, then the state of a tracking at this time is that of a tracking which ends there,
and the rest is a tracking which starts there.  Used for the division of plasma stages (C133). -/

set_option linter.unusedSectionVars false

namespace WakeT.Tracker

variable {K F σ σ' : Type*} [Field K] [LinearOrder K] [IsStrictOrderedRing K] [LinearOrder F]

/-! ### Specification -/

/-- The tracking that ends at `T` and has `n` outputs after the initial one. -/
def Cfg.part (c : Cfg K F σ) (T : K) (n : ℕ) : Cfg K F σ := { c with tFinal := T, nDiag := n }

/-- The period of an object: a bunch, a field or the diagnostics. -/
def Cfg.per (c : Cfg K F σ) (i : ℕ) : K :=
  if i < c.nBunch then (c.dtBunch i).getD 0 else if i < c.nBunch + c.nField then c.dtField (i - c.nBunch) else c.dtDiag

/-- No bunch has an automatic time step, all periods divide the time `T`, and the steps of the bunches divide
the period of the diagnostics. -/
structure Cfg.Even (c : Cfg K F σ) (T : K) : Prop where
  pos : ∀ i < c.nObj, 0 < c.per i
  fixed : ∀ i < c.nBunch, c.dtBunch i ≠ none
  div : ∀ i < c.nObj, ∃ m : ℕ, T = m * c.per i
  diag : ∀ i < c.nBunch, ∃ m : ℕ, c.dtDiag = m * c.per i

/-- `Fresh w j` (the field `j` has been calculated for the present bunches) is true after the update of the field
`j` and remains true if other fields are updated or a bunch is pushed by zero time.  `Clk w j t` (the internal time of
the field `j` is `t`) follows the updates. -/
structure Fresher (c : Cfg K F σ) (Fresh : σ → ℕ → Prop) (Clk : σ → ℕ → K → Prop) : Prop where
  update : ∀ w, ∀ j < c.nField, Fresh (c.updateF w j) j
  other : ∀ w, ∀ j < c.nField, ∀ k < c.nField, k ≠ j → Fresh w k → Fresh (c.updateF w j) k
  zero : ∀ w, ∀ i < c.nBunch, ∀ t, ∀ j < c.nField, Fresh w j → Fresh (c.evolve w i t 0) j
  clkUpdate : ∀ w, ∀ j < c.nField, ∀ t, Clk w j t → Clk (c.updateF w j) j (t + c.dtField j)
  clkOther : ∀ w, ∀ j < c.nField, ∀ k < c.nField, k ≠ j → ∀ t, Clk w k t → Clk (c.updateF w j) k t
  clkEvolve : ∀ w, ∀ i < c.nBunch, ∀ t dt, ∀ j < c.nField, ∀ t', Clk w j t' → Clk (c.evolve w i t dt) j t'

/-! ### The first part -/

theorem step_up {δ a b : K} (hδ : 0 < δ) (ha : ∃ m : ℕ, a = m * δ) (hb : ∃ m : ℕ, b = m * δ) (h : a < b) : a + δ ≤ b := by
  obtain ⟨m, rfl⟩ := ha
  obtain ⟨n, rfl⟩ := hb
  have h1 : (m : K) < n := lt_of_mul_lt_mul_right h hδ.le
  have h2 : ((m + 1 : ℕ) : K) ≤ n := by exact_mod_cast (by exact_mod_cast h1 : m < n)
  have h3 := mul_le_mul_of_nonneg_right h2 hδ.le
  push_cast at h3
  linarith

theorem evolve_plain {c : Cfg K F σ} (b : Bool) {s : St K σ} {i : ℕ} (tc : K) {tn : K} (d : K) (hb : c.dtBunch i ≠ none)
    (h : tn = c.tFinal ∨ tn + s.dt i ≤ c.tFinal) :
    evolveBunch c b s i tc tn d =
      ⟨Function.update s.t i (s.t i + d), s.dt, c.evolve s.w i tc d, s.snaps, s.log ++ [.push b i tc d]⟩ := by
  unfold evolveBunch
  cases hd : c.dtBunch i with
  | none => exact absurd hd hb
  | some x =>
    dsimp only
    rw [if_neg]
    rintro ⟨h1, h2⟩
    rcases h with h | h
    · exact h1 (by rw [h])
    · exact absurd h2 (not_lt.mpr h)

/-- Invariant of the first part. -/
structure Inv1 (c : Cfg K F σ) (T : K) (Fresh : σ → ℕ → Prop) (Clk : σ → ℕ → K → Prop) (s : St K σ) : Prop where
  dt : ∀ i < c.nObj, s.dt i = c.per i
  grid : ∀ i < c.nObj, ∃ m : ℕ, s.t i = m * c.per i
  le : ∀ i < c.nObj, s.t i ≤ T
  ahead : ∀ i < c.nObj, ∀ j < c.nObj, s.t i ≤ s.t j + c.per j
  behind : ∀ i < c.nBunch, ∀ j < c.nField, s.t (c.nBunch + j) < s.t i + c.per i
  fresh : ∀ j < c.nField, (∀ i < c.nBunch, s.t i ≤ s.t (c.nBunch + j)) → Fresh s.w j
  clock : ∀ j < c.nField, Clk s.w j (s.t (c.nBunch + j))

section first

variable {c : Cfg K F σ} {T : K} {n : ℕ} {Fresh : σ → ℕ → Prop} {Clk : σ → ℕ → K → Prop}

theorem part_obj (hn : 0 < c.nDiag) (h : 0 < n) : (c.part T n).nObj = c.nObj := by
  unfold Cfg.nObj Cfg.part
  dsimp only
  rw [if_pos hn, if_pos h]

theorem bunch_obj {i : ℕ} (h : i < c.nBunch) : i < c.nObj := by
  unfold Cfg.nObj
  omega

theorem field_obj {j : ℕ} (h : j < c.nField) : c.nBunch + j < c.nObj := by
  unfold Cfg.nObj
  omega

theorem clip_free (he : c.Even T) {i : ℕ} (hi : i < c.nObj) {tn : K} (ht : ∃ m : ℕ, tn = m * c.per i) (hle : tn ≤ T) :
    tn = T ∨ tn + c.per i ≤ T := by
  rcases lt_or_eq_of_le hle with h | h
  · exact Or.inr (step_up (he.pos i hi) ht (he.div i hi) h)
  · exact Or.inl h

theorem pushAll_part (he : c.Even T) (hT : ∀ i < c.nObj, T + c.per i ≤ c.tFinal) {tn : K} (hle : tn ≤ T)
    (hg : ∀ i < c.nBunch, ∃ m : ℕ, tn = m * c.per i) (m : ℕ) (hm : m ≤ c.nBunch) {s : St K σ}
    (hdt : ∀ i < c.nObj, s.dt i = c.per i) :
    pushAll c tn m s = pushAll (c.part T n) tn m s ∧ (pushAll c tn m s).dt = s.dt ∧ (pushAll c tn m s).snaps = s.snaps ∧
      (Fresher c Fresh Clk → (∀ i < m, s.t i = tn) → ∀ j < c.nField, Fresh s.w j → Fresh (pushAll c tn m s).w j) ∧
      (Fresher c Fresh Clk → ∀ j < c.nField, ∀ t, Clk s.w j t → Clk (pushAll c tn m s).w j t) := by
  induction m with
  | zero => exact ⟨rfl, rfl, rfl, fun _ _ _ _ h => h, fun _ _ _ _ h => h⟩
  | succ m ih =>
    obtain ⟨h1, h2, h2', h3, h3'⟩ := ih (by omega)
    have hi : m < c.nBunch := by omega
    have hd : (pushAll c tn m s).dt m = c.per m := by rw [h2]; exact hdt m (bunch_obj hi)
    have e1 : pushAll c tn (m + 1) s = evolveBunch c true (pushAll c tn m s) m ((pushAll c tn m s).t m) tn
        (tn - (pushAll c tn m s).t m) := rfl
    have e2 : pushAll (c.part T n) tn (m + 1) s = evolveBunch (c.part T n) true (pushAll (c.part T n) tn m s) m
        ((pushAll (c.part T n) tn m s).t m) tn (tn - (pushAll (c.part T n) tn m s).t m) := rfl
    have p1 := evolve_plain (c := c) true (s := pushAll c tn m s) (i := m) ((pushAll c tn m s).t m) (tn := tn)
      (tn - (pushAll c tn m s).t m) (he.fixed m hi)
      (Or.inr (by rw [hd]; have := hT m (bunch_obj hi); linarith))
    have p2 := evolve_plain (c := c.part T n) true (s := pushAll c tn m s) (i := m) ((pushAll c tn m s).t m) (tn := tn)
      (tn - (pushAll c tn m s).t m) (he.fixed m hi)
      (by rw [hd]; exact clip_free he (bunch_obj hi) (hg m hi) hle)
    rw [e1, p1]
    refine ⟨?_, h2, h2', fun hf ht j hj hw => ?_, fun hf j hj t ht =>
      hf.clkEvolve _ m hi _ _ j hj t (h3' hf j hj t ht)⟩
    · rw [e2, ← h1, p2]
      rfl
    · have ht' : (pushAll c tn m s).t m = tn := by
        rw [pushAll_t, if_neg (lt_irrefl m)]
        exact ht m (by omega)
      show Fresh (c.evolve (pushAll c tn m s).w m ((pushAll c tn m s).t m) (tn - (pushAll c tn m s).t m)) j
      rw [ht', sub_self]
      exact hf.zero _ m hi _ j hj (h3 hf (fun i hi => ht i (by omega)) j hj hw)

/-- While there is an event in the first part, both trackings do the same. -/
theorem advance_part (he : c.Even T) (hT : ∀ i < c.nObj, T + c.per i ≤ c.tFinal) (hd : (c.part T n).dtDiag = c.dtDiag)
    (hf : Fresher c Fresh Clk) (hn : 0 < c.nDiag) {s : St K σ} (h : Inv1 c T Fresh Clk s) {i : ℕ} (hi : i < c.nObj)
    (hle : s.t i + c.per i ≤ T)
    (hmin : ∀ j < c.nObj, s.t i + c.per i ≤ s.t j + c.per j) (hfirst : ∀ j < i, s.t i + c.per i < s.t j + c.per j) :
    advance c s i = advance (c.part T n) s i ∧ Inv1 c T Fresh Clk (advance c s i) := by
  have hdi := h.dt i hi
  have hup : ∃ m : ℕ, s.t i + c.per i = m * c.per i := by
    obtain ⟨m, hm⟩ := h.grid i hi
    exact ⟨m + 1, by rw [hm]; push_cast; ring⟩
  have hpos := he.pos i hi
  have hahead : ∀ j < c.nObj, ∀ k < c.nObj, Function.update s.t i (s.t i + s.dt i) j ≤
      Function.update s.t i (s.t i + s.dt i) k + c.per k := by
    intro j hj k hk
    rw [hdi]
    have hk' := he.pos k hk
    by_cases hji : j = i
    · subst hji
      rw [Function.update_self]
      by_cases hki : k = j
      · subst hki
        rw [Function.update_self]
        linarith
      · rw [Function.update_of_ne hki]
        exact hmin k hk
    · rw [Function.update_of_ne hji]
      by_cases hki : k = i
      · subst hki
        rw [Function.update_self]
        have := h.ahead j hj k hk
        linarith
      · rw [Function.update_of_ne hki]
        exact h.ahead j hj k hk
  by_cases h1 : i < c.nBunch
  · -- a bunch
    have p1 := evolve_plain (c := c) false (s := s) (i := i) (s.t i) (tn := s.t i + s.dt i) (s.dt i) (he.fixed i h1)
      (Or.inr (by rw [hdi]; have := hT i hi; linarith))
    have p2 := evolve_plain (c := c.part T n) false (s := s) (i := i) (s.t i) (tn := s.t i + s.dt i) (s.dt i) (he.fixed i h1)
      (by rw [hdi]; exact clip_free he hi hup hle)
    rw [advance_bunch c s h1, advance_bunch (c.part T n) s h1, p1, p2]
    refine ⟨rfl, ⟨h.dt, ?_, ?_, hahead, ?_, ?_, ?_⟩⟩
    · intro j hj
      by_cases hji : j = i
      · subst hji
        dsimp only
        rw [Function.update_self, hdi]
        exact hup
      · dsimp only
        rw [Function.update_of_ne hji]
        exact h.grid j hj
    · intro j hj
      by_cases hji : j = i
      · subst hji
        dsimp only
        rw [Function.update_self, hdi]
        exact hle
      · dsimp only
        rw [Function.update_of_ne hji]
        exact h.le j hj
    · intro k hk j hj
      dsimp only
      rw [Function.update_of_ne (by omega)]
      by_cases hki : k = i
      · subst hki
        rw [Function.update_self, hdi]
        have := h.behind k hk j hj
        linarith
      · rw [Function.update_of_ne hki]
        exact h.behind k hk j hj
    · intro j hj hall
      exfalso
      have h2 := hall i h1
      dsimp only at h2
      rw [Function.update_self, Function.update_of_ne (by omega), hdi] at h2
      exact absurd (h.behind i h1 j hj) (not_lt.mpr h2)
    · intro j hj
      dsimp only
      rw [Function.update_of_ne (by omega)]
      exact hf.clkEvolve _ i h1 _ _ j hj _ (h.clock j hj)
  by_cases h2 : i < c.nBunch + c.nField
  · -- a field
    obtain ⟨j0, rfl⟩ : ∃ j0, i = c.nBunch + j0 := ⟨i - c.nBunch, by omega⟩
    have hj0 : j0 < c.nField := by omega
    rw [advance_field c s h1 h2, advance_field (c.part T n) s h1 h2]
    refine ⟨rfl, ⟨h.dt, ?_, ?_, hahead, ?_, ?_, ?_⟩⟩
    · intro j hj
      by_cases hji : j = c.nBunch + j0
      · subst hji
        dsimp only
        rw [Function.update_self, hdi]
        exact hup
      · dsimp only
        rw [Function.update_of_ne hji]
        exact h.grid j hj
    · intro j hj
      by_cases hji : j = c.nBunch + j0
      · subst hji
        dsimp only
        rw [Function.update_self, hdi]
        exact hle
      · dsimp only
        rw [Function.update_of_ne hji]
        exact h.le j hj
    · intro k hk j hj
      dsimp only
      rw [Function.update_of_ne (by omega : k ≠ c.nBunch + j0)]
      by_cases hji : j = j0
      · subst hji
        rw [Function.update_self, hdi]
        exact hfirst k (by omega)
      · rw [Function.update_of_ne (by omega)]
        exact h.behind k hk j hj
    · intro j hj hall
      have e : c.nBunch + j0 - c.nBunch = j0 := by omega
      dsimp only
      rw [e]
      by_cases hji : j = j0
      · subst hji
        exact hf.update _ j hj
      · refine hf.other _ j0 hj0 j hj hji (h.fresh j hj fun k hk => ?_)
        have := hall k hk
        dsimp only at this
        rwa [Function.update_of_ne (by omega), Function.update_of_ne (by omega)] at this
    · intro j hj
      have e : c.nBunch + j0 - c.nBunch = j0 := by omega
      have hper : c.per (c.nBunch + j0) = c.dtField j0 := by
        unfold Cfg.per
        rw [if_neg h1, if_pos h2, e]
      dsimp only
      rw [e, hdi, hper]
      by_cases hji : j = j0
      · subst hji
        rw [Function.update_self]
        exact hf.clkUpdate _ j hj _ (h.clock j hj)
      · rw [Function.update_of_ne (by omega)]
        exact hf.clkOther _ j0 hj0 j hj hji _ (h.clock j hj)
  · -- diagnostics
    have hid : i = c.iDiag := by
      unfold Cfg.nObj at hi
      rw [if_pos hn] at hi
      unfold Cfg.iDiag
      omega
    have hper : c.per i = c.dtDiag := by
      unfold Cfg.per
      rw [if_neg h1, if_neg h2]
    have hmul : ∀ k < c.nBunch, ∃ m : ℕ, s.t i + c.per i = m * c.per k := by
      intro k hk
      obtain ⟨m, hm⟩ := hup
      obtain ⟨m', hm'⟩ := he.diag k hk
      refine ⟨m * m', ?_⟩
      rw [hm, hper, hm']
      push_cast
      ring
    have hsync : ∀ k < c.nBunch, s.t k = s.t i + c.per i := by
      intro k hk
      by_contra hne
      have h3 := step_up (he.pos k (bunch_obj hk)) (h.grid k (bunch_obj hk)) (hmul k hk)
        (lt_of_le_of_ne (h.ahead k (bunch_obj hk) i hi) hne)
      have h4 := hfirst k (by omega)
      linarith
    rw [advance_diag c s h1 h2, advance_diag (c.part T n) s h1 h2, hdi]
    obtain ⟨q1, q2, q3, q4, q5⟩ := pushAll_part (n := n) (Fresh := Fresh) (Clk := Clk) he hT hle hmul c.nBunch le_rfl h.dt
    have hb : beforeDiag (c.part T n) s (s.t i + c.per i) = beforeDiag c s (s.t i + c.per i) := by
      unfold beforeDiag
      show (if c.pushBeforeDiags then pushAll (c.part T n) _ c.nBunch s else s) = _
      rw [← q1]
    rw [hb]
    refine ⟨rfl, ?_⟩
    have ht : (beforeDiag c s (s.t i + c.per i)).t = s.t := by
      funext k
      unfold beforeDiag
      split_ifs with hp
      · rw [pushAll_t]
        split_ifs with hk
        · exact (hsync k hk).symm
        · rfl
      · rfl
    have hdt' : (beforeDiag c s (s.t i + c.per i)).dt = s.dt := by
      unfold beforeDiag
      split_ifs
      · exact q2
      · rfl
    rw [hdi] at hahead
    refine ⟨?_, ?_, ?_, ?_, ?_, ?_, ?_⟩
    · intro j hj
      show (beforeDiag c s (s.t i + c.per i)).dt j = _
      rw [hdt']
      exact h.dt j hj
    · intro j hj
      dsimp only [generateDiagnostics]
      by_cases hji : j = i
      · subst hji
        rw [Function.update_self]
        exact hup
      · rw [Function.update_of_ne hji, ht]
        exact h.grid j hj
    · intro j hj
      dsimp only [generateDiagnostics]
      by_cases hji : j = i
      · subst hji
        rw [Function.update_self]
        exact hle
      · rw [Function.update_of_ne hji, ht]
        exact h.le j hj
    · dsimp only [generateDiagnostics]
      rw [ht]
      exact hahead
    · intro k hk j hj
      dsimp only [generateDiagnostics]
      rw [Function.update_of_ne (by omega), Function.update_of_ne (by omega), ht]
      exact h.behind k hk j hj
    · intro j hj hall
      dsimp only [generateDiagnostics] at hall ⊢
      have hfr : Fresh s.w j := h.fresh j hj fun k hk => by
        have := hall k hk
        rwa [Function.update_of_ne (by omega), Function.update_of_ne (by omega), ht] at this
      unfold beforeDiag
      split_ifs
      · exact q4 hf hsync j hj hfr
      · exact hfr
    · intro j hj
      dsimp only [generateDiagnostics]
      rw [Function.update_of_ne (by omega), ht]
      unfold beforeDiag
      split_ifs
      · exact q5 hf j hj _ (h.clock j hj)
      · exact h.clock j hj

theorem start_part (w : σ) (hd : (c.part T n).dtDiag = c.dtDiag) : start (c.part T n) w = start c w := by
  have h1 : ∀ (k : ℕ) (s : St K σ), initFields (c.part T n) k s = initFields c k s := by
    intro k s
    induction k with
    | zero => rfl
    | succ k ih =>
      unfold initFields
      rw [ih]
      rfl
  have h2 : ∀ w, (c.part T n).dt0 w = c.dt0 w := by
    intro w
    funext i
    unfold Cfg.dt0
    rw [hd]
    rfl
  unfold start
  dsimp only
  rw [h2, h1]
  rfl

theorem fresh_start (hf : Fresher c Fresh Clk) (w : σ) (k : ℕ) (hk : k ≤ c.nField) :
    ∀ j < k, Fresh (initFields c k (blank w)).w j := by
  induction k with
  | zero => intro j hj; omega
  | succ k ih =>
    intro j hj
    show Fresh (c.updateF (initFields c k (blank w)).w k) j
    by_cases hjk : j = k
    · subst hjk
      exact hf.update _ j (by omega)
    · exact hf.other _ k (by omega) j (by omega) hjk (ih (by omega) j (by omega))

theorem dt0_per (he : c.Even T) (w : σ) (i : ℕ) : c.dt0 w i = c.per i := by
  unfold Cfg.dt0 Cfg.per
  by_cases h : i < c.nBunch
  · rw [if_pos h, if_pos h]
    have := he.fixed i h
    cases hd : c.dtBunch i with
    | none => exact absurd hd this
    | some d => rfl
  · rw [if_neg h, if_neg h]

theorem inv1_start (he : c.Even T) (hT : 0 ≤ T) (hf : Fresher c Fresh Clk) (w : σ)
    (hc : ∀ j < c.nField, Clk (initFields c c.nField (blank (K := K) w)).w j 0) : Inv1 c T Fresh Clk (start c w) where
  dt i hi := by rw [start_dt]; exact dt0_per he _ i
  grid i hi := ⟨0, by rw [start_t]; simp⟩
  le i hi := by rw [start_t]; exact hT
  ahead i hi j hj := by
    rw [start_t]
    have := he.pos j hj
    linarith
  behind i hi j hj := by
    rw [start_t]
    have := he.pos i (bunch_obj hi)
    linarith
  fresh j hj _ := fresh_start hf w c.nField le_rfl j hj
  clock j hj := by rw [start_t]; exact hc j hj

/-- The whole tracking arrives at the final state of the first part. -/
theorem run_part (he : c.Even T) (hT : ∀ i < c.nObj, T + c.per i ≤ c.tFinal) (hd : (c.part T n).dtDiag = c.dtDiag)
    (hf : Fresher c Fresh Clk) (hn : 0 < c.nDiag) (hn' : 0 < n) (hm : StrictMono c.f32) (k : ℕ) {s r : St K σ}
    (h : Inv1 c T Fresh Clk s) (hr : run (c.part T n) k s = some r) :
    (∃ m, ∀ k', run c (m + k') s = run c k' r) ∧ Inv1 c T Fresh Clk r ∧ ∀ i < c.nObj, r.t i = T := by
  have hobj : 0 < c.nObj := by
    unfold Cfg.nObj
    rw [if_pos hn]
    omega
  induction k generalizing s with
  | zero => cases hr
  | succ k ih =>
    unfold run at hr
    cases hs : step (c.part T n) s with
    | none =>
      rw [hs] at hr
      cases hr
      refine ⟨⟨0, fun k' => by rw [Nat.zero_add]⟩, h, fun i hi => ?_⟩
      by_contra hne
      have h1 := step_up (he.pos i hi) (h.grid i hi) (he.div i hi) (lt_of_le_of_ne (h.le i hi) hne)
      have h2 := step_none hs i (by rw [part_obj hn hn']; exact hi)
      have h3 := hm.lt_iff_lt.mp h2
      rw [h.dt i hi] at h3
      exact absurd h3 (not_lt.mpr h1)
    | some s' =>
      rw [hs] at hr
      dsimp only at hr
      obtain ⟨i, hi, h1, h2, h3, h4⟩ := step_some hs (by rw [part_obj hn hn']; exact hobj)
      rw [part_obj hn hn'] at hi h1
      have h1' : ∀ j < c.nObj, s.t i + c.per i ≤ s.t j + c.per j := by
        intro j hj
        have := hm.le_iff_le.mp (h1 j hj)
        rwa [h.dt i hi, h.dt j hj] at this
      have h2' : ∀ j < i, s.t i + c.per i < s.t j + c.per j := by
        intro j hj
        have := hm.lt_iff_lt.mp (h2 j hj)
        rwa [h.dt i hi, h.dt j (by omega)] at this
      have h3' : s.t i + c.per i ≤ T := by
        have := hm.le_iff_le.mp h3
        rwa [h.dt i hi] at this
      obtain ⟨q1, q2⟩ := advance_part he hT hd hf hn h hi h3' h1' h2'
      rw [← q1] at h4
      subst h4
      obtain ⟨⟨m, hm'⟩, g⟩ := ih q2 hr
      refine ⟨⟨m + 1, fun k' => ?_⟩, g⟩
      have hst : step c s = some (advance c s i) := by
        have e : argmin (fun i => c.f32 (s.t i + s.dt i)) (c.nObj - 1) = i :=
          argmin_eq (by omega) (fun j hj => h1 j (by omega)) h2
        unfold step
        dsimp only
        rw [e, if_neg]
        apply not_lt.mpr
        apply hm.monotone
        rw [h.dt i hi]
        have := hT i hi
        have := he.pos i hi
        linarith
      have e : m + 1 + k' = (m + k') + 1 := by omega
      rw [e]
      show (match step c s with | none => some s | some s' => run c (m + k') s') = _
      rw [hst]
      exact hm' k'

end first

/-! ### The second part -/

/-- The tracking `c'` starts at the time `T` of the tracking `c`; `R` is the relation of the worlds. -/
structure Later (T : K) (c : Cfg K F σ) (c' : Cfg K F σ') (R : σ → σ' → Prop) : Prop where
  tFinal : c.tFinal = c'.tFinal + T
  nBunch : c'.nBunch = c.nBunch
  nField : c'.nField = c.nField
  nDiag : 0 < c.nDiag
  nDiag' : 0 < c'.nDiag
  dtDiag : c'.dtDiag = c.dtDiag
  pushBefore : c'.pushBeforeDiags = c.pushBeforeDiags
  mono : StrictMono c.f32
  mono' : StrictMono c'.f32
  fixed : ∀ i < c.nBunch, c.dtBunch i ≠ none
  dtBunch : ∀ i < c.nBunch, c'.dtBunch i = c.dtBunch i
  dtField : ∀ j < c.nField, c'.dtField j = c.dtField j
  evolve : ∀ i < c.nBunch, ∀ w w' t dt, R w w' → R (c.evolve w i (t + T) dt) (c'.evolve w' i t dt)
  update : ∀ j < c.nField, ∀ w w', R w w' → R (c.updateF w j) (c'.updateF w' j)

/-- States that correspond; `pre` are the snapshots of the first part. -/
structure LaterSt (N : ℕ) (T : K) (R : σ → σ' → Prop) (pre : List σ) (w0 : σ') (s : St K σ) (s' : St K σ') :
    Prop where
  t : ∀ i < N, s.t i = s'.t i + T
  dt : ∀ i < N, s.dt i = s'.dt i
  w : R s.w s'.w
  snaps : ∃ l l', s.snaps = pre ++ l ∧ s'.snaps = w0 :: l' ∧ List.Forall₂ R l l'

section second

variable {T : K} {c : Cfg K F σ} {c' : Cfg K F σ'} {R : σ → σ' → Prop} {pre : List σ} {w0 : σ'}

theorem later_update {N : ℕ} {f f' : ℕ → K} (h : ∀ k < N, f k = f' k + T) (i : ℕ) (v : K) :
    ∀ k < N, Function.update f i (v + T) k = Function.update f' i v k + T := by
  intro k hN
  by_cases hk : k = i
  · subst hk
    rw [Function.update_self, Function.update_self]
  · rw [Function.update_of_ne hk, Function.update_of_ne hk, h k hN]

theorem later_evolve (h : Later T c c' R) {s : St K σ} {s' : St K σ'} (hr : LaterSt c.nObj T R pre w0 s s') {i : ℕ}
    (hi : i < c.nBunch) (b : Bool) (tc tn d : K) :
    LaterSt c.nObj T R pre w0 (evolveBunch c b s i (tc + T) (tn + T) d) (evolveBunch c' b s' i tc tn d) := by
  refine ⟨?_, ?_, h.evolve i hi _ _ tc d hr.w, hr.snaps⟩
  · simp only [evolveBunch_t]
    rw [hr.t i (bunch_obj hi), add_right_comm]
    exact later_update hr.t i _
  · unfold evolveBunch
    dsimp only
    rw [h.dtBunch i hi]
    cases hd : c.dtBunch i with
    | none => exact absurd hd (h.fixed i hi)
    | some d =>
      dsimp only
      have h1 : c.f32 (tn + T) = c.f32 c.tFinal ↔ c'.f32 tn = c'.f32 c'.tFinal := by
        rw [h.mono.injective.eq_iff, h.mono'.injective.eq_iff, h.tFinal, add_left_inj]
      have h2 : tn + T + s.dt i > c.tFinal ↔ tn + s'.dt i > c'.tFinal := by
        rw [h.tFinal, hr.dt i (bunch_obj hi), add_right_comm, gt_iff_lt, gt_iff_lt, add_lt_add_iff_right]
      simp only [h1, h2]
      intro k hN
      split_ifs
      · have e : c.tFinal - (tn + T) = c'.tFinal - tn := by rw [h.tFinal]; ring
        rw [e]
        by_cases hk : k = i
        · subst hk
          rw [Function.update_self, Function.update_self]
        · rw [Function.update_of_ne hk, Function.update_of_ne hk, hr.dt k hN]
      · exact hr.dt k hN

theorem later_pushAll (h : Later T c c' R) {s : St K σ} {s' : St K σ'} (hr : LaterSt c.nObj T R pre w0 s s') (tn : K) (n : ℕ)
    (hn : n ≤ c.nBunch) : LaterSt c.nObj T R pre w0 (pushAll c (tn + T) n s) (pushAll c' tn n s') := by
  induction n with
  | zero => exact hr
  | succ n ih =>
    have h1 := ih (by omega)
    show LaterSt c.nObj T R pre w0 (evolveBunch c true (pushAll c (tn + T) n s) n ((pushAll c (tn + T) n s).t n) (tn + T)
        (tn + T - (pushAll c (tn + T) n s).t n))
      (evolveBunch c' true (pushAll c' tn n s') n ((pushAll c' tn n s').t n) tn (tn - (pushAll c' tn n s').t n))
    rw [h1.t n (bunch_obj (by omega)), add_sub_add_right_eq_sub]
    exact later_evolve h h1 (by omega) _ _ _ _

theorem later_advance (h : Later T c c' R) {s : St K σ} {s' : St K σ'} (hr : LaterSt c.nObj T R pre w0 s s') {i : ℕ}
    (hi : i < c.nObj) : LaterSt c.nObj T R pre w0 (advance c s i) (advance c' s' i) := by
  unfold advance
  dsimp only
  rw [h.nBunch, h.nField, hr.t i hi, hr.dt i hi, add_right_comm]
  by_cases h1 : i < c.nBunch
  · rw [if_pos h1, if_pos h1]
    exact later_evolve h hr h1 _ _ _ _
  rw [if_neg h1, if_neg h1]
  by_cases h2 : i < c.nBunch + c.nField
  · rw [if_pos h2, if_pos h2]
    refine ⟨?_, hr.dt, h.update _ (by omega) _ _ hr.w, hr.snaps⟩
    exact later_update hr.t i _
  · rw [if_neg h2, if_neg h2, h.pushBefore]
    have h3 : LaterSt c.nObj T R pre w0 (if c.pushBeforeDiags = true then pushAll c (s'.t i + s'.dt i + T) c.nBunch s else s)
        (if c.pushBeforeDiags = true then pushAll c' (s'.t i + s'.dt i) c.nBunch s' else s') := by
      split_ifs
      · exact later_pushAll h hr _ _ le_rfl
      · exact hr
    revert h3
    generalize (if c.pushBeforeDiags = true then pushAll c (s'.t i + s'.dt i + T) c.nBunch s else s) = x
    generalize (if c.pushBeforeDiags = true then pushAll c' (s'.t i + s'.dt i) c.nBunch s' else s') = x'
    intro h3
    obtain ⟨l, l', e1, e2, e3⟩ := h3.snaps
    refine ⟨?_, h3.dt, h3.w, l ++ [x.w], l' ++ [x'.w], ?_, ?_, List.rel_append e3 (.cons h3.w .nil)⟩
    · intro k hk
      show Function.update x.t i (x.t i + s'.dt i) k = Function.update x'.t i (x'.t i + s'.dt i) k + T
      rw [h3.t i hi, add_right_comm]
      exact later_update h3.t i _ k hk
    · show x.snaps ++ [x.w] = _
      rw [e1, List.append_assoc]
    · show x'.snaps ++ [x'.w] = _
      rw [e2, List.cons_append]

theorem later_step (h : Later T c c' R) {s : St K σ} {s' : St K σ'} (hr : LaterSt c.nObj T R pre w0 s s') :
    match step c' s' with
    | none => step c s = none
    | some x' => ∃ x, step c s = some x ∧ LaterSt c.nObj T R pre w0 x x' := by
  have hn : c'.nObj = c.nObj := by
    unfold Cfg.nObj
    rw [h.nBunch, h.nField, if_pos h.nDiag, if_pos h.nDiag']
  have hobj : 0 < c.nObj := by
    unfold Cfg.nObj
    rw [if_pos h.nDiag]
    omega
  have hg : ∀ i < c.nObj, ∀ j < c.nObj, c.f32 (s.t i + s.dt i) < c.f32 (s.t j + s.dt j) ↔ c'.f32 (s'.t i + s'.dt i) < c'.f32 (s'.t j + s'.dt j) := by
    intro i hi j hj
    rw [h.mono.lt_iff_lt, h.mono'.lt_iff_lt, hr.t i hi, hr.dt i hi, hr.t j hj, hr.dt j hj, add_right_comm, add_right_comm (s'.t j),
      add_lt_add_iff_right]
  have ha : ∀ n < c.nObj, argmin (fun i => c.f32 (s.t i + s.dt i)) n = argmin (fun i => c'.f32 (s'.t i + s'.dt i)) n := by
    intro n hn
    induction n with
    | zero => rfl
    | succ n ih =>
      unfold argmin
      rw [ih (by omega)]
      have := argmin_le (fun i => c'.f32 (s'.t i + s'.dt i)) n
      simp only [hg _ hn _ (show argmin (fun i => c'.f32 (s'.t i + s'.dt i)) n < c.nObj by omega)]
  unfold step
  dsimp only
  rw [hn, ha _ (by omega)]
  have hi : argmin (fun i => c'.f32 (s'.t i + s'.dt i)) (c.nObj - 1) < c.nObj := by
    have := argmin_le (fun i => c'.f32 (s'.t i + s'.dt i)) (c.nObj - 1)
    omega
  have hf : ∀ i < c.nObj, c.f32 (s.t i + s.dt i) > c.f32 c.tFinal ↔ c'.f32 (s'.t i + s'.dt i) > c'.f32 c'.tFinal := by
    intro i hi
    rw [gt_iff_lt, gt_iff_lt, h.mono.lt_iff_lt, h.mono'.lt_iff_lt, hr.t i hi, hr.dt i hi, h.tFinal, add_right_comm,
      add_lt_add_iff_right]
  simp only [hf _ hi]
  split_ifs with h1
  · rfl
  · exact ⟨_, rfl, later_advance h hr hi⟩

theorem later_run (h : Later T c c' R) (n : ℕ) {s : St K σ} {s' x' : St K σ'} (hr : LaterSt c.nObj T R pre w0 s s')
    (hx : run c' n s' = some x') : ∃ x, run c n s = some x ∧ LaterSt c.nObj T R pre w0 x x' := by
  induction n generalizing s s' with
  | zero => cases hx
  | succ n ih =>
    have h1 := later_step h hr
    unfold run at hx ⊢
    cases hs : step c' s' with
    | none =>
      rw [hs] at h1 hx
      dsimp only at h1
      rw [h1]
      cases hx
      exact ⟨s, rfl, hr⟩
    | some y =>
      rw [hs] at h1 hx
      obtain ⟨x, h2, h3⟩ := h1
      rw [h2]
      exact ih h3 hx

/-- A tracking is that of its first part, followed by that of the second part, if the second part starts with the
final world of the first one, in which the fields are up to date. -/
theorem split_tracking {Fresh : σ → ℕ → Prop} {Clk : σ → ℕ → K → Prop} {n : ℕ} (h : Later T c c' R) (hp : 0 < T) (hn : 0 < n) (he : c.Even T)
    (hT : ∀ i < c.nObj, T + c.per i ≤ c.tFinal) (hd : (c.part T n).dtDiag = c.dtDiag) (hf : Fresher c Fresh Clk)
    {w : σ} (hc : ∀ j < c.nField, Clk (initFields c c.nField (blank (K := K) w)).w j 0) {k k' : ℕ} {s : St K σ} (h1 : doTracking (c.part T n) k w = .returned s) {w' : σ'}
    (hR : (∀ j < c.nField, Fresh s.w j ∧ Clk s.w j T) → R s.w (initFields c' c.nField (blank (K := K) w')).w) {s' : St K σ'}
    (h2 : doTracking c' k' w' = .returned s') :
    ∃ k'' r l l', doTracking c k'' w = .returned r ∧ R r.w s'.w ∧ r.snaps = s.snaps ++ l ∧
      s'.snaps = (initFields c' c.nField (blank (K := K) w')).w :: l' ∧ List.Forall₂ R l l' := by
  obtain ⟨-, -, hr⟩ := doTracking_returned h1
  obtain ⟨-, -, hr'⟩ := doTracking_returned h2
  rw [start_part w hd] at hr
  obtain ⟨⟨m, hm⟩, q1, q2⟩ := run_part he hT hd hf h.nDiag hn h.mono k (inv1_start he hp.le hf w hc) hr
  have hfresh : ∀ j < c.nField, Fresh s.w j ∧ Clk s.w j T := fun j hj => by
    refine ⟨q1.fresh j hj fun i hi => ?_, ?_⟩
    · rw [q2 i (bunch_obj hi), q2 _ (field_obj hj)]
    · rw [← q2 _ (field_obj hj)]
      exact q1.clock j hj
  have hst : LaterSt c.nObj T R s.snaps (initFields c' c.nField (blank (K := K) w')).w s (start c' w') := by
    refine ⟨fun i hi => ?_, fun i hi => ?_, ?_, [], [], ?_, ?_, .nil⟩
    · rw [q2 i hi, start_t, zero_add]
    · rw [q1.dt i hi, start_dt]
      unfold Cfg.per Cfg.dt0
      rw [h.nBunch, h.nField, h.dtDiag]
      split_ifs with h3 h4
      · rw [h.dtBunch i h3]
        cases hb : c.dtBunch i with
        | none => exact absurd hb (h.fixed i h3)
        | some d => rfl
      · exact (h.dtField _ (by omega)).symm
      · rfl
    · have := hR hfresh
      rw [← h.nField] at this
      exact this
    · rw [List.append_nil]
    · rw [← h.nField]
      simp [start, generateDiagnostics, initFields_snaps, blank]
  obtain ⟨x, h3, h4⟩ := later_run h k' hst hr'
  obtain ⟨l, l', e1, e2, e3⟩ := h4.snaps
  refine ⟨m + k', x, l, l', ?_, h4.w, e1, e2, e3⟩
  have hobj : c.nObj ≠ 0 := by
    unfold Cfg.nObj
    rw [if_pos h.nDiag]
    omega
  unfold doTracking
  rw [if_neg (fun h' => absurd h'.1 h.nDiag.ne'), if_neg hobj, hm, h3]
  dsimp only
  rw [if_neg h.nDiag.ne']

end second

end WakeT.Tracker
