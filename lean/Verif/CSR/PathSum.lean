import Verif.CSR.ShortRange
import Mathlib.Analysis.InnerProductSpace.PiL2

/-!
# The CSR kernel as a sum over the whole path
-/

set_option linter.unusedSectionVars false

namespace WakeT.CSR

open Finset

/-- Specification: up to point `i` the path length grows, and no two points are further apart than along the path. -/
def Path (t : ℕ → Pt) (i : ℕ) : Prop :=
  ∀ k k', k < k' → k' ≤ i → (t k).s < (t k').s ∧ distance (t k) (t k') ≤ (t k').s - (t k).s

/-- Specification: the interaction of the particle at point `i` with the path from point `k` on, with the trapezoidal
rule; at the point `i` itself nothing is added. -/
noncomputable def pathSum (γ : ℝ) (t : ℕ → Pt) (i k : ℕ) : ℝ :=
  ∑ m ∈ Ico k (i - 1), (interaction γ (t m) (t i) + interaction γ (t (m + 1)) (t i)) / 2 * ((t (m + 1)).s - (t m).s)
    + interaction γ (t (i - 1)) (t i) / 2 * ((t i).s - (t (i - 1)).s)

theorem distance_eq_dist (p q : Pt) :
    distance p q = dist (WithLp.toLp 2 p.pos : EuclideanSpace ℝ (Fin 3)) (WithLp.toLp 2 q.pos) := by
  rw [EuclideanSpace.dist_eq, Fin.sum_univ_three]
  simp only [Real.dist_eq, sq_abs]
  unfold distance
  congr 1
  ring

theorem distance_triangle (p q r : Pt) : distance p r ≤ distance p q + distance q r := by
  simp only [distance_eq_dist]
  exact dist_triangle _ _ _

theorem distance_self (p : Pt) : distance p p = 0 := by rw [distance_eq_dist, dist_self]

theorem Path.delay_lt {γ : ℝ} (hγ : 1 < γ) {t : ℕ → Pt} {i : ℕ} (h : Path t i) {k k' : ℕ} (hk : k < k') (hi : k' ≤ i) :
    delay γ (t k) (t i) < delay γ (t k') (t i) := by
  obtain ⟨h1, h2⟩ := h k k' hk hi
  have h3 := distance_triangle (t k) (t k') (t i)
  have hb := velocity_pos hγ
  have hb1 := velocity_lt_one hγ
  unfold delay
  nlinarith

theorem delay_self (γ : ℝ) (p : Pt) : delay γ p p = 0 := by
  unfold delay
  rw [distance_self]
  ring

theorem longRange_eq {γ : ℝ} (hγ : 1 < γ) (t : ℕ → Pt) {i k : ℕ} (hk : k < i) : longRange t γ i k = pathSum γ t i k := by
  unfold longRange pathSum
  have hi : i = i - 1 + 1 := by omega
  have hsplit : Ico k i = insert (i - 1) (Ico k (i - 1)) := by
    ext x
    simp only [mem_Ico, mem_insert]
    omega
  rw [hsplit, sum_insert (by simp), add_comm]
  congr 1
  · apply sum_congr rfl
    intro m hm
    unfold kernelSeg
    rw [if_pos (by have := (mem_Ico.mp hm).2; omega), kernelAt_eq hγ, kernelAt_eq hγ]
    ring
  · unfold kernelSeg
    rw [if_neg (by omega), kernelAt_eq hγ]
    ring

/-! ### The last entry below a value of an increasing array -/

theorem lastBelow_mono {w : ℕ → ℝ} {n : ℕ} (hw : ∀ k k', k < k' → k' < n → w k < w k') {x : ℝ} {k : ℕ} (hk : k < n)
    (h1 : w k ≤ x) (h2 : k + 1 < n → x < w (k + 1)) : lastBelow w x n = some k := by
  classical
  unfold lastBelow
  have hsplit : (List.range n).filter (fun m => w m ≤ x) = List.range (k + 1) := by
    have hn : n = (k + 1) + (n - (k + 1)) := by omega
    rw [hn, List.range_add, List.filter_append]
    have e1 : (List.range (k + 1)).filter (fun m => decide (w m ≤ x)) = List.range (k + 1) := by
      rw [List.filter_eq_self]
      intro m hm
      rw [List.mem_range] at hm
      rw [decide_eq_true_eq]
      rcases Nat.lt_or_ge m k with h | h
      · exact (hw m k h hk).le.trans h1
      · rw [show m = k by omega]
        exact h1
    have e2 : ((List.range (n - (k + 1))).map fun m => k + 1 + m).filter (fun m => decide (w m ≤ x)) = [] := by
      rw [List.filter_eq_nil_iff]
      intro m hm
      obtain ⟨j, hj, rfl⟩ := List.mem_map.mp hm
      rw [List.mem_range] at hj
      rw [decide_eq_true_eq, not_le]
      rcases Nat.eq_zero_or_pos j with rfl | hj0
      · exact h2 (by omega)
      · exact (h2 (by omega)).trans (hw _ _ (by omega) (by omega))
    rw [e1]
    convert List.append_nil _
  have hlast : (List.range (k + 1)).getLast? = some k := by
    rw [List.range_succ, List.getLast?_append]
    simp
  rw [← hlast, ← hsplit]

theorem lastBelow_eq_none {w : ℕ → ℝ} {n : ℕ} {x : ℝ} (h : ∀ k < n, x < w k) : lastBelow w x n = none := by
  unfold lastBelow
  rw [List.getLast?_eq_none_iff, List.filter_eq_nil_iff]
  intro k hk
  rw [List.mem_range] at hk
  simpa using h k hk

/-- For an increasing array `np.min` is the first entry. -/
theorem minOn_mono {w : ℕ → ℝ} {j i : ℕ} (hw : ∀ k, j ≤ k → k < i → w j ≤ w k) : minOn w j i = w j := by
  unfold minOn
  have : ∀ l : List ℕ, (∀ k ∈ l, j + k < i) → l.foldl (fun m k => min m (w (j + k))) (w j) = w j := by
    intro l
    induction l with
    | nil => intro _; rfl
    | cons a l ih =>
      intro hl
      rw [List.foldl_cons, min_eq_left (hw _ (by omega) (hl a (by simp)))]
      exact ih fun k hk => hl k (by simp [hk])
  apply this
  intro k hk
  rw [List.mem_range] at hk
  omega

section
variable {γ : ℝ} (hγ : 1 < γ) {t : ℕ → Pt} {i : ℕ} (hp : Path t i) (hi : 0 < i)

include hγ hp hi

theorem firstPoint_zero {w0 : ℝ} (hw : w0 < delay γ (t 0) (t i)) : firstPoint t γ w0 i = 0 := by
  have hall : ∀ k ≤ i, w0 < retarded t (betaOf γ) i k := by
    intro k hk
    rw [retarded_delay]
    rcases Nat.eq_zero_or_pos k with rfl | h
    · exact hw
    · exact hw.trans (hp.delay_lt hγ h hk)
  have h1 : estimateStart t (betaOf γ) w0 i 1000 10 = 0 := by
    unfold estimateStart
    split_ifs
    · dsimp only
      rw [lastBelow_eq_none]
      intro m hm
      apply hall
      apply Nat.div_le_of_le_mul
      exact Nat.mul_le_mul_right _ (by omega)
    · rfl
  unfold firstPoint kernelStart
  rw [h1, lastBelow_eq_none]
  intro k hk
  exact hall _ (by omega)

/-- If the first point of the path is seen from the kernel, the summation begins at a point seen not later than `w0`. -/
theorem firstPoint_le {w0 : ℝ} (hw0 : w0 < 0) (hw : delay γ (t 0) (t i) ≤ w0) :
    delay γ (t (firstPoint t γ w0 i)) (t i) ≤ w0 := by
  have hest : delay γ (t (estimateStart t (betaOf γ) w0 i 1000 10)) (t i) ≤ w0 := by
    unfold estimateStart
    split_ifs
    · dsimp only
      cases hl : lastBelow (fun m => retarded t (betaOf γ) i (m * i / (10 - 1))) w0 10 with
      | none => exact hw
      | some m =>
        have := List.mem_of_getLast? hl
        have := (List.mem_filter.mp this).2
        simp only [decide_eq_true_eq, retarded_delay] at this
        exact this
    · exact hw
  unfold firstPoint kernelStart
  split
  · rename_i m hl
    have := List.mem_of_getLast? hl
    have := (List.mem_filter.mp this).2
    simp only [decide_eq_true_eq, retarded_delay] at this
    rw [Nat.add_comm]
    exact this
  · exact hest

end

theorem lastStrict_spec {w : ℕ → ℝ} {n : ℕ} {x : ℝ} (hw : ∀ k k', k < k' → w k < w k') {l : ℕ} (hl : l < n)
    (h0 : w 0 < x) : (l ≤ lastStrict w x n ↔ w l < x) ∧ w (lastStrict w x n) < x ∧ lastStrict w x n < n := by
  classical
  unfold lastStrict
  have hmem : (0 : ℕ) ∈ (List.range n).filter fun l => decide (w l < x) := by
    rw [List.mem_filter, List.mem_range, decide_eq_true_eq]
    exact ⟨by omega, h0⟩
  obtain ⟨m, hm⟩ : ∃ m, ((List.range n).filter fun l => decide (w l < x)).getLast? = some m := by
    rw [← Option.isSome_iff_exists, List.getLast?_isSome]
    exact List.ne_nil_of_mem hmem
  have hmm := List.mem_filter.mp (List.mem_of_getLast? hm)
  rw [List.mem_range, decide_eq_true_eq] at hmm
  have hlast : ∀ k ∈ (List.range n).filter fun l => decide (w l < x), k ≤ m := by
    intro k hk
    have hs : ((List.range n).filter fun l => decide (w l < x)).Pairwise (· < ·) :=
      List.Pairwise.filter _ List.pairwise_lt_range
    obtain ⟨a, ha, rfl⟩ := List.getElem_of_mem hk
    have hne := List.ne_nil_of_mem hk
    rw [List.getLast?_eq_getElem?, List.getElem?_eq_getElem (by omega), Option.some.injEq] at hm
    rw [← hm]
    rcases Nat.lt_or_ge a (((List.range n).filter fun l => decide (w l < x)).length - 1) with h | h
    · exact (List.pairwise_iff_getElem.mp hs a _ ha (by omega) h).le
    · have : a = ((List.range n).filter fun l => decide (w l < x)).length - 1 := by omega
      subst this
      exact le_rfl
  have hres : ((((List.range n).filter fun l => decide (w l < x)).getLast?).getD 0) = m := by rw [hm]; rfl
  have key : (l ≤ m ↔ w l < x) ∧ w m < x ∧ m < n := by
    refine ⟨⟨fun h => ?_, fun h => ?_⟩, hmm.2, hmm.1⟩
    · rcases h.lt_or_eq with h | rfl
      · exact (hw _ _ h).trans hmm.2
      · exact hmm.2
    · exact hlast l (by rw [List.mem_filter, List.mem_range, decide_eq_true_eq]; exact ⟨hl, h⟩)
  convert key

section headline
variable {γ : ℝ} (hγ : 1 < γ) {t : ℕ → Pt} {i : ℕ} (hp : Path t i) (hi : 0 < i) {nBins : ℕ} {h : ℝ} (hh : 0 < h)
  {l : ℕ} (hl : l < nBins)

include hγ hp hi hh hl

theorem wr_mono : ∀ k k' : ℕ, k < k' → ((k : ℝ) - nBins) * h < ((k' : ℝ) - nBins) * h := by
  intro k k' hk
  have : (k : ℝ) < k' := by exact_mod_cast hk
  nlinarith

theorem wr_neg : ((l : ℝ) - nBins) * h < 0 := by
  have : (l : ℝ) < nBins := by exact_mod_cast hl
  nlinarith

/-- Seen after the beginning of the path: the kernel is the sum over the path from the point of emission on, linearly
interpolated between the points of the path. -/
theorem kernel_long {k : ℕ} (hk : k < i) (h1 : delay γ (t k) (t i) ≤ ((l : ℝ) - nBins) * h)
    (h2 : k + 1 < i → ((l : ℝ) - nBins) * h < delay γ (t (k + 1)) (t i)) :
    kernelSum t γ i nBins h l =
      if k + 1 < i then
        pathSum γ t i k + (pathSum γ t i (k + 1) - pathSum γ t i k)
          * ((((l : ℝ) - nBins) * h - delay γ (t k) (t i)) / (delay γ (t (k + 1)) (t i) - delay γ (t k) (t i)))
      else pathSum γ t i (i - 1) := by
  have hwl := wr_neg hγ hp hi hh hl
  have hw0 : ((0 : ℕ) - nBins : ℝ) * h < 0 := by
    have : (1 : ℝ) ≤ nBins := by exact_mod_cast (by omega : 1 ≤ nBins)
    push_cast
    nlinarith
  have hmono : ∀ a b, a < b → b ≤ i → retarded t (betaOf γ) i a < retarded t (betaOf γ) i b := by
    intro a b hab hb
    rw [retarded_delay, retarded_delay]
    exact hp.delay_lt hγ hab hb
  have hj := firstPoint_lt t γ hw0 hi
  have hminOn : minOn (retarded t (betaOf γ) i) (firstPoint t γ (((0 : ℕ) - nBins : ℝ) * h) i) i =
      retarded t (betaOf γ) i (firstPoint t γ (((0 : ℕ) - nBins : ℝ) * h) i) := by
    apply minOn_mono
    intro a ha ha'
    rcases ha.lt_or_eq with h' | h'
    · exact (hmono _ _ h' ha'.le).le
    · rw [h']
  -- the first point of the sum is not after the point of emission
  have hjk : firstPoint t γ (((0 : ℕ) - nBins : ℝ) * h) i ≤ k := by
    rcases lt_or_ge (((0 : ℕ) - nBins : ℝ) * h) (delay γ (t 0) (t i)) with hc | hc
    · rw [firstPoint_zero hγ hp hi hc]
      exact Nat.zero_le _
    · have h3 := firstPoint_le hγ hp hi hw0 hc
      by_contra hlt
      push Not at hlt
      have hki : k + 1 < i := by omega
      have h4 : ((0 : ℕ) - nBins : ℝ) * h ≤ ((l : ℝ) - nBins) * h := by
        have : (0 : ℝ) ≤ l := Nat.cast_nonneg _
        push_cast
        nlinarith
      have h5 := h2 hki
      have h6 : delay γ (t (k + 1)) (t i) ≤ delay γ (t (firstPoint t γ (((0 : ℕ) - nBins : ℝ) * h) i)) (t i) := by
        rcases (show k + 1 ≤ firstPoint t γ (((0 : ℕ) - nBins : ℝ) * h) i by omega).lt_or_eq with h' | h'
        · exact (hp.delay_lt hγ h' hj.le).le
        · rw [← h']
      linarith
  have hmain : npInterp (fun m => retarded t (betaOf γ) i (firstPoint t γ (((0 : ℕ) - nBins : ℝ) * h) i + m))
      (fun m => longRange t γ i (firstPoint t γ (((0 : ℕ) - nBins : ℝ) * h) i + m))
      (i - firstPoint t γ (((0 : ℕ) - nBins : ℝ) * h) i) (((l : ℝ) - nBins) * h) =
      if k + 1 < i then
        pathSum γ t i k + (pathSum γ t i (k + 1) - pathSum γ t i k)
          * ((((l : ℝ) - nBins) * h - delay γ (t k) (t i)) / (delay γ (t (k + 1)) (t i) - delay γ (t k) (t i)))
      else pathSum γ t i (i - 1) := by
    generalize firstPoint t γ (((0 : ℕ) - nBins : ℝ) * h) i = j at *
    have e1 : j + (k - j) = k := by omega
    have e2 : j + (k - j + 1) = k + 1 := by omega
    have hlb : lastBelow (fun m => retarded t (betaOf γ) i (j + m)) (((l : ℝ) - nBins) * h) (i - j) = some (k - j) := by
      apply lastBelow_mono
      · intro a b hab hb
        exact hmono _ _ (by omega) (by omega)
      · omega
      · rw [e1, retarded_delay]
        exact h1
      · intro hki
        rw [e2, retarded_delay]
        exact h2 (by omega)
    unfold npInterp
    rw [hlb]
    dsimp only
    rw [e1, e2, retarded_delay, retarded_delay, longRange_eq hγ t hk]
    by_cases hki : k + 1 < i
    · rw [if_neg (by omega), if_pos hki, longRange_eq hγ t hki]
      ring
    · rw [if_pos (by omega), if_neg hki]
      congr 1
      omega
  unfold kernelSum
  dsimp only
  rw [hminOn]
  by_cases hc : ((0 : ℕ) - nBins : ℝ) * h < retarded t (betaOf γ) i (firstPoint t γ (((0 : ℕ) - nBins : ℝ) * h) i)
  · rw [if_pos hc, if_neg]
    · exact hmain
    · intro hle
      have h3 := (lastStrict_spec (w := fun l : ℕ => ((l : ℝ) - nBins) * h) (wr_mono hγ hp hi hh hl) hl hc).1.mp hle
      rw [retarded_delay] at h3
      have h4 : delay γ (t (firstPoint t γ (((0 : ℕ) - nBins : ℝ) * h) i)) (t i) ≤ delay γ (t k) (t i) := by
        rcases hjk.lt_or_eq with h' | h'
        · exact (hp.delay_lt hγ h' hk.le).le
        · rw [h']
      linarith
  · rw [if_neg hc]
    exact hmain

omit hγ hp hi hh hl in
theorem leftOut_sub (t : ℕ → Pt) (i : ℕ) (γ w1 s0 s1 s2 : ℝ) :
    leftOut t i γ w1 s0 s2 - leftOut t i γ w1 s0 s1 = leftOut t i γ w1 s1 s2 := by
  unfold leftOut
  split_ifs <;> ring

/-- Seen before the beginning of the path: the kernel is the integral over the straight line from the point of emission
to the beginning of the path, plus the sum over the path. -/
theorem kernel_line (hu : Unit (t 0).tan) (hfront : ∀ σ ≤ (t 0).s, (t i).pos ≠ (onLine (t 0) σ).pos) {σ : ℝ}
    (hσ : delay γ (onLine (t 0) σ) (t i) = ((l : ℝ) - nBins) * h) (hb : σ < (t 0).s) :
    kernelSum t γ i nBins h l + leftOut t i γ (min ((1 - nBins) * h) (delay γ (t 0) (t i))) (σ - (t i).s) ((t 0).s - (t i).s) =
      (∫ σ in σ..(t 0).s, interaction γ (onLine (t 0) σ) (t i)) + pathSum γ t i 0 := by
  have hwl := wr_neg hγ hp hi hh hl
  have h0l : ((0 : ℕ) - nBins : ℝ) * h ≤ ((l : ℝ) - nBins) * h := by
    have : (0 : ℝ) ≤ l := Nat.cast_nonneg _
    push_cast
    nlinarith
  have hw0 := h0l.trans_lt hwl
  have ht0 : onLine (t 0) ((t i).s + ((t 0).s - (t i).s)) = t 0 := by
    have : (t i).s + ((t 0).s - (t i).s) = (t 0).s := by ring
    rw [this]
    unfold onLine
    simp
  have hσ' : onLine (t 0) ((t i).s + (σ - (t i).s)) = onLine (t 0) σ := by
    congr 1
    ring
  have d0 := delay_line (γ := γ) t i hu ((t 0).s - (t i).s)
  have dσ := delay_line (γ := γ) t i hu (σ - (t i).s)
  rw [ht0] at d0
  rw [hσ', hσ] at dσ
  have hinj : ∀ a b : ℝ, a + velocity γ * lineR t i a ≤ b + velocity γ * lineR t i b → a ≤ b := by
    intro a b hab
    by_contra hc
    push Not at hc
    linarith [delay_mono t i hγ hc]
  have hinj' : ∀ a b : ℝ, a + velocity γ * lineR t i a = b + velocity γ * lineR t i b → a = b := fun a b hab =>
    le_antisymm (hinj a b hab.le) (hinj b a hab.ge)
  have hlmin : ((l : ℝ) - nBins) * h < delay γ (t 0) (t i) := by
    rw [d0, dσ]
    exact delay_mono t i hγ (by linarith)
  have hmin0 : delay γ (t 0) (t i) < 0 := by
    have := hp.delay_lt hγ hi le_rfl
    rwa [delay_self] at this
  have sσ : shortS t γ i (((l : ℝ) - nBins) * h) = σ - (t i).s :=
    hinj' _ _ (by rw [(shortS_spec t i hγ _).1, ← dσ])
  have s0 : shortS t γ i (delay γ (t 0) (t i)) = (t 0).s - (t i).s :=
    hinj' _ _ (by rw [(shortS_spec t i hγ _).1, ← d0])
  have sw0 : shortS t γ i (((0 : ℕ) - nBins : ℝ) * h) ≤ σ - (t i).s :=
    hinj _ _ (by rw [(shortS_spec t i hγ _).1, ← dσ]; exact h0l)
  -- the particle is in front of the line
  have hfr : 0 < entryA2 t i ∨ (t 0).s - (t i).s < wInf t i := by
    rcases (entryA2_nonneg t i).lt_or_eq with h' | h'
    · exact Or.inl h'
    · right
      have hac : ∀ a, entryAcross t i a = 0 := by
        have h'' := h'.symm
        unfold entryA2 dot at h''
        have q0 := mul_self_nonneg (entryAcross t i 0)
        have q1 := mul_self_nonneg (entryAcross t i 1)
        have q2 := mul_self_nonneg (entryAcross t i 2)
        intro a
        fin_cases a
        · exact mul_self_eq_zero.mp (by show entryAcross t i 0 * entryAcross t i 0 = 0; linarith)
        · exact mul_self_eq_zero.mp (by show entryAcross t i 1 * entryAcross t i 1 = 0; linarith)
        · exact mul_self_eq_zero.mp (by show entryAcross t i 2 * entryAcross t i 2 = 0; linarith)
      have hon : (t i).pos = (onLine (t 0) ((t 0).s + entryLen t i)).pos := by
        funext a
        have := hac a
        unfold entryAcross entryVec at this
        simp only [onLine]
        linarith
      have : 0 < entryLen t i := by
        by_contra hc
        push Not at hc
        exact hfront _ (by linarith) hon
      unfold wInf
      linarith
  have f1 : 0 < entryA2 t i ∨ (shortS t γ i (((0 : ℕ) - nBins : ℝ) * h) < wInf t i ∧
      shortS t γ i (delay γ (t 0) (t i)) < wInf t i) :=
    hfr.imp id fun h' => ⟨by linarith, by rw [s0]; exact h'⟩
  have f2 : 0 < entryA2 t i ∨ (shortS t γ i (((0 : ℕ) - nBins : ℝ) * h) < wInf t i ∧
      shortS t γ i (((l : ℝ) - nBins) * h) < wInf t i) :=
    hfr.imp id fun h' => ⟨by linarith, by rw [sσ]; linarith⟩
  have f3 : 0 < entryA2 t i ∨ (σ - (t i).s < wInf t i ∧ (t 0).s - (t i).s < wInf t i) :=
    hfr.imp id fun h' => ⟨by linarith, h'⟩
  have hneg0 : shortS t γ i (((0 : ℕ) - nBins : ℝ) * h)
      + velocity γ * lineR t i (shortS t γ i (((0 : ℕ) - nBins : ℝ) * h)) < 0 := by
    rw [(shortS_spec t i hγ _).1]; exact hw0
  have hnegl : σ - (t i).s + velocity γ * lineR t i (σ - (t i).s) < 0 := by rw [← dσ]; exact hwl
  have hnegm : (t 0).s - (t i).s + velocity γ * lineR t i ((t 0).s - (t i).s) < 0 := by rw [← d0]; exact hmin0
  have i1 := shortRange_integral t i hu hγ (min ((1 - nBins) * h) (delay γ (t 0) (t i))) hw0 hmin0 f1
  have i2 := shortRange_integral t i hu hγ (min ((1 - nBins) * h) (delay γ (t 0) (t i))) hw0 hwl f2
  rw [s0] at i1 f1
  rw [sσ] at i2 f2
  rw [integral_line t i hu hγ f1 hneg0 hnegm] at i1
  rw [integral_line t i hu hγ f2 hneg0 hnegl] at i2
  have i3 := integral_line t i hu hγ f3 hnegl hnegm
  rw [intervalIntegral.integral_comp_add_left (fun σ => interaction γ (onLine (t 0) σ) (t i))] at i3
  have hlim1 : (t i).s + (σ - (t i).s) = σ := by ring
  have hlim2 : (t i).s + ((t 0).s - (t i).s) = (t 0).s := by ring
  rw [hlim1, hlim2] at i3
  have hsub := leftOut_sub t i γ (min ((1 - nBins) * h) (delay γ (t 0) (t i)))
    (shortS t γ i (((0 : ℕ) - nBins : ℝ) * h)) (σ - (t i).s) ((t 0).s - (t i).s)
  -- the branch of the code
  have hfp := firstPoint_zero hγ hp hi (h0l.trans_lt hlmin)
  have hminOn : minOn (retarded t (betaOf γ) i) 0 i = delay γ (t 0) (t i) := by
    rw [← retarded_delay]
    apply minOn_mono
    intro a _ ha'
    rw [retarded_delay, retarded_delay]
    rcases Nat.eq_zero_or_pos a with rfl | h'
    · exact le_rfl
    · exact (hp.delay_lt hγ h' ha'.le).le
  have hls := lastStrict_spec (w := fun l : ℕ => ((l : ℝ) - nBins) * h) (wr_mono hγ hp hi hh hl) hl
    (h0l.trans_lt hlmin)
  have hw1 : (if 0 < lastStrict (fun l : ℕ => ((l : ℝ) - nBins) * h) (delay γ (t 0) (t i)) nBins then
      ((1 : ℕ) - nBins : ℝ) * h else delay γ (t 0) (t i)) = min ((1 - nBins) * h) (delay γ (t 0) (t i)) := by
    split_ifs with hm
    · rw [Nat.cast_one, min_eq_left]
      have h1 := hls.2.1
      have h2 : ((1 : ℕ) - nBins : ℝ) * h ≤
          ((lastStrict (fun l : ℕ => ((l : ℝ) - nBins) * h) (delay γ (t 0) (t i)) nBins : ℕ) - nBins : ℝ) * h := by
        have : ((1 : ℕ) : ℝ) ≤ (lastStrict (fun l : ℕ => ((l : ℝ) - nBins) * h) (delay γ (t 0) (t i)) nBins : ℕ) := by
          exact_mod_cast hm
        nlinarith
      push_cast at h2
      linarith
    · rw [min_eq_right]
      rcases Nat.lt_or_ge 1 nBins with hn | hn
      · have h1 := (lastStrict_spec (w := fun l : ℕ => ((l : ℝ) - nBins) * h) (wr_mono hγ hp hi hh hl) hn
          (h0l.trans_lt hlmin)).1
        have h2 : ¬ (1 ≤ lastStrict (fun l : ℕ => ((l : ℝ) - nBins) * h) (delay γ (t 0) (t i)) nBins) := hm
        rw [h1, Nat.cast_one, not_lt] at h2
        exact h2
      · have : (nBins : ℝ) = 1 := by exact_mod_cast (by omega : nBins = 1)
        rw [this]
        linarith
  have hks : kernelSum t γ i nBins h l =
      (shortRange t γ i (((0 : ℕ) - nBins : ℝ) * h) (min ((1 - nBins) * h) (delay γ (t 0) (t i))) (delay γ (t 0) (t i))
        - shortRange t γ i (((0 : ℕ) - nBins : ℝ) * h) (min ((1 - nBins) * h) (delay γ (t 0) (t i)))
          (((l : ℝ) - nBins) * h)) + pathSum γ t i 0 := by
    unfold kernelSum
    dsimp only
    rw [hfp, hminOn, if_pos (h0l.trans_lt hlmin), if_pos (hls.1.mpr hlmin), hw1, longRange_eq hγ t (by omega)]
  rw [hks]
  linarith

end headline

/-- A path of two points around a corner, seen from a point of the line in front of it. -/
example (γ : ℝ) (hγ : 1 < γ) : ∃ (t : ℕ → Pt) (h σ : ℝ), (t 0).tan ≠ (t 1).tan ∧ Path t 1 ∧ 0 < h ∧ Unit (t 0).tan ∧
    (∀ σ ≤ (t 0).s, (t 1).pos ≠ (onLine (t 0) σ).pos) ∧
    delay γ (onLine (t 0) σ) (t 1) = ((0 : ℕ) - (1 : ℕ) : ℝ) * h ∧ σ < (t 0).s := by
  have hb := velocity_pos hγ
  have hb1 := velocity_lt_one hγ
  have h2 : √(5 / 2 : ℝ) < 2 := by
    rw [Real.sqrt_lt' (by norm_num)]
    norm_num
  have h3 : 0 ≤ √(5 / 2 : ℝ) := Real.sqrt_nonneg _
  have e2 : ∀ a b c : ℝ, (![a, b, c] : Fin 3 → ℝ) 2 = c := fun _ _ _ => rfl
  refine ⟨fun k => if k = 0 then startPt else ⟨1, ![1 / 2, 0, 1 / 2], ![1, 0, 0]⟩, 2 - velocity γ * √(5 / 2), -1,
    ?_, ?_, by nlinarith, ?_, ?_, ?_, by norm_num [startPt]⟩
  · intro h
    have := congrFun h 0
    simp [startPt] at this
  · intro k k' hk hk'
    obtain rfl : k = 0 := by omega
    obtain rfl : k' = 1 := by omega
    refine ⟨by norm_num [startPt], ?_⟩
    simp only [if_true, one_ne_zero, if_false, distance, startPt]
    rw [Real.sqrt_le_left (by norm_num)]
    norm_num [e2]
  · norm_num [Unit, startPt, e2]
  · intro σ _ h
    have := congrFun h 0
    norm_num [onLine, startPt] at this
  · simp only [if_true, one_ne_zero, if_false, delay, distance, onLine, startPt, e2, Matrix.cons_val_zero,
      Matrix.cons_val_one]
    rw [show ((1 / 2 - (0 + (-1 - 0) * 0)) ^ 2 + (0 - (0 + (-1 - 0) * 0)) ^ 2 + (1 / 2 - (0 + (-1 - 0) * 1)) ^ 2 : ℝ)
      = 5 / 2 by norm_num]
    push_cast
    ring

end WakeT.CSR
