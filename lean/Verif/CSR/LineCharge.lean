import Verif.CSR.KernelProps
import Mathlib.Algebra.BigOperators.Field

/-!
# How the CSR energy change depends on the bunch
-/

set_option linter.unusedSectionVars false

namespace WakeT.CSR

open Finset

/-! ### Smallest and largest entry -/

theorem foldl_min_le (f : ℕ → ℝ) : ∀ (l : List ℕ) (m : ℝ), l.foldl (fun m k => min m (f k)) m ≤ m ∧
    ∀ k ∈ l, l.foldl (fun m k => min m (f k)) m ≤ f k
  | [], m => ⟨le_rfl, by simp⟩
  | a :: l, m => by
    obtain ⟨h1, h2⟩ := foldl_min_le f l (min m (f a))
    refine ⟨h1.trans (min_le_left _ _), ?_⟩
    intro k hk
    rcases List.mem_cons.mp hk with rfl | hk
    · exact h1.trans (min_le_right _ _)
    · exact h2 k hk

theorem foldl_min_mem (f : ℕ → ℝ) : ∀ (l : List ℕ) (m : ℝ), l.foldl (fun m k => min m (f k)) m = m ∨
    ∃ k ∈ l, l.foldl (fun m k => min m (f k)) m = f k
  | [], m => Or.inl rfl
  | a :: l, m => by
    rw [List.foldl_cons]
    rcases foldl_min_mem f l (min m (f a)) with h | ⟨k, hk, h⟩
    · rcases min_choice m (f a) with h' | h'
      · exact Or.inl (h.trans h')
      · exact Or.inr ⟨a, by simp, h.trans h'⟩
    · exact Or.inr ⟨k, by simp [hk], h⟩

theorem arrMin_spec (f : ℕ → ℝ) {n : ℕ} (hn : 0 < n) : (∀ k < n, arrMin f n ≤ f k) ∧ ∃ k < n, arrMin f n = f k := by
  unfold arrMin
  refine ⟨fun k hk => (foldl_min_le f _ _).2 k (List.mem_range.mpr hk), ?_⟩
  rcases foldl_min_mem f (List.range n) (f 0) with h | ⟨k, hk, h⟩
  · exact ⟨0, hn, h⟩
  · exact ⟨k, List.mem_range.mp hk, h⟩

theorem arrMax_neg (f : ℕ → ℝ) (n : ℕ) : arrMax f n = -arrMin (fun k => -f k) n := by
  unfold arrMax arrMin
  have : ∀ (l : List ℕ) (m : ℝ), l.foldl (fun m k => max m (f k)) m =
      -l.foldl (fun m k => min m (-f k)) (-m) := by
    intro l
    induction l with
    | nil => intro m; simp
    | cons a l ih => intro m; rw [List.foldl_cons, List.foldl_cons, ih, min_neg_neg]
  exact this _ _

theorem arrMin_perm (f g : ℕ → ℝ) {n : ℕ} (hn : 0 < n) {σ τ : ℕ → ℕ} (hσ : ∀ k < n, σ k < n ∧ f k = g (σ k))
    (hτ : ∀ k < n, τ k < n ∧ g k = f (τ k)) : arrMin f n = arrMin g n := by
  obtain ⟨f1, kf, hkf, f2⟩ := arrMin_spec f hn
  obtain ⟨g1, kg, hkg, g2⟩ := arrMin_spec g hn
  apply le_antisymm
  · rw [g2, (hτ kg hkg).2]
    exact f1 _ (hτ kg hkg).1
  · rw [f2, (hσ kf hkf).2]
    exact g1 _ (hσ kf hkf).1

theorem arrMin_add (f : ℕ → ℝ) (t : ℝ) (n : ℕ) : arrMin (fun k => f k + t) n = arrMin f n + t := by
  unfold arrMin
  have : ∀ (l : List ℕ) (m : ℝ), l.foldl (fun m k => min m (f k + t)) (m + t) =
      l.foldl (fun m k => min m (f k)) m + t := by
    intro l
    induction l with
    | nil => intro m; rfl
    | cons a l ih => intro m; rw [List.foldl_cons, List.foldl_cons, ← ih, min_add_add_right]
  exact this _ _

theorem arrMax_add (f : ℕ → ℝ) (t : ℝ) (n : ℕ) : arrMax (fun k => f k + t) n = arrMax f n + t := by
  rw [arrMax_neg, arrMax_neg]
  have : (fun k => -(f k + t)) = fun k => -f k + -t := by funext k; ring
  rw [this, arrMin_add]
  ring

theorem histRange_add (z : ℕ → ℝ) (t : ℝ) (n : ℕ) :
    histRange (fun p => z p + t) n = ((histRange z n).1 + t, (histRange z n).2 + t) := by
  unfold histRange
  dsimp only
  rw [arrMin_add, arrMax_add]
  by_cases h : arrMin z n = arrMax z n
  · rw [if_pos (by rw [h]), if_pos h]
    ext <;> dsimp only <;> ring
  · rw [if_neg (by intro h'; exact h (add_right_cancel h')), if_neg h]

theorem binSize_add (z : ℕ → ℝ) (t : ℝ) (n nBins : ℕ) :
    binSize (fun p => z p + t) n nBins = binSize z n nBins := by
  unfold binSize
  rw [histRange_add]
  dsimp only
  rw [add_sub_add_right_eq_sub]

theorem hist_add (z q : ℕ → ℝ) (t : ℝ) (n nBins b : ℕ) :
    hist (fun p => z p + t) q n nBins b = hist z q n nBins b := by
  unfold hist binOf
  rw [binSize_add, histRange_add]
  simp only [add_sub_add_right_eq_sub]

theorem binCenter_add (z : ℕ → ℝ) (t : ℝ) (n nBins b : ℕ) :
    binCenter (fun p => z p + t) n nBins b = binCenter z n nBins b + t := by
  unfold binCenter
  rw [binSize_add, histRange_add]
  ring

theorem kde_add {x v : ℕ → ℝ} {m : ℕ} (t f y : ℝ) (hv : ∑ b ∈ range m, v b ≠ 0) :
    kde (fun b => x b + t) v m f (y + t) = kde x v m f y := by
  have hm : ∑ b ∈ range m, v b / (∑ b ∈ range m, v b) * (x b + t) =
      ∑ b ∈ range m, v b / (∑ b ∈ range m, v b) * x b + t := by
    simp only [mul_add, sum_add_distrib]
    rw [← sum_mul, ← sum_div, div_self hv, one_mul]
  unfold kde
  dsimp only
  rw [hm]
  simp only [add_sub_add_right_eq_sub]

/-- The histogram holds the whole charge. -/
theorem sum_hist (z q : ℕ → ℝ) (n : ℕ) {nBins : ℕ} (hn : 1 ≤ nBins) :
    ∑ b ∈ range nBins, hist z q n nBins b = ∑ p ∈ range n, q p := by
  unfold hist
  rw [sum_comm]
  apply sum_congr rfl
  intro p _
  rw [sum_ite_eq, if_pos]
  rw [mem_range]
  unfold binOf
  omega

/-- Shifting the whole bunch along the beam changes no energy. -/
theorem csr_translation (k : Calc) (c : ℝ) {nBins : ℕ} (hn : 1 ≤ nBins) (e : Elem) (l γ : ℝ) (tau q : ℕ → ℝ) (n : ℕ) (t : ℝ)
    (hq : ∑ p ∈ range n, q p ≠ 0) :
    k.applyCsr c nBins e l γ (fun p => tau p + t) q n = k.applyCsr c nBins e l γ tau q n := by
  rw [← sum_hist (fun p => -tau p) q n hn] at hq
  have hz : (fun p => -(tau p + t)) = fun p => -tau p + -t := by funext p; ring
  unfold Calc.applyCsr
  dsimp only
  rw [hz, binSize_add]
  have hprof : profile (fun p => -tau p + -t) q n nBins = profile (fun p => -tau p) q n nBins := by
    funext b
    unfold profile
    have h1 : binCenter (fun p => -tau p + -t) n nBins = fun b => binCenter (fun p => -tau p) n nBins b + -t :=
      funext fun b => binCenter_add _ _ _ _ _
    have h2 : hist (fun p => -tau p + -t) q n nBins = hist (fun p => -tau p) q n nBins :=
      funext fun b => hist_add _ _ _ _ _ _
    rw [binSize_add, h1, h2, kde_add _ _ _ hq]
  have hkick : ∀ wk p, kickOf γ wk nBins (binSize (fun p => -tau p) n nBins)
      (binCenter (fun p => -tau p + -t) n nBins 0) (-(tau p + t)) =
      kickOf γ wk nBins (binSize (fun p => -tau p) n nBins) (binCenter (fun p => -tau p) n nBins 0) (-tau p) := by
    intro wk p
    unfold kickOf
    dsimp only
    rw [binCenter_add]
    have : -(tau p + t) * (1 / binSize (fun p => -tau p) n nBins)
        - (binCenter (fun p => -tau p) n nBins 0 + -t) / binSize (fun p => -tau p) n nBins =
        -tau p * (1 / binSize (fun p => -tau p) n nBins)
        - binCenter (fun p => -tau p) n nBins 0 / binSize (fun p => -tau p) n nBins := by ring
    rw [this]
  simp only [hprof, hkick]

/-- Two particles with charge. -/
example : ∑ p ∈ range 2, (if p = 0 then (1 : ℝ) else 2) ≠ 0 := by norm_num [sum_range_succ]

/-! ### Charge -/

theorem npInterp_mul (xp fp : ℕ → ℝ) (n : ℕ) (x r : ℝ) : npInterp xp (fun k => r * fp k) n x = r * npInterp xp fp n x := by
  unfold npInterp
  cases lastBelow xp x n with
  | none => rfl
  | some j =>
    dsimp only
    split_ifs
    · rfl
    · ring

theorem kde_mul {x v : ℕ → ℝ} {m : ℕ} {r : ℝ} (hr : r ≠ 0) (f y : ℝ) : kde x (fun b => r * v b) m f y = kde x v m f y := by
  have h : ∀ b, r * v b / ∑ b ∈ range m, r * v b = v b / ∑ b ∈ range m, v b := by
    intro b
    rw [← mul_sum, mul_div_mul_left _ _ hr]
  unfold kde
  dsimp only
  simp only [h]

theorem profile_mul (z q : ℕ → ℝ) (n nBins b : ℕ) {r : ℝ} (hr : r ≠ 0) :
    profile z (fun p => r * q p) n nBins b = r * profile z q n nBins b := by
  have h : hist z (fun p => r * q p) n nBins = fun b => r * hist z q n nBins b := by
    funext b
    unfold hist
    rw [mul_sum]
    apply sum_congr rfl
    intro p _
    split_ifs
    · rfl
    · rw [mul_zero]
  unfold profile
  rw [h, kde_mul hr, ← mul_sum]
  ring

theorem wake_mul (K1 lam : ℕ → ℝ) (nBins : ℕ) (h ds r : ℝ) (m : ℕ) :
    wake K1 (fun b => r * lam b) nBins h ds m = r * wake K1 lam nBins h ds m := by
  unfold wake
  rw [← mul_assoc, ← mul_div_assoc, mul_sum]
  congr 2
  apply sum_congr rfl
  intro b _
  split_ifs
  · ring
  · rw [mul_zero]

/-- The energy change is proportional to the charge of the bunch. -/
theorem csr_charge (k : Calc) (c : ℝ) (nBins : ℕ) (e : Elem) (l γ : ℝ) (tau q : ℕ → ℝ) (n : ℕ) {r : ℝ} (hr : r ≠ 0) :
    k.applyCsr c nBins e l γ tau (fun p => r * q p) n =
      (k.applyCsr c nBins e l γ tau q n).map fun kicks p => r * kicks p := by
  have hp : profile (fun p => -tau p) (fun p => r * q p) n nBins =
      fun b => r * profile (fun p => -tau p) q n nBins b := funext fun b => profile_mul _ _ _ _ _ hr
  unfold Calc.applyCsr
  cases k.stepsOf e with
  | none => rfl
  | some st =>
  cases k.refTraj with
  | none => rfl
  | some traj =>
  simp only [Option.bind_eq_bind, Option.bind_some]
  split_ifs with h
  · rfl
  · rw [Option.map_some, hp]
    congr 1
    funext p
    have hw : ∀ K1 lam h ds, wake K1 (fun b => r * lam b) nBins h ds = fun m => r * wake K1 lam nBins h ds m :=
      fun K1 lam h ds => funext fun m => wake_mul K1 lam nBins h ds r m
    rw [hw]
    unfold kickOf
    dsimp only
    rw [npInterp_mul]
    ring

/-! ### Order of the particles -/

section perm

variable {n : ℕ} (σ : Equiv.Perm ℕ) (hσ : ∀ p, σ p < n ↔ p < n)

include hσ

theorem histRange_perm (hn : 0 < n) (z : ℕ → ℝ) : histRange (fun p => z (σ p)) n = histRange z n := by
  have h1 : ∀ f : ℕ → ℝ, arrMin (fun p => f (σ p)) n = arrMin f n := by
    intro f
    refine arrMin_perm _ _ hn (σ := σ) (τ := σ.symm) (fun k hk => ⟨(hσ k).mpr hk, rfl⟩) fun k hk => ⟨?_, by simp⟩
    rw [← hσ]
    simpa using hk
  have h2 : arrMax (fun p => z (σ p)) n = arrMax z n := by
    rw [arrMax_neg, arrMax_neg, h1 fun p => -z p]
  unfold histRange
  dsimp only
  rw [h1, h2]

theorem hist_perm (hn : 0 < n) (z q : ℕ → ℝ) (nBins b : ℕ) :
    hist (fun p => z (σ p)) (fun p => q (σ p)) n nBins b = hist z q n nBins b := by
  unfold hist binOf binSize
  rw [histRange_perm σ hσ hn]
  refine sum_equiv σ ?_ fun p _ => rfl
  intro p
  rw [mem_range, mem_range, hσ]

/-- The energy change of a particle does not depend on the order in which the particles are stored. -/
theorem csr_order (hn : 0 < n) (k : Calc) (c : ℝ) (nBins : ℕ) (e : Elem) (l γ : ℝ) (tau q : ℕ → ℝ) :
    k.applyCsr c nBins e l γ (fun p => tau (σ p)) (fun p => q (σ p)) n =
      (k.applyCsr c nBins e l γ tau q n).map fun kicks p => kicks (σ p) := by
  have hr := histRange_perm σ hσ hn fun p => -tau p
  have hb : binSize (fun p => -tau (σ p)) n nBins = binSize (fun p => -tau p) n nBins := by
    unfold binSize
    rw [hr]
  have hc : binCenter (fun p => -tau (σ p)) n nBins = binCenter (fun p => -tau p) n nBins := by
    funext b
    unfold binCenter
    rw [hb, hr]
  have hh : hist (fun p => -tau (σ p)) (fun p => q (σ p)) n nBins = hist (fun p => -tau p) q n nBins :=
    funext fun b => hist_perm σ hσ hn (fun p => -tau p) q nBins b
  have hp : profile (fun p => -tau (σ p)) (fun p => q (σ p)) n nBins = profile (fun p => -tau p) q n nBins := by
    funext b
    unfold profile
    rw [hb, hc, hh]
  unfold Calc.applyCsr
  cases k.stepsOf e with
  | none => rfl
  | some st =>
  cases k.refTraj with
  | none => rfl
  | some traj =>
  simp only [Option.bind_eq_bind, Option.bind_some, hb, hp, hc]
  split_ifs <;> rfl

end perm

/-- Exchange of two of three particles. -/
example : ∀ p, Equiv.swap 0 2 p < 3 ↔ p < 3 := by
  intro p
  rw [Equiv.swap_apply_def]
  split_ifs <;> omega

/-! ### Particles in front -/

/-- The energy change at `z` depends only on the line charge in the bins that begin behind `z`,
apart from half a bin: radiation acts on the particles in front of the emitting ones. -/
theorem csr_forward (K1 lam lam' : ℕ → ℝ) {nBins : ℕ} (hn : 1 ≤ nBins) {h : ℝ} (hh : 0 < h) (ds γ c0 z : ℝ)
    (hlam : ∀ b < nBins, c0 + (b - 1) * h ≤ z → lam b = lam' b) (hz : c0 - h ≤ z) :
    kickOf γ (wake K1 lam nBins h ds) nBins h c0 z = kickOf γ (wake K1 lam' nBins h ds) nBins h c0 z := by
  have hzn : z * (1 / h) - c0 / h = (z - c0) / h := by ring
  have hw : ∀ m : ℕ, c0 + ((m : ℝ) - 1) * h ≤ z → wake K1 lam nBins h ds m = wake K1 lam' nBins h ds m := by
    intro m hm
    unfold wake
    congr 2
    apply sum_congr rfl
    intro b hb
    split_ifs with hbm
    · rw [hlam b (mem_range.mp hb)]
      have : (b : ℝ) ≤ m := by exact_mod_cast hbm.1
      nlinarith
    · rfl
  have hle : ∀ j : ℕ, (j : ℝ) ≤ (z - c0) / h → c0 + (j : ℝ) * h ≤ z := by
    intro j hj
    rw [le_div_iff₀ hh] at hj
    linarith
  unfold kickOf
  dsimp only
  rw [hzn]
  congr 2
  unfold npInterp
  cases hl : lastBelow (fun m => (m : ℝ)) ((z - c0) / h) (2 * nBins - 1) with
  | none =>
    dsimp only
    apply hw
    push_cast
    nlinarith
  | some j =>
    have hj : (j : ℝ) ≤ (z - c0) / h := by
      have := List.mem_of_getLast? hl
      simpa using (List.mem_filter.mp this).2
    have h1 := hle j hj
    dsimp only
    rw [hw j (by nlinarith), hw (j + 1) (by push_cast; nlinarith)]

/-- Two line charges that differ in the last of three bins, seen from the first bin. -/
example : ∃ (lam lam' : ℕ → ℝ) (c0 h z : ℝ), lam ≠ lam' ∧ 0 < h ∧ c0 - h ≤ z ∧
    ∀ b : ℕ, b < 3 → c0 + ((b : ℝ) - 1) * h ≤ z → lam b = lam' b := by
  refine ⟨fun _ => 1, fun b => if b = 2 then 5 else 1, 0, 1, 1 / 2, ?_, by norm_num, by norm_num, ?_⟩
  · intro h
    have := congrFun h 2
    norm_num at this
  · intro b hb h
    have : b ≠ 2 := by
      rintro rfl
      norm_num at h
    simp [this]

end WakeT.CSR
