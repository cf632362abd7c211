import Verif.CSR.KernelProps
import Mathlib.Algebra.BigOperators.Field

/-! # The energy change by CSR as an integral over the line charge (C127) -/

set_option linter.unusedSectionVars false

namespace WakeT.CSR

open Finset

/-! ### Specification -/

/-- Second difference of the line charge at bin `b`; there is no charge behind the first bin. -/
noncomputable def curvature (lam : ℕ → ℝ) (b : ℕ) : ℝ :=
  lam b - 2 * (if 1 ≤ b then lam (b - 1) else 0) + (if 2 ≤ b then lam (b - 2) else 0)

/-! ### Summation by parts -/

theorem sum_curvature (lam F : ℕ → ℝ) (N : ℕ) :
    ∑ b ∈ range (N + 1), lam b * (F (b + 2) - 2 * F (b + 1) + F b) =
      (∑ b ∈ range (N + 1), F b * curvature lam b) + (F (N + 2) - 2 * F (N + 1)) * lam N
        + F (N + 1) * (if 1 ≤ N then lam (N - 1) else 0) := by
  induction N with
  | zero => simp [curvature]; ring
  | succ N ih =>
    rw [sum_range_succ, ih, sum_range_succ _ (N + 1)]
    unfold curvature
    rw [if_pos (by omega : 1 ≤ N + 1)]
    have h2 : (2 ≤ N + 1) ↔ 1 ≤ N := by omega
    have h3 : N + 1 - 2 = N - 1 := by omega
    simp only [h2, h3, Nat.add_sub_cancel]
    ring

/-- A function on `n` points, continued by zero. -/
noncomputable def cut (n : ℕ) (f : ℕ → ℝ) (l : ℕ) : ℝ := if l < n then f l else 0

theorem diff0_twice (n : ℕ) (f : ℕ → ℝ) {l : ℕ} (hl : l < n) :
    diff0 n (diff0 n f) l = cut n f (l + 2) - 2 * cut n f (l + 1) + cut n f l := by
  unfold diff0 cut
  rw [if_pos hl]
  by_cases h1 : l + 1 < n
  · rw [if_pos h1, if_pos h1, show l + 1 + 1 = l + 2 from rfl]
    ring
  · rw [if_neg h1, if_neg h1, if_neg (by omega)]
    ring

/-- The convolution with the kernel is the integral of the curvature of the line charge and of the
integrated kernel: charge in bin `b` acts on bin `m` with a delay of `m + 1 - b` bins. -/
theorem wake_curvature (c : ℝ) (KS lam : ℕ → ℝ) {nBins : ℕ} (h ds : ℝ) {m : ℕ} (hm : m < nBins) :
    wake (fun l => diff0 nBins (diff0 nBins KS) l / h / (1 / (1e-7 * c ^ 2))) lam nBins h ds m =
      1e-7 * c ^ 2 * ds * ∑ b ∈ range (m + 1), KS (nBins - (m + 1 - b)) * (curvature lam b / h ^ 2) := by
  have h1 : ∀ b ∈ range nBins, (if b ≤ m ∧ m - b < nBins then
      lam b * (diff0 nBins (diff0 nBins KS) (nBins - 1 - (m - b)) / h / (1 / (1e-7 * c ^ 2))) else 0) =
      if b ∈ range (m + 1) then
        (fun b => lam b * (cut nBins KS (nBins - 1 - m + b + 2) - 2 * cut nBins KS (nBins - 1 - m + b + 1)
          + cut nBins KS (nBins - 1 - m + b))) b * (1e-7 * c ^ 2 / h) else 0 := by
    intro b hb
    have hb := mem_range.mp hb
    by_cases hbm : b ≤ m
    · have e : nBins - 1 - (m - b) = nBins - 1 - m + b := by omega
      rw [if_pos ⟨hbm, by omega⟩, if_pos (mem_range.mpr (by omega)), e, diff0_twice _ _ (by omega)]
      rw [one_div, div_inv_eq_mul]
      ring
    · rw [if_neg (by tauto), if_neg (by rw [mem_range]; omega)]
  have h2 : range nBins ∩ range (m + 1) = range (m + 1) := by
    rw [inter_eq_right]
    exact range_subset_range.mpr (by omega)
  unfold wake
  rw [sum_congr rfl h1, sum_ite_mem, h2, ← sum_mul]
  have h3 := sum_curvature lam (fun l => cut nBins KS (nBins - 1 - m + l)) m
  have z1 : cut nBins KS (nBins - 1 - m + (m + 1)) = 0 := if_neg (by omega)
  have z2 : cut nBins KS (nBins - 1 - m + (m + 2)) = 0 := if_neg (by omega)
  rw [z1, z2] at h3
  have h4 : ∑ b ∈ range (m + 1), lam b * (cut nBins KS (nBins - 1 - m + b + 2) - 2 * cut nBins KS (nBins - 1 - m + b + 1)
      + cut nBins KS (nBins - 1 - m + b)) = ∑ b ∈ range (m + 1), KS (nBins - (m + 1 - b)) * curvature lam b := by
    refine h3.trans ?_
    simp only [mul_zero, zero_mul, sub_zero, add_zero]
    refine sum_congr rfl fun b hb => ?_
    have hb := mem_range.mp hb
    have e : nBins - 1 - m + b = nBins - (m + 1 - b) := by omega
    rw [e]
    unfold cut
    rw [if_pos (by omega)]
  rw [h4, mul_sum, sum_mul, sum_div, sum_mul]
  refine sum_congr rfl fun b _ => ?_
  ring

theorem diff0_mean (n : ℕ) (s : Finset ℕ) (f : ℕ → ℕ → ℝ) (k : ℝ) (l : ℕ) :
    (∑ i ∈ s, diff0 n (f i) l) / k = diff0 n (fun l => (∑ i ∈ s, f i l) / k) l := by
  unfold diff0
  rw [sum_sub_distrib, sub_div]
  congr 1
  split_ifs
  · rfl
  · simp

/-- Interpolation at a node. -/
theorem npInterp_node (fp : ℕ → ℝ) {n m : ℕ} (hm : m < n) : npInterp (fun m => (m : ℝ)) fp n m = fp m := by
  unfold npInterp
  have h : lastBelow (fun m : ℕ => (m : ℝ)) m n = some m := by
    rw [lastBelow_some]
    refine ⟨hm, le_rfl, fun k h1 h2 => ?_⟩
    simpa using h1
  rw [h]
  dsimp only
  split_ifs
  · rfl
  · ring

/-- **C127.** The momentum of a particle in the middle of bin `m` changes, in a step of length `ds`,
by the sum over the bins behind of the second derivative of the line charge times the integrated kernel
at the delay from there, averaged over the trajectory points of the step; in units of
`1 / (4 pi eps0)`, of 10⁹ V and of the reference momentum. -/
theorem csr_integral {k : Calc} {c : ℝ} {nBins : ℕ} (hn : 1 ≤ nBins) {e : Elem} {pos γ : ℝ} {tau q : ℕ → ℝ} {n : ℕ}
    {kicks : ℕ → ℝ} (hk : k.applyCsr c nBins e pos γ tau q n = some kicks) :
    ∃ ds dt traj p i, k.stepsOf e = some (ds, dt) ∧ k.refTraj = some traj ∧ p < i ∧
      p = nearest traj (k.position e pos - ds) ∧ i = nearest traj (k.position e pos) ∧
      ∀ x m, m < nBins →
        -tau x = (histRange (fun x => -tau x) n).1 + (m + 1 / 2) * binSize (fun x => -tau x) n nBins →
        kicks x = 1e-9 / (√(γ ^ 2 - 1) * 0.511e-3) * (1e-7 * c ^ 2) * ds * ∑ b ∈ range (m + 1),
          ((∑ it ∈ Ico p i, kernelSum (fun m => traj.getD m startPt) γ (it + 1) nBins
            (binSize (fun x => -tau x) n nBins) (nBins - (m + 1 - b))) / ((i - p : ℕ) : ℝ)) *
          (curvature (profile (fun x => -tau x) q n nBins) b / binSize (fun x => -tau x) n nBins ^ 2) := by
  unfold Calc.applyCsr at hk
  cases h1 : k.stepsOf e with
  | none => simp [h1] at hk
  | some st =>
  cases h2 : k.refTraj with
  | none => simp [h1, h2] at hk
  | some traj =>
  simp only [h1, h2, Option.bind_eq_bind, Option.bind_some] at hk
  split_ifs at hk with h3
  rw [Option.some.injEq] at hk
  refine ⟨st.1, st.2, traj, _, _, rfl, rfl, not_le.mp h3, rfl, rfl, ?_⟩
  intro x m hm hx
  set h := binSize (fun x => -tau x) n nBins with hh
  have hpos : 0 < h := binSize_pos (fun p => -tau p) n hn
  rw [← hk]
  dsimp only
  unfold kickOf
  dsimp only
  have hz : -tau x * (1 / h) - binCenter (fun x => -tau x) n nBins 0 / h = m := by
    rw [hx]
    unfold binCenter
    rw [← hh]
    field_simp
    push_cast
    ring
  rw [hz, show meanKernel c (fun m => traj.getD m startPt) γ (nearest traj (k.position e pos - st.1))
      (nearest traj (k.position e pos)) nBins h = fun l => diff0 nBins (diff0 nBins fun l =>
        (∑ it ∈ Ico (nearest traj (k.position e pos - st.1)) (nearest traj (k.position e pos)),
          kernelSum (fun m => traj.getD m startPt) γ (it + 1) nBins h l) /
          ((nearest traj (k.position e pos) - nearest traj (k.position e pos - st.1) : ℕ) : ℝ)) l / h / (1 / (1e-7 * c ^ 2)) from ?_]
  · rw [npInterp_node _ (by omega), wake_curvature c _ _ h st.1 hm]
    ring
  · funext l
    unfold meanKernel kernel
    rw [← sum_div, ← sum_div, div_right_comm, div_right_comm _ h, diff0_mean]
    congr 3
    funext l
    rw [diff0_mean]

/-- Particles at 0, 1/2 and 1 in three bins: the second one is in the middle of the second bin.  They
pass a bend in two CSR steps. -/
example (c : ℝ) (q : ℕ → ℝ) : ∃ (e : Elem) (kicks : ℕ → ℝ), e.theta ≠ 0 ∧
    (history (1 / 2) (1 / 4) ([] ++ [.add e])).applyCsr c 3 e ((2 : ℕ) * (1 / 2)) 1000 (fun x => -(x / 2)) q 3 = some kicks ∧
    -(fun x : ℕ => -((x : ℝ) / 2)) 1 = (histRange (fun x : ℕ => - -((x : ℝ) / 2)) 3).1 +
      (((1 : ℕ) : ℝ) + 1 / 2) * binSize (fun x : ℕ => - -((x : ℝ) / 2)) 3 3 := by
  have hst : (history (1 / 2) (1 / 4) ([] ++ [.add ⟨0, 1, 1 / 10, 0, 0, some 1000, true, none, 1, true⟩])).stepsOf
      ⟨0, 1, 1 / 10, 0, 0, some 1000, true, none, 1, true⟩ = some (1 / 2, 1 / 4) := by
    simp only [history, Calc.op, Calc.new, Calc.add, Calc.stepsOf, Calc.setElementSteps, Calc.calculateTrajectory,
      indexOf, List.nil_append, List.foldl_cons, List.foldl_nil, List.findIdx?_cons, decide_true, if_true, Option.bind_some,
      List.getElem?_cons_zero]
    norm_num [computeSteps]
  have h := apply_csr_defined (a := 1 / 2) (b := 1 / 4) (by norm_num) (by norm_num) [] (by
    intro x hx
    have : x = ⟨0, 1, 1 / 10, 0, 0, some 1000, true, none, 1, true⟩ := by simpa [Occurs] using hx
    rw [this]
    exact ⟨by norm_num, by simp⟩) (by simp [lattice]) hst ⟨2, by norm_num, by norm_num⟩
    ⟨2, by norm_num, by norm_num⟩ (k := 2) (by norm_num) (by norm_num) c 1000 3 (fun x => -((x : ℝ) / 2)) q 3
  obtain ⟨kicks, hk⟩ := Option.isSome_iff_exists.mp h
  refine ⟨_, kicks, by norm_num, hk, ?_⟩
  have hr : histRange (fun x : ℕ => - -((x : ℝ) / 2)) 3 = (0, 1) := by
    unfold histRange arrMin arrMax
    norm_num [List.range_succ]
  unfold binSize
  rw [hr]
  norm_num

end WakeT.CSR
