import Verif.CSR.KernelProps
import Mathlib.Algebra.BigOperators.Field

/-! # The energy change does not depend on the longitudinal position of the bunch -/

set_option linter.unusedSectionVars false

namespace WakeT.CSR

open Finset

variable (z q : ℕ → ℝ) (n nBins : ℕ) (a : ℝ)

theorem arrMin_shift : arrMin (fun p => z p + a) n = arrMin z n + a := by
  have h : ∀ (l : List ℕ) (m : ℝ), l.foldl (fun m k => min m (z k + a)) (m + a) = l.foldl (fun m k => min m (z k)) m + a := by
    intro l
    induction l with
    | nil => exact fun _ => rfl
    | cons k l ih =>
      intro m
      rw [List.foldl_cons, List.foldl_cons, min_add_add_right]
      exact ih _
  exact h _ _

theorem arrMax_shift : arrMax (fun p => z p + a) n = arrMax z n + a := by
  have h : ∀ (l : List ℕ) (m : ℝ), l.foldl (fun m k => max m (z k + a)) (m + a) = l.foldl (fun m k => max m (z k)) m + a := by
    intro l
    induction l with
    | nil => exact fun _ => rfl
    | cons k l ih =>
      intro m
      rw [List.foldl_cons, List.foldl_cons, max_add_add_right]
      exact ih _
  exact h _ _

theorem histRange_shift : histRange (fun p => z p + a) n = ((histRange z n).1 + a, (histRange z n).2 + a) := by
  unfold histRange
  dsimp only
  rw [arrMin_shift, arrMax_shift]
  by_cases h : arrMin z n = arrMax z n
  · rw [if_pos h, if_pos (by rw [h])]
    exact Prod.ext (by ring) (by ring)
  · rw [if_neg h, if_neg fun h' => h (add_right_cancel h')]

theorem binSize_shift : binSize (fun p => z p + a) n nBins = binSize z n nBins := by
  unfold binSize
  rw [histRange_shift]
  ring_nf

theorem binOf_shift (x : ℝ) : binOf (fun p => z p + a) n nBins (x + a) = binOf z n nBins x := by
  unfold binOf
  rw [binSize_shift, histRange_shift]
  dsimp only
  rw [add_sub_add_right_eq_sub]

theorem hist_shift : hist (fun p => z p + a) q n nBins = hist z q n nBins := by
  funext b
  unfold hist
  simp only [binOf_shift]

theorem binCenter_shift : binCenter (fun p => z p + a) n nBins = fun b => binCenter z n nBins b + a := by
  funext b
  unfold binCenter
  rw [binSize_shift, histRange_shift]
  ring

theorem kde_shift (x v : ℕ → ℝ) (m : ℕ) (f y : ℝ) : kde (fun b => x b + a) v m f (y + a) = kde x v m f y := by
  unfold kde
  dsimp only
  by_cases h : ∑ b ∈ range m, v b = 0
  · simp only [h, div_zero, zero_mul, zero_div, sum_const_zero]
  · have h1 : ∑ b ∈ range m, v b / (∑ b ∈ range m, v b) * (x b + a) = ∑ b ∈ range m, v b / (∑ b ∈ range m, v b) * x b + a := by
      simp only [mul_add, sum_add_distrib]
      rw [← sum_mul, ← sum_div, div_self h, one_mul]
    simp only [h1, add_sub_add_right_eq_sub]

theorem profile_shift : profile (fun p => z p + a) q n nBins = profile z q n nBins := by
  funext b
  unfold profile
  rw [hist_shift, binSize_shift, binCenter_shift]
  dsimp only
  rw [kde_shift]

/-- The energy change of a shifted bunch. -/
theorem applyCsr_shift (k : Calc) (c : ℝ) (e : Elem) (l γ : ℝ) (tau : ℕ → ℝ) :
    k.applyCsr c nBins e l γ (fun p => tau p + a) q n = k.applyCsr c nBins e l γ tau q n := by
  have h1 : (fun p => -(tau p + a)) = fun p => -tau p + -a := by
    funext p
    ring
  unfold Calc.applyCsr
  rw [h1]
  dsimp only
  rw [binSize_shift, profile_shift, binCenter_shift]
  have h2 : ∀ wk h p, kickOf γ wk nBins h (binCenter (fun p => -tau p) n nBins 0 + -a) (-(tau p + a)) =
      kickOf γ wk nBins h (binCenter (fun p => -tau p) n nBins 0) (-tau p) := by
    intro wk h p
    unfold kickOf
    have : -(tau p + a) * (1 / h) - (binCenter (fun p => -tau p) n nBins 0 + -a) / h =
        -tau p * (1 / h) - binCenter (fun p => -tau p) n nBins 0 / h := by ring
    rw [this]
  have h3 : ∀ wk h, (fun p => kickOf γ wk nBins h (binCenter (fun p => -tau p) n nBins 0 + -a) (-tau p + -a)) =
      fun p => kickOf γ wk nBins h (binCenter (fun p => -tau p) n nBins 0) (-tau p) := by
    intro wk h
    funext p
    rw [← h2 wk h p]
    congr 1
    ring
  simp only [h3]

end WakeT.CSR
