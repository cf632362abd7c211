import Verif.Base.Order

/-! # Order of the Adams-Bashforth method with five steps

Facts on the numerical method for `y' = f(t, y)` in a normed space, which do not refer to the code. -/

set_option linter.unusedSectionVars false

namespace WakeT.Order

open Set Finset Nat

variable {E : Type*} [NormedAddCommGroup E] [NormedSpace ℝ E] {T : ℝ} {g : ℕ → ℝ → E}

/-- The combination of five derivatives, the newest first. -/
noncomputable def ab5 (d1 d2 d3 d4 d5 : E) : E :=
  (1901 / 720 : ℝ) • d1 - (2774 / 720 : ℝ) • d2 + (2616 / 720 : ℝ) • d3 - (1274 / 720 : ℝ) • d4 + (251 / 720 : ℝ) • d5

/-- The error of one step is of order six.  (`h` is the length of five steps.) -/
theorem ab5_local (hg : Curve T 5 g) : Ord T 6 fun t h => g 0 (t + h) - g 0 (t + 4 / 5 * h) -
    (h / 5) • ab5 (g 1 (t + 4 / 5 * h)) (g 1 (t + 3 / 5 * h)) (g 1 (t + 2 / 5 * h)) (g 1 (t + 1 / 5 * h)) (g 1 t) := by
  have r5 := hg.taylor (a := 1) (by norm_num) (by norm_num)
  have r4 := hg.taylor (a := 4 / 5) (by norm_num) (by norm_num)
  have s4 := hg.tail.taylor (a := 4 / 5) (by norm_num) (by norm_num)
  have s3 := hg.tail.taylor (a := 3 / 5) (by norm_num) (by norm_num)
  have s2 := hg.tail.taylor (a := 2 / 5) (by norm_num) (by norm_num)
  have s1 := hg.tail.taylor (a := 1 / 5) (by norm_num) (by norm_num)
  simp only [sum_range_succ, sum_range_zero, Nat.factorial, zero_add, one_mul, pow_zero, pow_one, Nat.cast_one, div_one, one_smul, Nat.cast_mul,
    Nat.cast_add, Nat.cast_ofNat] at r5 r4 s4 s3 s2 s1
  refine ((((((r5.smul 1 0).add (r4.smul (-1) 0)).add (s4.smul (-1901 / 3600) 1)).add (s3.smul (2774 / 3600) 1)).add
    (s2.smul (-2616 / 3600) 1)).add (s1.smul (1274 / 3600) 1)).congr fun t h => ?_
  unfold ab5
  module

/-- The sum of the absolute values of the coefficients is below thirteen. -/
theorem ab5_bound {d1 d2 d3 d4 d5 : E} {B : ℝ} (h1 : ‖d1‖ ≤ B) (h2 : ‖d2‖ ≤ B) (h3 : ‖d3‖ ≤ B) (h4 : ‖d4‖ ≤ B) (h5 : ‖d5‖ ≤ B) :
    ‖ab5 d1 d2 d3 d4 d5‖ ≤ 13 * B := by
  have n : ∀ (c : ℝ) (d : E), 0 ≤ c → ‖d‖ ≤ B → ‖c • d‖ ≤ c * B := fun c d hc hd => by
    rw [norm_smul, Real.norm_eq_abs, abs_of_nonneg hc]
    exact mul_le_mul_of_nonneg_left hd hc
  have hB : 0 ≤ B := (norm_nonneg _).trans h1
  unfold ab5
  have a1 := n (1901 / 720) d1 (by norm_num) h1
  have a2 := n (2774 / 720) d2 (by norm_num) h2
  have a3 := n (2616 / 720) d3 (by norm_num) h3
  have a4 := n (1274 / 720) d4 (by norm_num) h4
  have a5 := n (251 / 720) d5 (by norm_num) h5
  refine (norm_add_le _ _).trans ?_
  have b1 := norm_sub_le ((1901 / 720 : ℝ) • d1 - (2774 / 720 : ℝ) • d2 + (2616 / 720 : ℝ) • d3) ((1274 / 720 : ℝ) • d4)
  have b2 := norm_add_le ((1901 / 720 : ℝ) • d1 - (2774 / 720 : ℝ) • d2) ((2616 / 720 : ℝ) • d3)
  have b3 := norm_sub_le ((1901 / 720 : ℝ) • d1) ((2774 / 720 : ℝ) • d2)
  linarith

theorem ab5_sub (d1 d2 d3 d4 d5 e1 e2 e3 e4 e5 : E) :
    ab5 d1 d2 d3 d4 d5 - ab5 e1 e2 e3 e4 e5 = ab5 (d1 - e1) (d2 - e2) (d3 - e3) (d4 - e4) (d5 - e5) := by
  unfold ab5; module

/-- The derivatives of a run, zero before the first step. -/
noncomputable def past (f : ℝ → E → E) (h : ℝ) (x : ℕ → E) (n j : ℕ) : E :=
  if j ≤ n then f (((n - j : ℕ) : ℝ) * h) (x (n - j)) else 0

/-- A run of the method with steps `h`, which begins with an empty history. -/
def IsRun (f : ℝ → E → E) (h : ℝ) (x : ℕ → E) : Prop :=
  ∀ n, x (n + 1) = x n + h • ab5 (past f h x n 0) (past f h x n 1) (past f h x n 2) (past f h x n 3) (past f h x n 4)

theorem err_mono {C Γ D s t : ℝ} {m : ℕ} (hC : 0 ≤ C) (hΓ : 0 ≤ Γ) (hD : 0 ≤ D) (hs : 0 ≤ s) (h : s ≤ t) :
    err C Γ D m s ≤ err C Γ D m t := by
  unfold err
  have h1 : Real.exp (Γ * s) ≤ Real.exp (Γ * t) := Real.exp_le_exp.2 (mul_le_mul_of_nonneg_left h hΓ)
  exact mul_le_mul (mul_le_mul_of_nonneg_left h (by positivity)) h1 (by positivity) (by
    have := hs.trans h
    positivity)

/-- A solution that is at rest in the beginning is followed with an error of fifth order. -/
theorem ab5_global {f : ℝ → E → E} {Λ t0 δ : ℝ} (hg : Curve T 5 g) (hΛ : 0 ≤ Λ) (hδ : 0 < δ)
    (hy : ∀ t ∈ Icc 0 T, g 1 t = f t (g 0 t)) (hf : ∀ t ∈ Icc 0 T, ∀ p, ‖p - g 0 t‖ ≤ δ → ‖f t p - g 1 t‖ ≤ Λ * ‖p - g 0 t‖)
    (ht0 : 0 < t0) (hrest : ∀ t ∈ Icc 0 T, t ≤ t0 → g 0 t = g 0 0) :
    ∃ C h0, 0 ≤ C ∧ 0 < h0 ∧ ∀ h x, 0 < h → h ≤ h0 → IsRun f h x → x 0 = g 0 0 → ∀ n : ℕ, n * h ≤ T → ‖x n - g 0 (n * h)‖ ≤ C * h ^ 5 := by
  obtain ⟨K, hK, hloc⟩ := ab5_local hg
  have hT := hg.T0
  have hC0 : 0 ≤ K * 5 ^ 6 := by positivity
  have hΓ : 0 ≤ 13 * Λ := by positivity
  set C := K * 5 ^ 6 * T * Real.exp (13 * Λ * T) with hC
  have hCn : 0 ≤ C := by positivity
  refine ⟨C, min (t0 / 5) (min 1 (δ / (C + 1))), hCn, by positivity, fun h x hh hh0 hx hx0 n hn => ?_⟩
  have h5 : 5 * h ≤ t0 := by linarith [hh0.trans (min_le_left _ _)]
  have h1 : h ≤ 1 := hh0.trans ((min_le_right _ _).trans (min_le_left _ _))
  have hCδ : C * h ^ 5 ≤ δ := by
    have h2 : h ≤ δ / (C + 1) := hh0.trans ((min_le_right _ _).trans (min_le_right _ _))
    rw [le_div_iff₀ (by positivity)] at h2
    have h3 : h ^ 5 ≤ h := pow_le_of_le_one hh.le h1 (by norm_num)
    nlinarith
  have herr : ∀ t, 0 ≤ t → t ≤ T → err (K * 5 ^ 6) (13 * Λ) h 5 t ≤ C * h ^ 5 := fun t h0 h1 => err_le hC0 hΓ hh.le h0 h1
  -- no slope in the beginning
  have hzero : ∀ t, 0 ≤ t → t < T → t < t0 → f t (g 0 0) = 0 := by
    intro t ht htT htt
    have hm : t ∈ Icc 0 T := ⟨ht, htT.le⟩
    rw [← hrest t hm htt.le, ← hy t hm]
    have hd := hg.deriv 0 (by norm_num) t hm
    have hev : (fun _ : ℝ => g 0 0) =ᶠ[nhdsWithin t (Icc 0 T)] g 0 := by
      filter_upwards [self_mem_nhdsWithin, mem_nhdsWithin_of_mem_nhds (Iio_mem_nhds htt)] with s hs hs'
      exact (hrest s hs (le_of_lt hs')).symm
    have hc : HasDerivWithinAt (g 0) 0 (Icc 0 T) t :=
      (hasDerivWithinAt_const t (Icc 0 T) (g 0 0)).congr_of_eventuallyEq hev.symm (hrest t hm htt.le)
    exact (uniqueDiffOn_Icc (lt_of_le_of_lt ht htT) t hm).eq_deriv _ hd hc
  have hstart : ∀ m : ℕ, m ≤ 4 → m * h ≤ T → x m = g 0 0 := by
    intro m
    induction m using Nat.strong_induction_on with
    | _ m ih =>
      intro hm hmT
      rcases m with _ | m
      · exact hx0
      · rw [hx m]
        push_cast at hmT
        have hp : ∀ j, past f h x m j = 0 := by
          intro j
          unfold past
          split_ifs with hj
          · have h1 : ((m - j : ℕ) : ℝ) ≤ 4 := by exact_mod_cast (by omega : m - j ≤ 4)
            have h2 : ((m - j : ℕ) : ℝ) ≤ m := by exact_mod_cast (by omega : m - j ≤ m)
            rw [ih (m - j) (by omega) (by omega) (by nlinarith)]
            exact hzero _ (by positivity) (by nlinarith) (by nlinarith)
          · rfl
        simp only [hp, ab5, smul_zero, sub_zero, add_zero]
        exact ih m (by omega) (by omega) (by nlinarith)
  have key : ∀ m : ℕ, m * h ≤ T → ‖x m - g 0 (m * h)‖ ≤ err (K * 5 ^ 6) (13 * Λ) h 5 (m * h) := by
    intro m
    induction m using Nat.strong_induction_on with
    | _ m ih =>
      intro hm
      have hm0 : 0 ≤ (m : ℝ) * h := by positivity
      rcases Nat.lt_or_ge m 5 with hm5 | hm5
      · have h6 : (m : ℝ) ≤ 4 := by exact_mod_cast (by omega : m ≤ 4)
        rw [hstart m (by omega) hm, hrest _ ⟨hm0, hm⟩ (by nlinarith), sub_self, norm_zero]
        exact err_nonneg hC0 hh.le hm0
      · obtain ⟨k, rfl⟩ : ∃ k, m = k + 4 + 1 := ⟨m - 5, by omega⟩
        push_cast at hm hm0 ⊢
        have hkk : (0 : ℝ) ≤ k := Nat.cast_nonneg k
        have hk0 : 0 ≤ (k : ℝ) * h := by positivity
        have hTk : (k : ℝ) * h + 5 * h ≤ T := by linarith
        rw [hx (k + 4)]
        have eq : ∀ j ≤ 4, ‖past f h x (k + 4) j - g 1 ((k : ℝ) * h + (4 - j) * h)‖ ≤ Λ * err (K * 5 ^ 6) (13 * Λ) h 5 ((k + 4) * h) := by
          intro j hj
          have hj' : (j : ℝ) ≤ 4 := by exact_mod_cast hj
          have hj0 : (0 : ℝ) ≤ j := Nat.cast_nonneg j
          have h0 : 0 ≤ (4 - (j : ℝ)) * h := mul_nonneg (by linarith) hh.le
          have h1 : (4 - (j : ℝ)) * h ≤ 4 * h := mul_le_mul_of_nonneg_right (by linarith) hh.le
          have e : (k : ℝ) * h + (4 - j) * h = ((k + 4 - j : ℕ) : ℝ) * h := by
            rw [Nat.cast_sub (by omega)]; push_cast; ring
          have hmem : ((k + 4 - j : ℕ) : ℝ) * h ∈ Icc 0 T := by rw [← e]; exact ⟨by linarith, by linarith⟩
          unfold past
          rw [if_pos (by omega), e]
          have hi := ih (k + 4 - j) (by omega) hmem.2
          refine (hf _ hmem _ (hi.trans ((herr _ hmem.1 hmem.2).trans hCδ))).trans (mul_le_mul_of_nonneg_left ?_ hΛ)
          refine hi.trans (err_mono hC0 hΓ hh.le hmem.1 ?_)
          rw [← e]; linarith
        have q0 := eq 0 (by norm_num)
        have q1 := eq 1 (by norm_num)
        have q2 := eq 2 (by norm_num)
        have q3 := eq 3 (by norm_num)
        have q4 := eq 4 (by norm_num)
        have hb := ab5_bound q0 q1 q2 q3 q4
        rw [← ab5_sub] at hb
        have hl : ‖_‖ ≤ _ := hloc ((k : ℝ) * h) (5 * h) hk0 (by linarith) hTk
        simp only [] at hl
        have hprev := ih (k + 4) (by omega) (by push_cast; linarith)
        push_cast at hprev hb
        have hs := err_step (m := 5) (t := ((k : ℝ) + 4) * h) hC0 hΓ (by positivity) hh.le (le_refl h)
        rw [show ((k : ℝ) + 4) * h + h = (k + 4 + 1) * h by ring] at hs
        refine le_trans ?_ hs
        rw [show (k : ℝ) * h + 4 / 5 * (5 * h) = (k + 4) * h by ring, show (k : ℝ) * h + 5 * h = (k + 4 + 1) * h by ring,
          show (k : ℝ) * h + 3 / 5 * (5 * h) = k * h + (4 - 1) * h by ring, show (k : ℝ) * h + 2 / 5 * (5 * h) = k * h + (4 - 2) * h by ring,
          show (k : ℝ) * h + 1 / 5 * (5 * h) = k * h + (4 - 3) * h by ring, show 5 * h / 5 = h by ring] at hl
        rw [show (k : ℝ) * h + (4 - 0) * h = (k + 4) * h by ring, show (k : ℝ) * h + (4 - 4) * h = k * h by ring] at hb
        generalize err (K * 5 ^ 6) (13 * Λ) h 5 (((k : ℝ) + 4) * h) = ε at *
        generalize ab5 (g 1 ((k + 4) * h)) (g 1 (k * h + (4 - 1) * h)) (g 1 (k * h + (4 - 2) * h)) (g 1 (k * h + (4 - 3) * h)) (g 1 (k * h)) = A at *
        generalize ab5 (past f h x (k + 4) 0) (past f h x (k + 4) 1) (past f h x (k + 4) 2) (past f h x (k + 4) 3) (past f h x (k + 4) 4) = A' at *
        have hsplit : x (k + 4) + h • A' - g 0 ((k + 4 + 1) * h) =
            (x (k + 4) - g 0 ((k + 4) * h)) + h • (A' - A) - (g 0 ((k + 4 + 1) * h) - g 0 ((k + 4) * h) - h • A) := by module
        rw [hsplit]
        have t1 := norm_sub_le ((x (k + 4) - g 0 ((k + 4) * h)) + h • (A' - A)) (g 0 ((k + 4 + 1) * h) - g 0 ((k + 4) * h) - h • A)
        have t2 := norm_add_le (x (k + 4) - g 0 ((k + 4) * h)) (h • (A' - A))
        have t3 : ‖h • (A' - A)‖ ≤ h * (13 * (Λ * ε)) := by
          rw [norm_smul, Real.norm_eq_abs, abs_of_pos hh]
          exact mul_le_mul_of_nonneg_left hb hh.le
        have e6 : K * (5 * h) ^ 6 = K * 5 ^ 6 * h ^ (5 + 1) := by ring
        have e7 : (1 + 13 * Λ * h) * ε = ε + h * (13 * (Λ * ε)) := by ring
        rw [e7, ← e6]
        linarith
  have hn0 : 0 ≤ (n : ℝ) * h := by positivity
  exact (key n hn).trans (herr _ hn0 hn)

end WakeT.Order
