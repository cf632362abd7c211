import Verif.Plasma.ColdFluidLinear
import Mathlib.Analysis.SpecialFunctions.SmoothTransition

/-! # Energy of the cold fluid wake behind the drivers (C165) -/

set_option linter.unusedSectionVars false

namespace WakeT.ColdFluid

open Set

/-- Energy of a plasma wave with potential `ψ` and accelerating field `e`, in units of the skin depth and of the wave breaking field: `e² / 2` is that of the field; zero at rest
and positive otherwise. -/
noncomputable def waveEnergy (ψ e : ℝ) : ℝ := e ^ 2 / 2 + ψ ^ 2 / (2 * (1 + ψ))

theorem waveEnergy_eq {ψ : ℝ} (h : 0 < 1 + ψ) (e : ℝ) : waveEnergy ψ e = e ^ 2 / 2 + ((1 + ψ) / 2 - 1 + 1 / (2 * (1 + ψ))) := by
  unfold waveEnergy
  field_simp
  ring

/-- The energy of the exact wake does not change where there is no driver. -/
theorem exact_energy {A N Ψ V : ℝ → ℝ} {T δ t0 : ℝ} (hδ : 0 < δ) (sol : ExactWake A N T δ Ψ V) (ht0 : 0 ≤ t0)
    (hoff : ∀ t ∈ Icc t0 T, A t = 0 ∧ N t = 0) {s t : ℝ} (hs : s ∈ Icc t0 T) (ht : t ∈ Icc t0 T) :
    waveEnergy (Ψ s) (V s) = waveEnergy (Ψ t) (V t) := by
  have hsub : Icc t0 T ⊆ Icc 0 T := Icc_subset_Icc_left ht0
  have hpos : ∀ t ∈ Icc t0 T, 0 < 1 + Ψ t := fun t ht => hδ.trans_le (sol.above t (hsub ht))
  have hd : ∀ t ∈ Icc t0 T, HasDerivWithinAt (fun t => V t ^ 2 / 2 + ((1 + Ψ t) / 2 - 1 + 1 / (2 * (1 + Ψ t)))) 0 (Icc t0 T) t := by
    intro t ht
    have h1 := (sol.slope t (hsub ht)).mono hsub
    have h2 := (sol.wave t (hsub ht)).mono hsub
    have hp := hpos t ht
    have h3 := ((h2.pow 2).div_const 2).add ((((h1.const_add 1).div_const 2).sub_const 1).add
      ((((h1.const_add 1).const_mul 2).inv (by positivity))))
    refine (h3.congr_deriv ?_).congr (fun x _ => ?_) ?_
    · rw [(hoff t ht).1, (hoff t ht).2]
      field_simp
      norm_num
      ring
    · simp [one_div]
    · simp [one_div]
  have h := (convex_Icc t0 T).norm_image_sub_le_of_norm_hasDerivWithin_le (C := 0) hd (fun x _ => by simp) hs ht
  rw [zero_mul] at h
  have h0 := sub_eq_zero.mp (norm_le_zero_iff.mp h)
  rw [waveEnergy_eq (hpos s hs), waveEnergy_eq (hpos t ht)]
  exact h0.symm

/-- Close potentials and fields have close energies. -/
theorem waveEnergy_close {ψ e Ψ V δ M ε : ℝ} (hδ : 0 < δ) (h1 : δ ≤ 1 + Ψ) (h2 : |ψ - Ψ| ≤ ε) (h3 : |e - V| ≤ ε) (hε : ε ≤ δ / 2) (hε1 : ε ≤ 1) (hM : |V| ≤ M) :
    |waveEnergy ψ e - waveEnergy Ψ V| ≤ (M + 1 + 1 / δ ^ 2) * ε := by
  have hε0 : 0 ≤ ε := (abs_nonneg _).trans h2
  obtain ⟨a1, a2⟩ := abs_le.mp h2
  have hψ : δ / 2 ≤ 1 + ψ := by linarith
  have hψ0 : 0 < 1 + ψ := by linarith
  have hΨ0 : 0 < 1 + Ψ := by linarith
  rw [waveEnergy_eq hψ0, waveEnergy_eq hΨ0]
  have e1 : e ^ 2 / 2 + ((1 + ψ) / 2 - 1 + 1 / (2 * (1 + ψ))) - (V ^ 2 / 2 + ((1 + Ψ) / 2 - 1 + 1 / (2 * (1 + Ψ)))) =
      (e - V) * (V + (e - V) / 2) + ((ψ - Ψ) * (1 / 2) - (ψ - Ψ) * (1 / (2 * ((1 + ψ) * (1 + Ψ))))) := by
    field_simp
    ring
  rw [e1]
  have b1 : |(e - V) * (V + (e - V) / 2)| ≤ ε * (M + 1 / 2) := by
    rw [abs_mul]
    refine mul_le_mul h3 ((abs_add_le _ _).trans (add_le_add hM ?_)) (abs_nonneg _) hε0
    rw [abs_div, abs_two]
    linarith
  have b2 : |(ψ - Ψ) * (1 / 2)| ≤ ε * (1 / 2) := by
    rw [abs_mul, abs_of_pos (by norm_num : (0 : ℝ) < 1 / 2)]
    exact mul_le_mul_of_nonneg_right h2 (by norm_num)
  have b3 : |(ψ - Ψ) * (1 / (2 * ((1 + ψ) * (1 + Ψ))))| ≤ ε * (1 / δ ^ 2) := by
    rw [abs_mul]
    refine mul_le_mul h2 ?_ (abs_nonneg _) hε0
    rw [abs_of_pos (by positivity)]
    refine one_div_le_one_div_of_le (by positivity) ?_
    have := mul_le_mul hψ h1 hδ.le hψ0.le
    nlinarith
  have c1 := abs_add_le ((e - V) * (V + (e - V) / 2)) ((ψ - Ψ) * (1 / 2) - (ψ - Ψ) * (1 / (2 * ((1 + ψ) * (1 + Ψ)))))
  have c2 := abs_sub ((ψ - Ψ) * (1 / 2)) ((ψ - Ψ) * (1 / (2 * ((1 + ψ) * (1 + Ψ)))))
  linarith

/-- **C165.** Behind the drivers (laser amplitude `A` and beam density `N`, which vanish from the distance `t0` on) the energy of the wave, computed from the potential and the
accelerating field of the cold fluid model, is the same at all slices up to `C (dz² + ν dz)`: the wave neither decays nor grows.  As for C147, `ν` is the largest slope of the beam
density. -/
theorem energy_behind {A N Ψ V : ℝ → ℝ} {T δ ν t0 : ℝ} (hT : 0 ≤ T) (hδ : 0 < δ) (hA : ContDiff ℝ 2 A) (hN : ContDiff ℝ 2 N)
    (sol : ExactWake A N T δ Ψ V) (hν : ∀ t ∈ Icc 0 T, |deriv N t| ≤ ν) (ht0 : 0 ≤ t0) (hoff : ∀ t ∈ Icc t0 T, A t = 0 ∧ N t = 0) :
    ∃ C h0, 0 < h0 ∧ ∀ (m : Cold) (j : ℕ), j < m.nR → 0 < m.dr → 0 < m.dz → m.dz ≤ h0 → 3 ≤ m.nXi →
      ((m.nXi : ℝ) - 1) * m.dz ≤ T → Sampled m j A N → ∀ k < m.nXi, ∀ l < m.nXi, t0 ≤ behind m k → t0 ≤ behind m l →
        |waveEnergy (m.u k j).1 (m.Ez k j) - waveEnergy (m.u l j).1 (m.Ez l j)| ≤ C * (m.dz ^ 2 + ν * m.dz) := by
  obtain ⟨C, h0, hh0, H⟩ := fluid_order hT hδ hA hN sol hν
  have hν0 : 0 ≤ ν := (abs_nonneg _).trans (hν 0 ⟨le_rfl, hT⟩)
  obtain ⟨M, hM⟩ := isCompact_Icc.exists_bound_of_continuousOn (s := Icc 0 T) (f := V) fun t ht => (sol.wave t ht).continuousWithinAt
  set D := |C| * (1 + ν) + 1 with hD
  have hD0 : 0 < D := by positivity
  refine ⟨2 * ((M + 1 + 1 / δ ^ 2) * |C|), min h0 (min 1 (min 1 (δ / 2) / D)), by positivity, ?_⟩
  intro m j hj hr hz hz1 h3 hTm hs k hk l hl hbk hbl
  have hz2 : m.dz ≤ h0 := hz1.trans (min_le_left _ _)
  have hz3 : m.dz ≤ 1 := hz1.trans ((min_le_right _ _).trans (min_le_left _ _))
  have hz4 : m.dz * D ≤ min 1 (δ / 2) := (le_div_iff₀ hD0).mp (hz1.trans ((min_le_right _ _).trans (min_le_right _ _)))
  set η := m.dz ^ 2 + ν * m.dz with hη
  have hη0 : 0 ≤ η := by positivity
  have hη1 : |C| * η ≤ m.dz * D := by
    have h1 : m.dz ^ 2 ≤ m.dz := by nlinarith
    have h2 : η ≤ (1 + ν) * m.dz := by rw [hη]; linarith
    have h3 := mul_le_mul_of_nonneg_left h2 (abs_nonneg C)
    rw [hD]
    linarith
  have one : ∀ k < m.nXi, t0 ≤ behind m k → behind m k ∈ Icc t0 T ∧
      |waveEnergy (m.u k j).1 (m.Ez k j) - waveEnergy (Ψ (behind m k)) (V (behind m k))| ≤ (M + 1 + 1 / δ ^ 2) * (|C| * η) := by
    intro k hk hb
    have hb1 : behind m k ≤ T := by
      refine le_trans ?_ hTm
      unfold behind
      have : (0 : ℝ) ≤ k := Nat.cast_nonneg k
      exact mul_le_mul_of_nonneg_right (by linarith) hz.le
    have hb0 : behind m k ∈ Icc 0 T := ⟨ht0.trans hb, hb1⟩
    obtain ⟨g1, g2⟩ := H m j hj hr hz hz2 h3 hTm hs k hk
    have hC : C * η ≤ |C| * η := mul_le_mul_of_nonneg_right (le_abs_self C) hη0
    exact ⟨⟨hb, hb1⟩, waveEnergy_close hδ (sol.above _ hb0) (g1.trans hC) (g2.trans hC) (hη1.trans (hz4.trans (min_le_right _ _)))
      (hη1.trans (hz4.trans (min_le_left _ _))) (hM _ hb0)⟩
  obtain ⟨k1, k2⟩ := one k hk hbk
  obtain ⟨l1, l2⟩ := one l hl hbl
  rw [exact_energy hδ sol ht0 hoff k1 l1] at k2
  obtain ⟨p1, p2⟩ := abs_le.mp k2
  obtain ⟨q1, q2⟩ := abs_le.mp l2
  exact abs_le.mpr ⟨by linarith, by linarith⟩

/-- A beam that ends at the distance 1 from the head of a box of the length 10: from there on the energy of the wave is the same in all slices, up to the error of
the discretization. -/
example : ∃ a0 : ℝ, 0 < a0 ∧ ∀ a ≤ a0, 0 ≤ a → ∃ C h0 : ℝ, 0 < h0 ∧ ∀ n : ℕ, 3 ≤ n → 10 / ((n : ℝ) - 1) ≤ h0 →
    let m : Cold := ⟨n, 2, 0, 10 / ((n : ℝ) - 1), 1, true, none, fun k _ => a * Real.smoothTransition (1 - ((n : ℝ) - 1 - k) * (10 / ((n : ℝ) - 1)))⟩
    ∀ k < n, ∀ l < n, 1 ≤ behind m k → 1 ≤ behind m l →
      |waveEnergy (m.u k 1).1 (m.Ez k 1) - waveEnergy (m.u l 1).1 (m.Ez l 1)| ≤ C * m.dz := by
  obtain ⟨ε0, C, h1, -, H⟩ := weak_wake (T := 10) (by norm_num)
  refine ⟨ε0, h1, fun a ha ha0 => ?_⟩
  have hN : ContDiff ℝ 2 fun t : ℝ => a * Real.smoothTransition (1 - t) :=
    contDiff_const.mul (Real.smoothTransition.contDiff.comp (contDiff_const.sub contDiff_id))
  obtain ⟨Ψ, V, sol, -⟩ := H (fun _ => 0) (fun t => a * Real.smoothTransition (1 - t)) a continuous_const hN.continuous ha (fun t _ => by
    rw [abs_of_nonneg (mul_nonneg ha0 (Real.smoothTransition.nonneg _))]
    have := Real.smoothTransition.le_one (1 - t)
    nlinarith)
  obtain ⟨ν, hν⟩ := isCompact_Icc.exists_bound_of_continuousOn (s := Icc (0 : ℝ) 10) (hN.continuous_deriv (by norm_num)).continuousOn
  obtain ⟨D, h0, h00, G⟩ := energy_behind (t0 := 1) (by norm_num) (by norm_num) contDiff_const hN sol hν (by norm_num) (fun t ht => ⟨rfl, by
    rw [Real.smoothTransition.zero_of_nonpos (by linarith [ht.1]), mul_zero]⟩)
  have hν0 : 0 ≤ ν := (norm_nonneg _).trans (hν 0 ⟨le_rfl, by norm_num⟩)
  refine ⟨|D| * (1 + ν), min h0 1, by positivity, fun n hn hh => ?_⟩
  have hn1 : (0 : ℝ) < (n : ℝ) - 1 := by
    have : (3 : ℝ) ≤ n := by exact_mod_cast hn
    linarith
  intro m k hk l hl bk bl
  have hz : 0 < m.dz := by simp only [m]; positivity
  have hz1 : m.dz ≤ 1 := hh.trans (min_le_right _ _)
  have := G m 1 (by simp [m]) (by simp [m]) hz (hh.trans (min_le_left _ _)) hn ?_ ⟨?_, ?_⟩ k hk l hl bk bl
  · refine this.trans ?_
    have h2 : m.dz ^ 2 + ν * m.dz ≤ (1 + ν) * m.dz := by nlinarith
    have h3 : 0 ≤ m.dz ^ 2 + ν * m.dz := by positivity
    calc D * (m.dz ^ 2 + ν * m.dz) ≤ |D| * (m.dz ^ 2 + ν * m.dz) := mul_le_mul_of_nonneg_right (le_abs_self D) h3
      _ ≤ |D| * ((1 + ν) * m.dz) := mul_le_mul_of_nonneg_left h2 (abs_nonneg D)
      _ = _ := by ring
  · simp only [m]; rw [mul_div_cancel₀ _ hn1.ne']
  · intro k hk
    simp [Cold.aEnv, m]
  · intro k hk
    simp [m, behind]

end WakeT.ColdFluid
