import Verif.Plasma.ColdFluidOrder

/-!
# Property C191: density and susceptibility of the cold fluid

The density and the susceptibility that the cold fluid model stores (the latter is read by the
laser solver) are those of the exact wake up to an error of the order of that of the fields, and
positive if the slices are short enough.  With slices that are too long for the driver the
susceptibility can be negative.
-/

set_option linter.unusedSectionVars false

namespace WakeT.ColdFluid

open Set

/-- Density of the fluid in units of the background, for given laser amplitude and potential. -/
noncomputable def density (a psi : ℝ) : ℝ := (1 + a ^ 2 + (1 + psi) ^ 2) / (2 * (1 + psi) ^ 2)

theorem rho_eq (m : Cold) (k j : ℕ) : m.rho k j = density (m.aEnv k j) (m.u k j).1 := by
  unfold Cold.rho Cold.gamma density
  rw [div_div]
  congr 1; ring

theorem chi_eq (m : Cold) (k j : ℕ) (h : 1 + (m.u k j).1 ≠ 0) : m.chi k j = 1 / (1 + (m.u k j).1) := by
  have hg : m.gamma k j ≠ 0 := by
    unfold Cold.gamma
    have : 0 < 1 + m.aEnv k j ^ 2 + (1 + (m.u k j).1) ^ 2 := by positivity
    exact div_ne_zero this.ne' (mul_ne_zero two_ne_zero h)
  unfold Cold.chi Cold.rho
  field_simp

/-- **C191.** The density is at least half of the background, whatever the driver and the length of
the slices (wherever it is finite). -/
theorem density_half (m : Cold) (k j : ℕ) (h : 1 + (m.u k j).1 ≠ 0) : 1 / 2 < m.rho k j := by
  rw [rho_eq]
  unfold density
  have : 0 < (1 + (m.u k j).1) ^ 2 := by positivity
  rw [lt_div_iff₀ (by positivity)]
  nlinarith [sq_nonneg (m.aEnv k j)]

/-- **C191, partial.** For smooth drivers with an exact wake, and slices that are short enough: the
density and the susceptibility are positive, and differ from those of the exact wake at most by
a multiple of the square of the length of the slices (for a laser; for beams, whose density is kept
constant within a slice, by a multiple of the length times the slope of their density).  Missing: slices
of any length, for which it is wrong (`chi_negative_violated`). -/
theorem density_order_partial {A N Ψ V : ℝ → ℝ} {T δ ν : ℝ} (hT : 0 ≤ T) (hδ : 0 < δ) (hA : ContDiff ℝ 2 A)
    (hN : ContDiff ℝ 2 N) (sol : ExactWake A N T δ Ψ V) (hν : ∀ t ∈ Icc 0 T, |deriv N t| ≤ ν) :
    ∃ C h0, 0 < h0 ∧ ∀ (m : Cold) (j : ℕ), j < m.nR → 0 < m.dr → 0 < m.dz → m.dz ≤ h0 → 3 ≤ m.nXi →
      ((m.nXi : ℝ) - 1) * m.dz ≤ T → Sampled m j A N → ∀ k < m.nXi,
        0 < m.chi k j ∧ 1 / 2 < m.rho k j ∧
        |m.chi k j - 1 / (1 + Ψ (behind m k))| ≤ C * (m.dz ^ 2 + ν * m.dz) ∧
        |m.rho k j - density (A (behind m k)) (Ψ (behind m k))| ≤ C * (m.dz ^ 2 + ν * m.dz) := by
  obtain ⟨C, h0, hh0, H⟩ := fluid_order hT hδ hA hN sol hν
  obtain ⟨Ma, hMa⟩ : ∃ M, ∀ t ∈ Icc 0 T, |A t| ≤ M := by
    obtain ⟨M, hM⟩ := isCompact_Icc.exists_bound_of_continuousOn (hA.continuous.continuousOn (s := Icc 0 T))
    exact ⟨M, fun t ht => by simpa using hM t ht⟩
  have hν0 : 0 ≤ ν := (abs_nonneg _).trans (hν 0 ⟨le_rfl, hT⟩)
  set Q := |C| * (1 + ν) + 1 with hQ
  have hQ0 : 0 < Q := by rw [hQ]; positivity
  set D := |C| * (2 / δ ^ 2) + |C| * ((1 + Ma ^ 2) * (8 / δ ^ 3)) with hD
  refine ⟨D, min h0 (min 1 (δ / (2 * Q))), lt_min hh0 (lt_min one_pos (by positivity)), ?_⟩
  intro m j hj hr hz hzh h3 hTm hs k hk
  have hz1 : m.dz ≤ 1 := hzh.trans ((min_le_right _ _).trans (min_le_left _ _))
  have hz2 : m.dz ≤ δ / (2 * Q) := hzh.trans ((min_le_right _ _).trans (min_le_right _ _))
  obtain ⟨e1, -⟩ := H m j hj hr hz (hzh.trans (min_le_left _ _)) h3 hTm hs k hk
  have hb : behind m k ∈ Icc 0 T := by
    have h1 : (k : ℝ) + 1 ≤ m.nXi := by exact_mod_cast hk
    have h2 : (0 : ℝ) ≤ k := Nat.cast_nonneg k
    refine ⟨mul_nonneg (by linarith) hz.le, le_trans ?_ hTm⟩
    exact mul_le_mul_of_nonneg_right (by linarith) hz.le
  have hP := sol.above _ hb
  have ha := hMa _ hb
  rw [rho_eq, hs.laser k hk]
  set t := behind m k
  set η := m.dz ^ 2 + ν * m.dz with hη
  have hη0 : 0 ≤ η := add_nonneg (sq_nonneg _) (mul_nonneg hν0 hz.le)
  have hη1 : η ≤ (1 + ν) * m.dz := by
    have : m.dz ^ 2 ≤ m.dz := by rw [sq]; have := mul_le_mul_of_nonneg_left hz1 hz.le; linarith
    rw [hη]; linarith
  have e2 : |(m.u k j).1 - Ψ t| ≤ |C| * η := e1.trans (mul_le_mul_of_nonneg_right (le_abs_self C) hη0)
  have hsmall : |C| * η ≤ δ / 2 := by
    have a1 := mul_le_mul_of_nonneg_left hη1 (abs_nonneg C)
    have a2 : m.dz * (2 * Q) ≤ δ := by rwa [le_div_iff₀ (by positivity)] at hz2
    have a3 : m.dz * (2 * Q) = 2 * (|C| * ((1 + ν) * m.dz)) + 2 * m.dz := by rw [hQ]; ring
    linarith
  have hy : δ / 2 ≤ 1 + (m.u k j).1 := by
    have := (abs_le.mp e2).1
    linarith
  have hy0 : 0 < 1 + (m.u k j).1 := by linarith
  have hp0 : 0 < 1 + Ψ t := by linarith
  have hch := chi_eq m k j hy0.ne'
  refine ⟨by rw [hch]; positivity, ?_, ?_, ?_⟩
  · have := density_half m k j hy0.ne'
    rwa [rho_eq, hs.laser k hk] at this
  · rw [hch]
    have e : 1 / (1 + (m.u k j).1) - 1 / (1 + Ψ t) =
        -((m.u k j).1 - Ψ t) * (1 / ((1 + (m.u k j).1) * (1 + Ψ t))) := by
      field_simp; ring
    have b : 1 / ((1 + (m.u k j).1) * (1 + Ψ t)) ≤ 2 / δ ^ 2 := by
      rw [div_le_div_iff₀ (by positivity) (by positivity)]
      have := mul_le_mul hy hP hδ.le hy0.le
      nlinarith
    rw [e, abs_mul, abs_neg, abs_of_pos (by positivity : 0 < 1 / ((1 + (m.u k j).1) * (1 + Ψ t)))]
    calc _ ≤ |C| * η * (2 / δ ^ 2) := mul_le_mul e2 b (by positivity) (by positivity)
      _ ≤ D * η := by
        rw [hD]
        have : 0 ≤ |C| * ((1 + Ma ^ 2) * (8 / δ ^ 3)) * η := by positivity
        rw [add_mul]
        linarith
  · have e : density (A t) (m.u k j).1 - density (A t) (Ψ t) =
        accel (A t) 0 (m.u k j).1 - accel (A t) 0 (Ψ t) := by
      unfold density accel; field_simp; ring
    have l := accel_lip (n := 0) (half_pos hδ) ha hy (by linarith : δ / 2 ≤ 1 + Ψ t)
    rw [e]
    refine l.trans ?_
    have hM : 0 ≤ (1 + Ma ^ 2) / (δ / 2) ^ 3 := by positivity
    calc _ ≤ (1 + Ma ^ 2) / (δ / 2) ^ 3 * (|C| * η) := mul_le_mul_of_nonneg_left e2 hM
      _ = |C| * ((1 + Ma ^ 2) * (8 / δ ^ 3)) * η := by field_simp; ring
      _ ≤ D * η := by
        rw [hD, add_mul]
        have : 0 ≤ |C| * (2 / δ ^ 2) * η := by positivity
        linarith

/-- **C191, violated.** A driver of positive charge with 300 times the plasma density, on
slices of a tenth of the skin depth: the susceptibility behind its head is negative. -/
theorem chi_negative_violated : ∃ m : Cold, m.dz = 1 / 10 ∧ m.laser = none ∧ (∀ k j, 0 ≤ m.beam k j) ∧
    m.chi 0 0 < 0 := by
  let m : Cold := ⟨2, 1, 0, 1 / 10, 1, true, none, fun _ _ => 300⟩
  refine ⟨m, rfl, rfl, fun _ _ => by norm_num [m], ?_⟩
  obtain ⟨u0, us⟩ := fluid_rk4 m (by norm_num [m]) (by norm_num [m]) 0 (by norm_num [m])
  have u1 := us 0 (by norm_num [m])
  have hu : (m.u 0 0).1 < -1 := by
    rw [u1, show m.u (0 + 1) 0 = (0, 0) from u0]
    norm_num [m, rk4, accel, Cold.aEnv]
  rw [chi_eq m 0 0 (by linarith)]
  exact div_neg_of_pos_of_neg one_pos (by linarith)

/-- The hypotheses hold for a laser pulse whose wake is `Ψ = t⁴`. -/
example : ∃ C h0 : ℝ, 0 < h0 ∧ ∀ n : ℕ, 3 ≤ n → 1 / ((n : ℝ) - 1) ≤ h0 →
    let m : Cold := ⟨n, 2, 0, 1 / ((n : ℝ) - 1), 1, true, some fun k _ =>
      (((n : ℝ) - 1 - k) * (1 / ((n : ℝ) - 1))) * Real.sqrt (24 + 2 * (((n : ℝ) - 1 - k) * (1 / ((n : ℝ) - 1))) ^ 2 +
        48 * (((n : ℝ) - 1 - k) * (1 / ((n : ℝ) - 1))) ^ 4 + (((n : ℝ) - 1 - k) * (1 / ((n : ℝ) - 1))) ^ 6 +
        24 * (((n : ℝ) - 1 - k) * (1 / ((n : ℝ) - 1))) ^ 8), fun _ _ => 0⟩
    ∀ k < n, 0 < m.chi k 1 ∧ |m.chi k 1 - 1 / (1 + (((n : ℝ) - 1 - k) * m.dz) ^ 4)| ≤ C * m.dz ^ 2 := by
  have hp : ∀ t : ℝ, 0 < 24 + 2 * t ^ 2 + 48 * t ^ 4 + t ^ 6 + 24 * t ^ 8 := fun t => by positivity
  have sol : ExactWake (fun t => t * Real.sqrt (24 + 2 * t ^ 2 + 48 * t ^ 4 + t ^ 6 + 24 * t ^ 8)) (fun _ => 0) 1 1
      (fun t => t ^ 4) (fun t => 4 * t ^ 3) := by
    refine ⟨by norm_num, fun t _ => ?_, fun t _ => ?_, fun t _ => ?_⟩
    · simpa using (hasDerivAt_pow 4 t).hasDerivWithinAt
    · refine (((hasDerivAt_pow 3 t).const_mul 4).hasDerivWithinAt).congr_deriv ?_
      rw [mul_pow, Real.sq_sqrt (hp t).le]
      have : (1 + t ^ 4) ≠ 0 := by positivity
      field_simp
      norm_num
      ring
    · have : 0 ≤ t ^ 4 := by positivity
      linarith
  have hA : ContDiff ℝ 2 (fun t : ℝ => t * Real.sqrt (24 + 2 * t ^ 2 + 48 * t ^ 4 + t ^ 6 + 24 * t ^ 8)) := by
    apply contDiff_id.mul
    apply ContDiff.sqrt
    · fun_prop
    · exact fun t => (hp t).ne'
  obtain ⟨C, h0, h00, H⟩ := density_order_partial zero_le_one one_pos hA contDiff_const sol (ν := 0)
    (fun t _ => by simp)
  refine ⟨C, h0, h00, fun n hn hh => ?_⟩
  have hn1 : (0 : ℝ) < (n : ℝ) - 1 := by
    have : (3 : ℝ) ≤ n := by exact_mod_cast hn
    linarith
  intro m k hk
  obtain ⟨g1, -, g2, -⟩ := H m 1 (by simp [m]) (by simp [m]) (by simpa [m] using hn1) hh hn
    (by simp only [m]; rw [mul_one_div_cancel hn1.ne'])
    ⟨fun k hk => by simp [Cold.aEnv, m, behind], fun k hk => by simp [m]⟩ k hk
  exact ⟨g1, by simpa [behind, m] using g2⟩

end WakeT.ColdFluid
