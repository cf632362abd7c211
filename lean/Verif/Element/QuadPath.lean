import Verif.Element.Free
import Verif.Push.Converge
import Mathlib.Analysis.ODE.Gronwall
import Mathlib.Analysis.Calculus.Deriv.Prod

/-! # Paths in the field of a quadrupole -/

set_option linter.unusedSectionVars false

namespace WakeT.Element

open Set
open TransferMatrix
open Push (Ph PField Trajectory)

/-! ### One plane -/

/-- Growth of a position and a slope. -/
theorem plane_bound {c T Λ ε ρ : ℝ} (hc : 0 < c) (hΛ : 0 < Λ) (hρ : 0 ≤ ρ) (hε : 0 ≤ ε) {x u x' u' : ℝ → ℝ}
    (hx : ∀ t ∈ Icc 0 T, HasDerivWithinAt x (c * x' t) (Icc 0 T) t) (hu : ∀ t ∈ Icc 0 T, HasDerivWithinAt u (c * u' t) (Icc 0 T) t)
    (bx : ∀ t ∈ Icc 0 T, |x' t| ≤ Λ * max |x t| |u t| + ρ) (bu : ∀ t ∈ Icc 0 T, |u' t| ≤ Λ * max |x t| |u t| + ρ)
    (x0 : |x 0| ≤ ε) (u0 : |u 0| ≤ ε) {t : ℝ} (ht : t ∈ Icc 0 T) :
    |x t| ≤ (ε + ρ * (c * T)) * Real.exp (Λ * (c * T)) ∧ |u t| ≤ (ε + ρ * (c * T)) * Real.exp (Λ * (c * T)) := by
  have hK : c * Λ ≠ 0 := by positivity
  have h1 := norm_le_gronwallBound_of_norm_deriv_right_le (f := fun t => ((x t, u t) : ℝ × ℝ)) (f' := fun t => (c * x' t, c * u' t)) (a := 0) (b := T)
    (δ := ε) (K := c * Λ) (ε := c * ρ)
    (fun s hs => ((hx s hs).continuousWithinAt.prodMk (hu s hs).continuousWithinAt))
    (fun s hs => ((hx s ⟨hs.1, hs.2.le⟩).prodMk (hu s ⟨hs.1, hs.2.le⟩)).mono_of_mem_nhdsWithin (Icc_mem_nhdsGE_of_mem hs))
    (max_le x0 u0)
    (fun s hs => by
      have hs' : s ∈ Icc 0 T := ⟨hs.1, hs.2.le⟩
      have e : ‖((x s, u s) : ℝ × ℝ)‖ = max |x s| |u s| := rfl
      rw [e]
      refine max_le ?_ ?_
      · show |c * x' s| ≤ _
        rw [abs_mul, abs_of_pos hc]
        have := mul_le_mul_of_nonneg_left (bx s hs') hc.le
        linarith only [this]
      · show |c * u' s| ≤ _
        rw [abs_mul, abs_of_pos hc]
        have := mul_le_mul_of_nonneg_left (bu s hs') hc.le
        linarith only [this]) t ht
  rw [gronwallBound_of_K_ne_0 hK] at h1
  beta_reduce at h1
  have h2 : Real.exp (c * Λ * (t - 0)) ≤ Real.exp (Λ * (c * T)) := by
    apply Real.exp_le_exp.mpr
    have := mul_le_mul_of_nonneg_left ht.2 (mul_pos hc hΛ).le
    linarith only [this]
  have h3 : c * ρ / (c * Λ) * (Real.exp (c * Λ * (t - 0)) - 1) ≤ ρ * (c * T) * Real.exp (Λ * (c * T)) := by
    have hT : 0 ≤ T := ht.1.trans ht.2
    -- `exp a - 1 ≤ a exp a`
    have e1 : Real.exp (c * Λ * (t - 0)) - 1 ≤ c * Λ * t * Real.exp (Λ * (c * T)) := by
      have q1 := Real.add_one_le_exp (-(c * Λ * (t - 0)))
      have q2 := Real.exp_pos (c * Λ * (t - 0))
      have q3 : Real.exp (c * Λ * (t - 0)) * Real.exp (-(c * Λ * (t - 0))) = 1 := by rw [← Real.exp_add]; simp
      have q4 := mul_le_mul_of_nonneg_left q1 q2.le
      rw [q3] at q4
      have q5 : 0 ≤ c * Λ * t := by have := ht.1; positivity
      have q6 := mul_le_mul_of_nonneg_left h2 q5
      have q7 : Real.exp (c * Λ * (t - 0)) * (-(c * Λ * (t - 0)) + 1) = Real.exp (c * Λ * (t - 0)) - c * Λ * t * Real.exp (c * Λ * (t - 0)) := by ring
      linarith only [q4, q6, q7]
    have e2 : c * ρ / (c * Λ) * (c * Λ * t * Real.exp (Λ * (c * T))) = ρ * (c * t) * Real.exp (Λ * (c * T)) := by
      field_simp
    have e3 := mul_le_mul_of_nonneg_left e1 (by positivity : 0 ≤ c * ρ / (c * Λ))
    rw [e2] at e3
    refine e3.trans ?_
    have := ht.2
    gcongr
  have h4 : ‖((x t, u t) : ℝ × ℝ)‖ ≤ (ε + ρ * (c * T)) * Real.exp (Λ * (c * T)) := by
    have := mul_le_mul_of_nonneg_left h2 hε
    refine h1.trans ?_
    linarith only [this, h3]
  exact ⟨(norm_fst_le _).trans h4, (norm_snd_le _).trans h4⟩

/-- Position and slope behind a quadrupole with the transfer map; `a` weighs the part of second order. -/
noncomputable def quadX (k a x0 u0 z : ℝ) : ℝ :=
  cosK k z * x0 + sinK k z * u0 + a / 2 * (k * z * sinK k z * x0 - (sinK k z + z * cosK k z) * u0)
noncomputable def quadU (k a x0 u0 z : ℝ) : ℝ :=
  -k * sinK k z * x0 + cosK k z * u0 + a / 2 * (-k * (sinK k z - z * cosK k z) * x0 + k * z * sinK k z * u0)

theorem quad_zero (k a x0 u0 : ℝ) : quadX k a x0 u0 0 = x0 ∧ quadU k a x0 u0 0 = u0 := by
  simp [quadX, quadU]

theorem quad_deriv (k a x0 u0 z : ℝ) :
    HasDerivAt (quadX k a x0 u0) (quadU k a x0 u0 z - a * quadU k 0 x0 u0 z) z ∧ HasDerivAt (quadU k a x0 u0) (-k * quadX k a x0 u0 z) z := by
  have hs := hasDerivAt_sinK k z
  have hc := hasDerivAt_cosK k z
  have hz := hasDerivAt_id z
  constructor
  · have h := ((hc.mul_const x0).add (hs.mul_const u0)).add
      ((((((hz.const_mul k).mul hs).mul_const x0)).sub ((hs.add (hz.mul hc)).mul_const u0)).const_mul (a / 2))
    refine (h.congr_deriv ?_).congr_of_eventuallyEq (Filter.Eventually.of_forall fun y => ?_)
    · simp only [quadU, id]
      ring
    · simp only [quadX, Pi.add_apply, Pi.sub_apply, Pi.mul_apply, id]
  · have h := (((hs.const_mul (-k)).mul_const x0).add (hc.mul_const u0)).add
      (((((hs.sub (hz.mul hc)).const_mul (-k)).mul_const x0).add ((((hz.const_mul k).mul hs)).mul_const u0)).const_mul (a / 2))
    refine (h.congr_deriv ?_).congr_of_eventuallyEq (Filter.Eventually.of_forall fun y => ?_)
    · simp only [quadX, id]
      ring
    · simp only [quadU, Pi.add_apply, Pi.sub_apply, Pi.mul_apply, id]

theorem quad_deriv_time (k a x0 u0 c t : ℝ) (s : Set ℝ) :
    HasDerivWithinAt (fun t => quadX k a x0 u0 (c * t)) (c * (quadU k a x0 u0 (c * t) - a * quadU k 0 x0 u0 (c * t))) s t ∧
      HasDerivWithinAt (fun t => quadU k a x0 u0 (c * t)) (c * (-k * quadX k a x0 u0 (c * t))) s t := by
  have h0 : HasDerivAt (fun t => c * t) (c * 1) t := (hasDerivAt_id t).const_mul c
  obtain ⟨h1, h2⟩ := quad_deriv k a x0 u0 (c * t)
  exact ⟨((h1.comp t h0).congr_deriv (by ring)).hasDerivWithinAt, ((h2.comp t h0).congr_deriv (by ring)).hasDerivWithinAt⟩

/-- Paths with nearly the focusing strength `k` stay near the transfer map. -/
theorem plane_close {c T k Λ ε a R : ℝ} {α β x u : ℝ → ℝ} (hc : 0 < c) (hΛ1 : 1 ≤ Λ) (hk : |k| ≤ Λ) (hα : ∀ t ∈ Icc 0 T, |α t| ≤ Λ) (hβ : ∀ t ∈ Icc 0 T, |k * β t| ≤ Λ)
    (hx : ∀ t ∈ Icc 0 T, HasDerivWithinAt x (c * (α t * u t)) (Icc 0 T) t) (hu : ∀ t ∈ Icc 0 T, HasDerivWithinAt u (c * (-k * β t * x t)) (Icc 0 T) t)
    (x0 : |x 0| ≤ ε) (u0 : |u 0| ≤ ε) (r1 : ∀ t ∈ Icc 0 T, |α t - 1 + a| ≤ R) (r2 : a ^ 2 ≤ R) (r3 : ∀ t ∈ Icc 0 T, |k * (β t - 1)| ≤ R) (ha : |a| ≤ 1) {t : ℝ} (ht : t ∈ Icc 0 T) :
    let B := Real.exp (Λ * (c * T))
    |x t - quadX k a (x 0) (u 0) (c * t)| ≤ ε * R * ((B + 2 * (c * T) * B ^ 2) * (c * T) * B) ∧
    |u t - quadU k a (x 0) (u 0) (c * t)| ≤ ε * R * ((B + 2 * (c * T) * B ^ 2) * (c * T) * B) := by
  intro B
  have hΛ : 0 < Λ := by linarith
  have hε : 0 ≤ ε := (abs_nonneg _).trans x0
  have hR : 0 ≤ R := (abs_nonneg _).trans (r1 t ht)
  have hB : 0 < B := Real.exp_pos _
  have hT : 0 ≤ T := ht.1.trans ht.2
  have hcT : 0 ≤ c * T := by positivity
  generalize hX0 : x 0 = x0' at *
  generalize hU0 : u 0 = u0' at *
  -- first order
  have b1 : ∀ s ∈ Icc 0 T, |quadX k 0 x0' u0' (c * s)| ≤ ε * B ∧ |quadU k 0 x0' u0' (c * s)| ≤ ε * B := by
    intro s hs
    have := plane_bound (ρ := 0) hc hΛ le_rfl hε (fun t _ => (quad_deriv_time k 0 x0' u0' c t (Icc 0 T)).1)
      (fun t _ => (quad_deriv_time k 0 x0' u0' c t (Icc 0 T)).2)
      (fun t _ => by
        rw [zero_mul, sub_zero, add_zero]
        exact (le_max_right _ _).trans (le_mul_of_one_le_left ((abs_nonneg _).trans (le_max_right _ _)) hΛ1))
      (fun t _ => by
        rw [abs_mul, abs_neg, add_zero]
        exact mul_le_mul hk (le_max_left _ _) (abs_nonneg _) hΛ.le)
      (by rw [mul_zero, (quad_zero _ _ _ _).1]; exact x0) (by rw [mul_zero, (quad_zero _ _ _ _).2]; exact u0) hs
    rwa [zero_mul, add_zero] at this
  -- second order
  have b2 : ∀ s ∈ Icc 0 T, |quadX k a x0' u0' (c * s) - quadX k 0 x0' u0' (c * s)| ≤ |a| * (ε * (c * T) * B ^ 2) ∧
      |quadU k a x0' u0' (c * s) - quadU k 0 x0' u0' (c * s)| ≤ |a| * (ε * (c * T) * B ^ 2) := by
    intro s hs
    have := plane_bound (ρ := |a| * (ε * B)) (ε := 0) hc hΛ (by positivity) le_rfl
      (x := fun t => quadX k a x0' u0' (c * t) - quadX k 0 x0' u0' (c * t)) (u := fun t => quadU k a x0' u0' (c * t) - quadU k 0 x0' u0' (c * t))
      (x' := fun t => (quadU k a x0' u0' (c * t) - quadU k 0 x0' u0' (c * t)) - a * quadU k 0 x0' u0' (c * t))
      (u' := fun t => -k * (quadX k a x0' u0' (c * t) - quadX k 0 x0' u0' (c * t)))
      (fun t _ => ((quad_deriv_time k a x0' u0' c t (Icc 0 T)).1.sub (quad_deriv_time k 0 x0' u0' c t (Icc 0 T)).1).congr_deriv (by ring))
      (fun t _ => ((quad_deriv_time k a x0' u0' c t (Icc 0 T)).2.sub (quad_deriv_time k 0 x0' u0' c t (Icc 0 T)).2).congr_deriv (by ring))
      (fun t ht => by
        refine (abs_sub _ _).trans (add_le_add ?_ ?_)
        · exact (le_max_right _ _).trans (le_mul_of_one_le_left ((abs_nonneg _).trans (le_max_right _ _)) hΛ1)
        · rw [abs_mul]
          exact mul_le_mul_of_nonneg_left (b1 t ht).2 (abs_nonneg a))
      (fun t ht => by
        rw [abs_mul, abs_neg]
        have := mul_le_mul hk (le_max_left |quadX k a x0' u0' (c * t) - quadX k 0 x0' u0' (c * t)| |quadU k a x0' u0' (c * t) - quadU k 0 x0' u0' (c * t)|) (abs_nonneg _) hΛ.le
        have h2 : 0 ≤ |a| * (ε * B) := by positivity
        linarith)
      (by simp [(quad_zero _ _ _ _).1]) (by simp [(quad_zero _ _ _ _).2]) hs
    have e : (0 + |a| * (ε * B) * (c * T)) * Real.exp (Λ * (c * T)) = |a| * (ε * (c * T) * B ^ 2) := by
      show (0 + |a| * (ε * B) * (c * T)) * B = _
      ring
    rwa [e] at this
  have b3 : ∀ s ∈ Icc 0 T, |quadX k a x0' u0' (c * s)| ≤ ε * (B + c * T * B ^ 2) ∧ |quadU k a x0' u0' (c * s)| ≤ ε * (B + c * T * B ^ 2) := by
    intro s hs
    have q : |a| * (ε * (c * T) * B ^ 2) ≤ ε * (c * T) * B ^ 2 := mul_le_of_le_one_left (by positivity) ha
    constructor
    · have h1 := abs_add_le (quadX k a x0' u0' (c * s) - quadX k 0 x0' u0' (c * s)) (quadX k 0 x0' u0' (c * s))
      rw [sub_add_cancel] at h1
      linarith only [h1, q, (b1 s hs).1, (b2 s hs).1]
    · have h1 := abs_add_le (quadU k a x0' u0' (c * s) - quadU k 0 x0' u0' (c * s)) (quadU k 0 x0' u0' (c * s))
      rw [sub_add_cancel] at h1
      linarith only [h1, q, (b1 s hs).2, (b2 s hs).2]
  -- the difference
  have := plane_bound (ρ := ε * R * (B + 2 * (c * T) * B ^ 2)) (ε := 0) hc hΛ (by positivity) le_rfl
    (x := fun t => x t - quadX k a x0' u0' (c * t)) (u := fun t => u t - quadU k a x0' u0' (c * t))
    (x' := fun t => α t * (u t - quadU k a x0' u0' (c * t)) + ((α t - 1 + a) * quadU k a x0' u0' (c * t) - a * (quadU k a x0' u0' (c * t) - quadU k 0 x0' u0' (c * t))))
    (u' := fun t => -(k * β t) * (x t - quadX k a x0' u0' (c * t)) - k * (β t - 1) * quadX k a x0' u0' (c * t))
    (fun t ht => ((hx t ht).sub (quad_deriv_time k a x0' u0' c t (Icc 0 T)).1).congr_deriv (by ring))
    (fun t ht => ((hu t ht).sub (quad_deriv_time k a x0' u0' c t (Icc 0 T)).2).congr_deriv (by ring))
    (fun t ht => by
      refine (abs_add_le _ _).trans (add_le_add ?_ ?_)
      · rw [abs_mul]
        exact mul_le_mul (hα t ht) (le_max_right _ _) (abs_nonneg _) hΛ.le
      · refine (abs_sub _ _).trans ?_
        rw [abs_mul, abs_mul]
        have h1 := mul_le_mul (r1 t ht) (b3 t ht).2 (abs_nonneg _) hR
        have h2 := mul_le_mul_of_nonneg_left (b2 t ht).2 (abs_nonneg a)
        have h3 : |a| * (|a| * (ε * (c * T) * B ^ 2)) ≤ R * (ε * (c * T) * B ^ 2) := by
          rw [← mul_assoc, ← sq, sq_abs]
          exact mul_le_mul_of_nonneg_right r2 (by positivity)
        linarith only [h1, h2, h3])
    (fun t ht => by
      refine (abs_sub _ _).trans (add_le_add ?_ ?_)
      · rw [abs_mul, abs_neg]
        exact mul_le_mul (hβ t ht) (le_max_left _ _) (abs_nonneg _) hΛ.le
      · rw [abs_mul]
        have h1 := mul_le_mul (r3 t ht) (b3 t ht).1 (abs_nonneg _) hR
        have h2 : 0 ≤ R * (ε * (c * T) * B ^ 2) := by positivity
        linarith only [h1, h2])
    (by simp [(quad_zero _ _ _ _).1, hX0]) (by simp [(quad_zero _ _ _ _).2, hU0]) ht
  have e : (0 + ε * R * (B + 2 * (c * T) * B ^ 2) * (c * T)) * Real.exp (Λ * (c * T)) = ε * R * ((B + 2 * (c * T) * B ^ 2) * (c * T) * B) := by
    show (0 + ε * R * (B + 2 * (c * T) * B ^ 2) * (c * T)) * B = _
    ring
  rwa [e] at this

/-! ### Both planes -/

/-- The energy does not change. -/
theorem quad_gamma {k : Push.Const} {fields : List PField} {T f0 : ℝ} {z : ℝ → Ph} (hz : Trajectory k fields T z)
    (hf : ∀ t p, Push.felt fields t p = ⟨0, 0, 0, -(f0 * p.y), -(f0 * p.x), 0⟩) {t : ℝ} (ht : t ∈ Icc 0 T) : (z t).gamma = (z 0).gamma := by
  have hd : ∀ t ∈ Icc 0 T, HasDerivWithinAt (fun t => (z t).px ^ 2 + (z t).py ^ 2 + (z t).pz ^ 2) 0 (Icc 0 T) t := by
    intro t ht
    refine ((((hz.px t ht).pow 2).add ((hz.py t ht).pow 2)).add ((hz.pz t ht).pow 2)).congr_deriv ?_
    unfold Push.motion
    rw [hf]
    norm_num
    ring
  have h := (convex_Icc 0 T).norm_image_sub_le_of_norm_hasDerivWithin_le (C := 0) hd (fun x _ => by simp) ⟨le_rfl, ht.1.trans ht.2⟩ ht
  rw [zero_mul] at h
  have h0 := sub_eq_zero.mp (norm_le_zero_iff.mp h)
  unfold Push.Ph.gamma
  congr 1
  linarith only [h0]

set_option maxHeartbeats 1000000 in
/-- Paths in the field of a quadrupole of length `L` are close to the transfer map. -/
theorem quad_path {L k1 : ℝ} (hL : 0 ≤ L) : ∃ ε0 C, 0 < ε0 ∧ 0 ≤ C ∧ ∀ (k : Push.Const) (fields : List PField) (f0 g T ε a η : ℝ) (z : ℝ → Ph),
    0 < k.c → 0 ≤ T → k.c * T = L → (∀ t p, Push.felt fields t p = ⟨0, 0, 0, -(f0 * p.y), -(f0 * p.x), 0⟩) → -(k.q / (k.m * k.c) * f0) = k1 * g →
    0 < g → 4 ≤ g ^ 2 - 1 → Trajectory k fields T z → 0 < (z 0).pz → |((z 0).gamma - g) / √(g ^ 2 - 1)| ≤ 1 / 4 → ε ≤ ε0 →
    |(z 0).x| ≤ ε → |(z 0).y| ≤ ε → |(z 0).px / √(g ^ 2 - 1)| ≤ ε → |(z 0).py / √(g ^ 2 - 1)| ≤ ε →
    |√(g ^ 2 - 1) / (z 0).gamma - 1 + a| ≤ 3 * (1 / (g ^ 2 - 1) + η) → a ^ 2 ≤ 3 * η → |a| ≤ 1 → 0 ≤ η →
    |(z T).x - quadX k1 a (z 0).x ((z 0).px / √(g ^ 2 - 1)) L| ≤ C * ε * (1 / (g ^ 2 - 1) + η + ε ^ 2) ∧
    |(z T).px / √(g ^ 2 - 1) - quadU k1 a (z 0).x ((z 0).px / √(g ^ 2 - 1)) L| ≤ C * ε * (1 / (g ^ 2 - 1) + η + ε ^ 2) ∧
    |(z T).y - quadX (-k1) a (z 0).y ((z 0).py / √(g ^ 2 - 1)) L| ≤ C * ε * (1 / (g ^ 2 - 1) + η + ε ^ 2) ∧
    |(z T).py / √(g ^ 2 - 1) - quadU (-k1) a (z 0).y ((z 0).py / √(g ^ 2 - 1)) L| ≤ C * ε * (1 / (g ^ 2 - 1) + η + ε ^ 2) ∧
    |(z T).xi - (z 0).xi| ≤ C * (1 / (g ^ 2 - 1) + ε ^ 2) ∧ (z T).gamma = (z 0).gamma ∧ 0 < (z T).pz := by
  set Λ := 2 * (1 + |k1|) with hΛd
  have hk0 := abs_nonneg k1
  have hΛ1 : 1 ≤ Λ := by linarith
  have hΛ : 0 < Λ := by linarith
  set B := Real.exp (Λ * L) with hB
  have hB0 : 0 < B := Real.exp_pos _
  refine ⟨1 / (3 * B), (3 + |k1| * (3 + 5 * B ^ 2)) * ((B + 2 * L * B ^ 2) * L * B) + 2 * L * (1 + 2 * B ^ 2), by positivity, by positivity, ?_⟩
  intro k fields f0 g T ε a η z hc hT hcT hf hk1 hg0 hg hz hpz0 hδ hε0 hx0 hy0 hpx0 hpy0 ra ra2 ha hη
  have hε : 0 ≤ ε := (abs_nonneg _).trans hx0
  have hεB : ε * B ≤ 1 / 3 := by
    have := (le_div_iff₀ (by positivity)).mp hε0
    linarith only [this]
  have hp2 : 0 < g ^ 2 - 1 := by linarith
  have hps : √(g ^ 2 - 1) ^ 2 = g ^ 2 - 1 := Real.sq_sqrt hp2.le
  have hp : 0 < √(g ^ 2 - 1) := Real.sqrt_pos.mpr hp2
  have hpg : √(g ^ 2 - 1) ≤ g := (Real.sqrt_le_left hg0.le).mpr (by linarith)
  have hγ0 : 0 < (z 0).gamma := Real.sqrt_pos.mpr (by positivity)
  have hγc : ∀ t ∈ Icc 0 T, (z t).gamma = (z 0).gamma := fun t ht => quad_gamma hz hf ht
  have hγ2 : ∀ t, (z t).gamma ^ 2 = 1 + (z t).px ^ 2 + (z t).py ^ 2 + (z t).pz ^ 2 := fun t => Real.sq_sqrt (by positivity)
  generalize hP : √(g ^ 2 - 1) = P at *
  generalize hγ : (z 0).gamma = γ at *
  have hb1 : 1 ≤ g / P := by rw [le_div_iff₀ hp, one_mul]; exact hpg
  have hεγ : 1 / (g ^ 2 - 1) = (g / P) ^ 2 - 1 := by
    rw [div_pow, hps]
    field_simp
    ring
  have hε4 : 1 / (g ^ 2 - 1) ≤ 1 / 4 := one_div_le_one_div_of_le (by norm_num) hg
  have hεγ0 : 0 < 1 / (g ^ 2 - 1) := by positivity
  have hP2i : 1 / (g ^ 2 - 1) = 1 / P ^ 2 := by rw [hps]
  generalize hE : 1 / (g ^ 2 - 1) = E at *
  have hb2 : g / P ≤ 9 / 8 := by nlinarith only [hb1, hεγ, hε4]
  have hbE : g / P - 1 ≤ E / 2 := by nlinarith only [hb1, hεγ]
  have hγP : 3 / 4 * P ≤ γ := by
    have h1 := (abs_le.mp hδ).1
    rw [le_div_iff₀ hp] at h1
    linarith only [h1, hpg]
  have hα : |P / γ| ≤ Λ := by
    rw [abs_of_pos (by positivity)]
    have : P / γ ≤ 4 / 3 := by rw [div_le_iff₀ hγ0]; linarith only [hγP]
    linarith only [this, hk0, hΛd]
  have hβ1 : ∀ t ∈ Icc 0 T, |(z t).pz / γ| ≤ 1 := by
    intro t ht
    rw [abs_div, abs_of_pos hγ0, div_le_one hγ0]
    apply abs_le_of_sq_le_sq _ hγ0.le
    have := hγ2 t
    rw [hγc t ht] at this
    nlinarith only [this, sq_nonneg (z t).px, sq_nonneg (z t).py]
  have hβΛ : ∀ t ∈ Icc 0 T, |k1 * (g / P * ((z t).pz / γ))| ≤ Λ := by
    intro t ht
    rw [abs_mul, abs_mul, abs_of_nonneg (by linarith only [hb1] : 0 ≤ g / P)]
    have h1 : g / P * |(z t).pz / γ| ≤ 9 / 8 * 1 := mul_le_mul hb2 (hβ1 t ht) (abs_nonneg _) (by norm_num)
    have h2 := mul_le_mul_of_nonneg_left h1 hk0
    linarith only [h2, hk0, hΛd]
  -- equations of motion
  have dx : ∀ t ∈ Icc 0 T, HasDerivWithinAt (fun t => (z t).x) (k.c * (P / γ * ((z t).px / P))) (Icc 0 T) t := fun t ht =>
    (hz.x t ht).congr_deriv (by
      unfold Push.motion
      dsimp only
      rw [hγc t ht]
      field_simp)
  have dy : ∀ t ∈ Icc 0 T, HasDerivWithinAt (fun t => (z t).y) (k.c * (P / γ * ((z t).py / P))) (Icc 0 T) t := fun t ht =>
    (hz.y t ht).congr_deriv (by
      unfold Push.motion
      dsimp only
      rw [hγc t ht]
      field_simp)
  have du : ∀ t ∈ Icc 0 T, HasDerivWithinAt (fun t => (z t).px / P) (k.c * (-k1 * (g / P * ((z t).pz / γ)) * (z t).x)) (Icc 0 T) t := fun t ht =>
    ((hz.px t ht).div_const P).congr_deriv (by
      unfold Push.motion
      dsimp only
      rw [hγc t ht, hf]
      dsimp only
      rw [show k.c * (-k1 * (g / P * ((z t).pz / γ)) * (z t).x) = -(k1 * g) * k.c * ((z t).pz / γ) * (z t).x / P by ring, ← hk1]
      ring)
  have dv : ∀ t ∈ Icc 0 T, HasDerivWithinAt (fun t => (z t).py / P) (k.c * (-(-k1) * (g / P * ((z t).pz / γ)) * (z t).y)) (Icc 0 T) t := fun t ht =>
    ((hz.py t ht).div_const P).congr_deriv (by
      unfold Push.motion
      dsimp only
      rw [hγc t ht, hf]
      dsimp only
      rw [show k.c * (-(-k1) * (g / P * ((z t).pz / γ)) * (z t).y) = (k1 * g) * k.c * ((z t).pz / γ) * (z t).y / P by ring, ← hk1]
      ring)
  -- a priori bounds
  have bx : ∀ t ∈ Icc 0 T, |(z t).x| ≤ ε * B ∧ |(z t).px / P| ≤ ε * B := by
    intro t ht
    have := plane_bound (ρ := 0) hc hΛ le_rfl hε dx du
      (fun t _ => by
        rw [abs_mul, add_zero]
        exact mul_le_mul hα (le_max_right _ _) (abs_nonneg _) hΛ.le)
      (fun t ht => by
        rw [abs_mul, neg_mul, abs_neg, add_zero]
        exact mul_le_mul (hβΛ t ht) (le_max_left _ _) (abs_nonneg _) hΛ.le) hx0 hpx0 ht
    rwa [zero_mul, add_zero, hcT] at this
  have by' : ∀ t ∈ Icc 0 T, |(z t).y| ≤ ε * B ∧ |(z t).py / P| ≤ ε * B := by
    intro t ht
    have := plane_bound (ρ := 0) hc hΛ le_rfl hε dy dv
      (fun t _ => by
        rw [abs_mul, add_zero]
        exact mul_le_mul hα (le_max_right _ _) (abs_nonneg _) hΛ.le)
      (fun t ht => by
        rw [abs_mul, neg_neg, add_zero]
        exact mul_le_mul (hβΛ t ht) (le_max_left _ _) (abs_nonneg _) hΛ.le) hy0 hpy0 ht
    rwa [zero_mul, add_zero, hcT] at this
  -- the longitudinal velocity
  have tr : ∀ t ∈ Icc 0 T, (1 + (z t).px ^ 2 + (z t).py ^ 2) ≤ γ ^ 2 * (2 * (E + 2 * (ε * B) ^ 2)) ∧ (1 + (z t).px ^ 2 + (z t).py ^ 2) < γ ^ 2 := by
    intro t ht
    have h1 := sq_le_sq' (abs_le.mp (bx t ht).2).1 (abs_le.mp (bx t ht).2).2
    have h2 := sq_le_sq' (abs_le.mp (by' t ht).2).1 (abs_le.mp (by' t ht).2).2
    rw [div_pow, div_le_iff₀ (by positivity)] at h1 h2
    have h3 : 1 = E * P ^ 2 := by rw [hP2i]; field_simp
    have h4 : 9 / 16 * P ^ 2 ≤ γ ^ 2 := by nlinarith only [hγP, hp]
    have h5 : (1 + (z t).px ^ 2 + (z t).py ^ 2) ≤ P ^ 2 * (E + 2 * (ε * B) ^ 2) := by linarith only [h1, h2, h3]
    have h6 : 0 ≤ E + 2 * (ε * B) ^ 2 := by positivity
    have h7 : E + 2 * (ε * B) ^ 2 ≤ 1 / 4 + 2 / 9 := by nlinarith only [hε4, hεB, mul_nonneg hε hB0.le]
    have h8 := mul_le_mul_of_nonneg_right h4 h6
    have hP2 : 0 < P ^ 2 := by positivity
    have h9 := mul_le_mul_of_nonneg_left h7 hP2.le
    exact ⟨by nlinarith only [h5, h8, h6, hP2], by linarith only [h5, h9, h4, hP2]⟩
  have hpz : ∀ t ∈ Icc 0 T, 0 < (z t).pz := by
    intro t ht
    by_contra hneg
    have hcont : ContinuousOn (fun t => (z t).pz) (Icc 0 t) := fun s hs =>
      ((hz.pz s ⟨hs.1, hs.2.trans ht.2⟩).continuousWithinAt).mono (Icc_subset_Icc_right ht.2)
    obtain ⟨s, hs, hs0⟩ := intermediate_value_Icc' ht.1 hcont ⟨not_lt.mp hneg, hpz0.le⟩
    have hs' : s ∈ Icc 0 T := ⟨hs.1, hs.2.trans ht.2⟩
    have h1 := hγ2 s
    rw [hγc s hs'] at h1
    have h2 := (tr s hs').2
    have h3 : (z s).pz = 0 := hs0
    rw [h3] at h1
    linarith only [h1, h2]
  have hβ : ∀ t ∈ Icc 0 T, 0 ≤ 1 - (z t).pz / γ ∧ 1 - (z t).pz / γ ≤ 2 * (E + 2 * (ε * B) ^ 2) := by
    intro t ht
    have h1 := hγ2 t
    rw [hγc t ht] at h1
    have h2 := (tr t ht).1
    have h3 := (abs_le.mp (hβ1 t ht)).2
    have h4 : 0 < (z t).pz / γ := div_pos (hpz t ht) hγ0
    have h5 : ((z t).pz / γ) ^ 2 = 1 - (1 + (z t).px ^ 2 + (z t).py ^ 2) / γ ^ 2 := by
      rw [div_pow]
      field_simp
      linarith only [h1]
    have h6 : (1 + (z t).px ^ 2 + (z t).py ^ 2) / γ ^ 2 ≤ 2 * (E + 2 * (ε * B) ^ 2) := by
      rw [div_le_iff₀ (by positivity)]
      linarith only [h2]
    exact ⟨by linarith only [h3], by nlinarith only [h3, h4, h5, h6]⟩
  have hbβ : ∀ t ∈ Icc 0 T, |g / P * ((z t).pz / γ) - 1| ≤ 3 * E + 5 * (ε * B) ^ 2 := by
    intro t ht
    obtain ⟨h1, h2⟩ := hβ t ht
    rw [show g / P * ((z t).pz / γ) - 1 = (g / P - 1) - g / P * (1 - (z t).pz / γ) by ring]
    have h3 := mul_le_mul hb2 h2 h1 (by norm_num)
    have h4 : 0 ≤ g / P * (1 - (z t).pz / γ) := mul_nonneg (by linarith only [hb1]) h1
    have h5 := sq_nonneg (ε * B)
    exact abs_le.mpr ⟨by linarith only [h3, hb1, hεγ0, h5], by linarith only [h4, hbE, hεγ0, h5]⟩
  -- comparison
  set R := (3 + |k1| * (3 + 5 * B ^ 2)) * (E + η + ε ^ 2) with hR
  have q0 : 0 ≤ |k1| * (3 + 5 * B ^ 2) * (E + η + ε ^ 2) := by positivity
  have r1 : |P / γ - 1 + a| ≤ R := by nlinarith only [ra, q0, hR, sq_nonneg ε]
  have r2 : a ^ 2 ≤ R := by nlinarith only [ra2, q0, hR, sq_nonneg ε, hεγ0]
  have r3 : ∀ t ∈ Icc 0 T, |k1| * |g / P * ((z t).pz / γ) - 1| ≤ R := by
    intro t ht
    have h1 := mul_le_mul_of_nonneg_left (hbβ t ht) hk0
    have h2 : 3 * E + 5 * (ε * B) ^ 2 ≤ (3 + 5 * B ^ 2) * (E + η + ε ^ 2) := by
      have : 0 ≤ B ^ 2 * (E + η) := by positivity
      nlinarith only [this, hη, sq_nonneg ε]
    have h3 := mul_le_mul_of_nonneg_left h2 hk0
    have h4 : 0 ≤ 3 * (E + η + ε ^ 2) := by positivity
    linarith only [h1, h3, h4, hR]
  have hTT : T ∈ Icc 0 T := ⟨hT, le_rfl⟩
  have hkΛ : |k1| ≤ Λ := by linarith only [hk0, hΛd]
  have cx := plane_close (α := fun _ => P / γ) hc hΛ1 hkΛ (fun _ _ => hα) hβΛ dx du hx0 hpx0 (fun _ _ => r1) r2 (fun t ht => by rw [abs_mul]; exact r3 t ht) ha hTT
  have cy := plane_close (k := -k1) (α := fun _ => P / γ) hc hΛ1 (by rwa [abs_neg]) (fun _ _ => hα) (fun t ht => by rw [neg_mul, abs_neg]; exact hβΛ t ht) dy dv hy0 hpy0 (fun _ _ => r1) r2
    (fun t ht => by rw [abs_mul, abs_neg]; exact r3 t ht) ha hTT
  rw [hcT] at cx cy
  have hC : ε * R * ((B + 2 * L * B ^ 2) * L * B) ≤
      ((3 + |k1| * (3 + 5 * B ^ 2)) * ((B + 2 * L * B ^ 2) * L * B) + 2 * L * (1 + 2 * B ^ 2)) * ε * (E + η + ε ^ 2) := by
    have : 0 ≤ 2 * L * (1 + 2 * B ^ 2) * ε * (E + η + ε ^ 2) := by positivity
    rw [hR]
    linarith only [this]
  refine ⟨cx.1.trans hC, cx.2.trans hC, cy.1.trans hC, cy.2.trans hC, ?_, hγc T hTT, hpz T hTT⟩
  have hxi := (convex_Icc 0 T).norm_image_sub_le_of_norm_hasDerivWithin_le (f := fun t => (z t).xi) (C := k.c * (2 * (E + 2 * (ε * B) ^ 2)))
    (fun t ht => hz.xi t ht) (fun t ht => by
      unfold Push.motion
      dsimp only
      rw [hγc t ht, Real.norm_eq_abs, show k.c * (z t).pz / γ - k.c = -(k.c * (1 - (z t).pz / γ)) by ring, abs_neg, abs_mul, abs_of_pos hc,
        abs_of_nonneg (hβ t ht).1]
      exact mul_le_mul_of_nonneg_left (hβ t ht).2 hc.le) ⟨le_rfl, hT⟩ hTT
  rw [Real.norm_eq_abs, Real.norm_eq_abs, sub_zero, abs_of_nonneg hT, show k.c * (2 * (E + 2 * (ε * B) ^ 2)) * T = k.c * T * (2 * (E + 2 * (ε * B) ^ 2)) by ring, hcT] at hxi
  refine hxi.trans ?_
  have h1 : 0 ≤ (3 + |k1| * (3 + 5 * B ^ 2)) * ((B + 2 * L * B ^ 2) * L * B) * (E + ε ^ 2) := by positivity
  have h2 : L * (2 * (E + 2 * (ε * B) ^ 2)) ≤ 2 * L * (1 + 2 * B ^ 2) * (E + ε ^ 2) := by
    have h3 : 0 ≤ L * (B ^ 2 * E) := by positivity
    have h4 : 0 ≤ L * ε ^ 2 := by positivity
    nlinarith only [h3, h4]
  linarith only [h1, h2]

end WakeT.Element
