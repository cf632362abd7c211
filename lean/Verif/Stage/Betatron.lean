import Verif.Element.FieldQuad

/-! # Betatron oscillations in plasma lenses and ion channels (C169) -/

set_option linter.unusedSectionVars false

namespace WakeT.Stage

open Set
open Element (plane_bound plane_close quadX quadU)
open Push (Ph PField Trajectory)
open Bunch (Bunch)
open Fields (EB LibField)

/-! ### Exact paths -/

/-- Both planes with the same strength. -/
theorem focus_close {c T kmax kk ε R P : ℝ} {w : ℝ → ℝ} {z : ℝ → Ph} (hc : 0 < c) (hkk : |kk| ≤ kmax)
    (hα : ∀ t ∈ Icc 0 T, |P / (z t).gamma| ≤ 2) (hw : ∀ t ∈ Icc 0 T, |w t| ≤ 9 / 8)
    (dx : ∀ t ∈ Icc 0 T, HasDerivWithinAt (fun t => (z t).x) (c * (P / (z t).gamma * ((z t).px / P))) (Icc 0 T) t)
    (dy : ∀ t ∈ Icc 0 T, HasDerivWithinAt (fun t => (z t).y) (c * (P / (z t).gamma * ((z t).py / P))) (Icc 0 T) t)
    (du : ∀ t ∈ Icc 0 T, HasDerivWithinAt (fun t => (z t).px / P) (c * (-kk * w t * (z t).x)) (Icc 0 T) t)
    (dv : ∀ t ∈ Icc 0 T, HasDerivWithinAt (fun t => (z t).py / P) (c * (-kk * w t * (z t).y)) (Icc 0 T) t)
    (hx0 : |(z 0).x| ≤ ε) (hy0 : |(z 0).y| ≤ ε) (hpx0 : |(z 0).px / P| ≤ ε) (hpy0 : |(z 0).py / P| ≤ ε) :
    let B := Real.exp (2 * (1 + kmax) * (c * T))
    (∀ t ∈ Icc 0 T, |(z t).px / P| ≤ ε * B ∧ |(z t).py / P| ≤ ε * B) ∧
    ((∀ t ∈ Icc 0 T, |P / (z t).gamma - 1| ≤ R ∧ |kk * (w t - 1)| ≤ R) → ∀ t ∈ Icc 0 T,
      |(z t).x - quadX kk 0 (z 0).x ((z 0).px / P) (c * t)| ≤ ε * R * ((B + 2 * (c * T) * B ^ 2) * (c * T) * B) ∧
      |(z t).px / P - quadU kk 0 (z 0).x ((z 0).px / P) (c * t)| ≤ ε * R * ((B + 2 * (c * T) * B ^ 2) * (c * T) * B) ∧
      |(z t).y - quadX kk 0 (z 0).y ((z 0).py / P) (c * t)| ≤ ε * R * ((B + 2 * (c * T) * B ^ 2) * (c * T) * B) ∧
      |(z t).py / P - quadU kk 0 (z 0).y ((z 0).py / P) (c * t)| ≤ ε * R * ((B + 2 * (c * T) * B ^ 2) * (c * T) * B)) := by
  intro B
  have hk0 := abs_nonneg kk
  have hε : 0 ≤ ε := (abs_nonneg _).trans hx0
  have hΛ1 : 1 ≤ 2 * (1 + kmax) := by linarith
  have hΛ : 0 < 2 * (1 + kmax) := by linarith
  have hα' : ∀ t ∈ Icc 0 T, |P / (z t).gamma| ≤ 2 * (1 + kmax) := fun t ht => (hα t ht).trans (by linarith)
  have hw' : ∀ t ∈ Icc 0 T, |kk * w t| ≤ 2 * (1 + kmax) := fun t ht => by
    rw [abs_mul]
    have := mul_le_mul hkk (hw t ht) (abs_nonneg _) (by linarith)
    linarith
  constructor
  · intro t ht
    have h1 := plane_bound (ρ := 0) hc hΛ le_rfl hε dx du
      (fun t ht => by
        rw [abs_mul, add_zero]
        exact mul_le_mul (hα' t ht) (le_max_right _ _) (abs_nonneg _) hΛ.le)
      (fun t ht => by
        rw [abs_mul, neg_mul, abs_neg, add_zero]
        exact mul_le_mul (hw' t ht) (le_max_left _ _) (abs_nonneg _) hΛ.le) hx0 hpx0 ht
    have h2 := plane_bound (ρ := 0) hc hΛ le_rfl hε dy dv
      (fun t ht => by
        rw [abs_mul, add_zero]
        exact mul_le_mul (hα' t ht) (le_max_right _ _) (abs_nonneg _) hΛ.le)
      (fun t ht => by
        rw [abs_mul, neg_mul, abs_neg, add_zero]
        exact mul_le_mul (hw' t ht) (le_max_left _ _) (abs_nonneg _) hΛ.le) hy0 hpy0 ht
    rw [zero_mul, add_zero] at h1 h2
    exact ⟨h1.2, h2.2⟩
  · intro hr t ht
    have hR : 0 ≤ R := (abs_nonneg _).trans (hr t ht).1
    have cx := plane_close (a := 0) (R := R) (α := fun t => P / (z t).gamma) hc hΛ1 (hkk.trans (by linarith)) hα' hw' dx du hx0 hpx0
      (fun t ht => by rw [add_zero]; exact (hr t ht).1) (by simpa using hR) (fun t ht => (hr t ht).2) (by simp) ht
    have cy := plane_close (a := 0) (R := R) (α := fun t => P / (z t).gamma) hc hΛ1 (hkk.trans (by linarith)) hα' hw' dy dv hy0 hpy0
      (fun t ht => by rw [add_zero]; exact (hr t ht).1) (by simpa using hR) (fun t ht => (hr t ht).2) (by simp) ht
    exact ⟨cx.1, cx.2, cy.1, cy.2⟩

/-- Size of what is left. -/
noncomputable def rest (L kmax : ℝ) : ℝ :=
  let B := Real.exp (2 * (1 + kmax) * L)
  (2 + kmax) * (3 + 5 * B ^ 2) * ((B + 2 * L * B ^ 2) * L * B)

theorem rest_nonneg {L kmax : ℝ} (hL : 0 ≤ L) (hk : 0 ≤ kmax) : 0 ≤ rest L kmax := by
  unfold rest
  positivity

/-- Common to lens and channel: the assumptions about the particle. -/
structure Starts (L kmax kk ε : ℝ) (p : Ph) : Prop where
  strength : |kk| ≤ kmax
  energy : 4 ≤ p.gamma ^ 2 - 1
  pz : 0 < p.pz
  small : ε * (3 * Real.exp (2 * (1 + kmax) * L)) ≤ 1
  x : |p.x| ≤ ε
  y : |p.y| ≤ ε
  px : |p.px / √(p.gamma ^ 2 - 1)| ≤ ε
  py : |p.py / √(p.gamma ^ 2 - 1)| ≤ ε

/-- Common to lens and channel: the particle `p` at the distance `s`. -/
structure Follows (C kk ε s : ℝ) (p0 p : Ph) : Prop where
  x : |p.x - quadX kk 0 p0.x (p0.px / √(p0.gamma ^ 2 - 1)) s| ≤ C * ε * (1 / (p0.gamma ^ 2 - 1) + ε ^ 2)
  px : |p.px / √(p0.gamma ^ 2 - 1) - quadU kk 0 p0.x (p0.px / √(p0.gamma ^ 2 - 1)) s| ≤ C * ε * (1 / (p0.gamma ^ 2 - 1) + ε ^ 2)
  y : |p.y - quadX kk 0 p0.y (p0.py / √(p0.gamma ^ 2 - 1)) s| ≤ C * ε * (1 / (p0.gamma ^ 2 - 1) + ε ^ 2)
  py : |p.py / √(p0.gamma ^ 2 - 1) - quadU kk 0 p0.y (p0.py / √(p0.gamma ^ 2 - 1)) s| ≤ C * ε * (1 / (p0.gamma ^ 2 - 1) + ε ^ 2)

theorem lens_gamma {k : Push.Const} {fields : List PField} {T f0 : ℝ} {z : ℝ → Ph} (hz : Trajectory k fields T z)
    (hf : ∀ t p, Push.felt fields t p = ⟨0, 0, 0, f0 * p.y, -(f0 * p.x), 0⟩) {t : ℝ} (ht : t ∈ Icc 0 T) : (z t).gamma = (z 0).gamma := by
  have hd : ∀ t ∈ Icc 0 T, HasDerivWithinAt (fun t => (z t).px ^ 2 + (z t).py ^ 2 + (z t).pz ^ 2) 0 (Icc 0 T) t := by
    intro t ht
    refine ((((hz.px t ht).pow 2).add ((hz.py t ht).pow 2)).add ((hz.pz t ht).pow 2)).congr_deriv ?_
    unfold Push.motion
    rw [hf]
    norm_num
    ring
  have h := (convex_Icc 0 T).norm_image_sub_le_of_norm_hasDerivWithin_le (C := 0) hd (fun x _ => by simp) ⟨le_rfl, ht.1.trans ht.2⟩ ht
  rw [zero_mul] at h
  have h0 := sub_eq_zero.mp (norm_le_zero_iff.mp h)
  unfold Push.Ph.gamma
  congr 1
  linarith only [h0]

set_option maxHeartbeats 1000000 in
/-- Paths in a plasma lens. -/
theorem lens_path {k : Push.Const} {fields : List PField} {T L kmax kk ε f0 : ℝ} {z : ℝ → Ph} (hc : 0 < k.c) (hT : 0 ≤ T) (hcT : k.c * T = L)
    (hf : ∀ t p, Push.felt fields t p = ⟨0, 0, 0, f0 * p.y, -(f0 * p.x), 0⟩) (hkk : -(k.q / (k.m * k.c) * f0) = kk * (z 0).gamma)
    (hz : Trajectory k fields T z) (hs : Starts L kmax kk ε (z 0)) {t : ℝ} (ht : t ∈ Icc 0 T) : Follows (rest L kmax) kk ε (k.c * t) (z 0) (z t) := by
  have hL : 0 ≤ L := hcT ▸ mul_nonneg hc.le hT
  have hk0 := abs_nonneg kk
  have hkm : 0 ≤ kmax := hk0.trans hs.strength
  have hε : 0 ≤ ε := (abs_nonneg _).trans hs.x
  have hp2 : 0 < (z 0).gamma ^ 2 - 1 := by linarith [hs.energy]
  have hps : √((z 0).gamma ^ 2 - 1) ^ 2 = (z 0).gamma ^ 2 - 1 := Real.sq_sqrt hp2.le
  have hp : 0 < √((z 0).gamma ^ 2 - 1) := Real.sqrt_pos.mpr hp2
  have hg0 : 0 < (z 0).gamma := Real.sqrt_pos.mpr (by positivity)
  have hpg : √((z 0).gamma ^ 2 - 1) ≤ (z 0).gamma := (Real.sqrt_le_left hg0.le).mpr (by linarith)
  have hγc : ∀ t ∈ Icc 0 T, (z t).gamma = (z 0).gamma := fun t ht => lens_gamma hz hf ht
  have hγ2 : ∀ t, (z t).gamma ^ 2 = 1 + (z t).px ^ 2 + (z t).py ^ 2 + (z t).pz ^ 2 := fun t => Real.sq_sqrt (by positivity)
  have hpz0 := hs.pz
  have hx0 := hs.x
  have hy0 := hs.y
  have hpx0 := hs.px
  have hpy0 := hs.py
  have hg4 := hs.energy
  have hE4 : 1 / ((z 0).gamma ^ 2 - 1) ≤ 1 / 4 := one_div_le_one_div_of_le (by norm_num) hg4
  suffices h : ∀ t ∈ Icc 0 T,
      |(z t).x - quadX kk 0 (z 0).x ((z 0).px / √((z 0).gamma ^ 2 - 1)) (k.c * t)| ≤ rest L kmax * ε * (1 / ((z 0).gamma ^ 2 - 1) + ε ^ 2) ∧
      |(z t).px / √((z 0).gamma ^ 2 - 1) - quadU kk 0 (z 0).x ((z 0).px / √((z 0).gamma ^ 2 - 1)) (k.c * t)| ≤ rest L kmax * ε * (1 / ((z 0).gamma ^ 2 - 1) + ε ^ 2) ∧
      |(z t).y - quadX kk 0 (z 0).y ((z 0).py / √((z 0).gamma ^ 2 - 1)) (k.c * t)| ≤ rest L kmax * ε * (1 / ((z 0).gamma ^ 2 - 1) + ε ^ 2) ∧
      |(z t).py / √((z 0).gamma ^ 2 - 1) - quadU kk 0 (z 0).y ((z 0).py / √((z 0).gamma ^ 2 - 1)) (k.c * t)| ≤ rest L kmax * ε * (1 / ((z 0).gamma ^ 2 - 1) + ε ^ 2) by
    obtain ⟨h1, h2, h3, h4⟩ := h t ht
    exact ⟨h1, h2, h3, h4⟩
  generalize hP : √((z 0).gamma ^ 2 - 1) = P at *
  generalize hγ : (z 0).gamma = g at *
  have hb1 : 1 ≤ g / P := by rw [le_div_iff₀ hp, one_mul]; exact hpg
  have hE : 1 / (g ^ 2 - 1) = (g / P) ^ 2 - 1 := by
    rw [div_pow, hps]
    field_simp
    ring
  have hE0 : 0 < 1 / (g ^ 2 - 1) := by positivity
  have hP2i : 1 / (g ^ 2 - 1) = 1 / P ^ 2 := by rw [hps]
  generalize hEd : 1 / (g ^ 2 - 1) = E at *
  have hb2 : g / P ≤ 9 / 8 := by nlinarith only [hb1, hE, hE4]
  have hbE : g / P - 1 ≤ E / 2 := by nlinarith only [hb1, hE]
  have hα1 : P / g ≤ 1 := by rw [div_le_one hg0]; exact hpg
  have hα0 : 0 < P / g := by positivity
  have hαb : P / g * (g / P) = 1 := by field_simp
  have hβ1 : ∀ t ∈ Icc 0 T, |(z t).pz / g| ≤ 1 := by
    intro t ht
    rw [abs_div, abs_of_pos hg0, div_le_one hg0]
    apply abs_le_of_sq_le_sq _ hg0.le
    have := hγ2 t
    rw [hγc t ht] at this
    nlinarith only [this, sq_nonneg (z t).px, sq_nonneg (z t).py]
  obtain ⟨apr, close⟩ := focus_close (P := P) (w := fun t => g / P * ((z t).pz / g)) (z := z) (R := (2 + kmax) * (3 + 5 * Real.exp (2 * (1 + kmax) * L) ^ 2) * (E + ε ^ 2)) hc hs.strength
    (fun t ht => by
      rw [hγc t ht, abs_of_pos hα0]
      linarith only [hα1])
    (fun t ht => by
      rw [abs_mul, abs_of_nonneg (by linarith only [hb1] : 0 ≤ g / P)]
      have := mul_le_mul hb2 (hβ1 t ht) (abs_nonneg _) (by norm_num)
      linarith only [this])
    (fun t ht => (hz.x t ht).congr_deriv (by
      unfold Push.motion
      dsimp only
      rw [hγc t ht]
      field_simp))
    (fun t ht => (hz.y t ht).congr_deriv (by
      unfold Push.motion
      dsimp only
      rw [hγc t ht]
      field_simp))
    (fun t ht => ((hz.px t ht).div_const P).congr_deriv (by
      unfold Push.motion
      dsimp only
      rw [hγc t ht, hf]
      dsimp only
      rw [show k.c * (-kk * (g / P * ((z t).pz / g)) * (z t).x) = -(kk * g) * k.c * ((z t).pz / g) * (z t).x / P by ring, ← hkk]
      ring))
    (fun t ht => ((hz.py t ht).div_const P).congr_deriv (by
      unfold Push.motion
      dsimp only
      rw [hγc t ht, hf]
      dsimp only
      rw [show k.c * (-kk * (g / P * ((z t).pz / g)) * (z t).y) = -(kk * g) * k.c * ((z t).pz / g) * (z t).y / P by ring, ← hkk]
      ring)) hx0 hy0 hpx0 hpy0
  rw [hcT] at apr close
  have hsm := hs.small
  unfold rest
  dsimp only
  have hB0 : 0 < Real.exp (2 * (1 + kmax) * L) := Real.exp_pos _
  generalize Real.exp (2 * (1 + kmax) * L) = B at *
  have hεB : ε * B ≤ 1 / 3 := by linarith only [hsm]
  have tr : ∀ t ∈ Icc 0 T, (1 + (z t).px ^ 2 + (z t).py ^ 2) ≤ g ^ 2 * (E + 2 * (ε * B) ^ 2) ∧ (1 + (z t).px ^ 2 + (z t).py ^ 2) < g ^ 2 := by
    intro t ht
    have h1 := sq_le_sq' (abs_le.mp (apr t ht).1).1 (abs_le.mp (apr t ht).1).2
    have h2 := sq_le_sq' (abs_le.mp (apr t ht).2).1 (abs_le.mp (apr t ht).2).2
    rw [div_pow, div_le_iff₀ (by positivity)] at h1 h2
    have h3 : 1 = E * P ^ 2 := by rw [hP2i]; field_simp
    have h4 : P ^ 2 ≤ g ^ 2 := by nlinarith only [hpg, hp]
    have h5 : (1 + (z t).px ^ 2 + (z t).py ^ 2) ≤ P ^ 2 * (E + 2 * (ε * B) ^ 2) := by linarith only [h1, h2, h3]
    have h6 : 0 ≤ E + 2 * (ε * B) ^ 2 := by positivity
    have h7 : E + 2 * (ε * B) ^ 2 ≤ 1 / 4 + 2 / 9 := by nlinarith only [hE4, hεB, mul_nonneg hε hB0.le]
    have h8 := mul_le_mul_of_nonneg_right h4 h6
    have hg2 : 0 < g ^ 2 := by positivity
    have h9 := mul_le_mul_of_nonneg_left h7 hg2.le
    exact ⟨h5.trans h8, by linarith only [h5, h8, h9, hg2]⟩
  have hpz : ∀ t ∈ Icc 0 T, 0 < (z t).pz := by
    intro t ht
    by_contra hneg
    have hcont : ContinuousOn (fun t => (z t).pz) (Icc 0 t) := fun s hs =>
      ((hz.pz s ⟨hs.1, hs.2.trans ht.2⟩).continuousWithinAt).mono (Icc_subset_Icc_right ht.2)
    obtain ⟨s, hs, hs0⟩ := intermediate_value_Icc' ht.1 hcont ⟨not_lt.mp hneg, hpz0.le⟩
    have hs' : s ∈ Icc 0 T := ⟨hs.1, hs.2.trans ht.2⟩
    have h1 := hγ2 s
    rw [hγc s hs'] at h1
    have h2 := (tr s hs').2
    have h3 : (z s).pz = 0 := hs0
    rw [h3] at h1
    linarith only [h1, h2]
  have hβ : ∀ t ∈ Icc 0 T, 0 ≤ 1 - (z t).pz / g ∧ 1 - (z t).pz / g ≤ E + 2 * (ε * B) ^ 2 := by
    intro t ht
    have h1 := hγ2 t
    rw [hγc t ht] at h1
    have h2 := (tr t ht).1
    have h3 := (abs_le.mp (hβ1 t ht)).2
    have h4 : 0 < (z t).pz / g := div_pos (hpz t ht) hg0
    have h5 : ((z t).pz / g) ^ 2 = 1 - (1 + (z t).px ^ 2 + (z t).py ^ 2) / g ^ 2 := by
      rw [div_pow]
      field_simp
      linarith only [h1]
    have h6 : (1 + (z t).px ^ 2 + (z t).py ^ 2) / g ^ 2 ≤ E + 2 * (ε * B) ^ 2 := by
      rw [div_le_iff₀ (by positivity)]
      linarith only [h2]
    exact ⟨by linarith only [h3], by nlinarith only [h3, h4, h5, h6]⟩
  have hbβ : ∀ t ∈ Icc 0 T, |g / P * ((z t).pz / g) - 1| ≤ (3 + 5 * B ^ 2) * (E + ε ^ 2) := by
    intro t ht
    obtain ⟨h1, h2⟩ := hβ t ht
    rw [show g / P * ((z t).pz / g) - 1 = (g / P - 1) - g / P * (1 - (z t).pz / g) by ring]
    have h3 := mul_le_mul hb2 h2 h1 (by norm_num)
    have h4 : 0 ≤ g / P * (1 - (z t).pz / g) := mul_nonneg (by linarith only [hb1]) h1
    have h5 := sq_nonneg (ε * B)
    have h6 : 3 * E + 5 * (ε * B) ^ 2 ≤ (3 + 5 * B ^ 2) * (E + ε ^ 2) := by
      have : 0 ≤ B ^ 2 * E := by positivity
      nlinarith only [this, sq_nonneg ε]
    exact abs_le.mpr ⟨by linarith only [h3, hb1, hE0, h5, h6], by linarith only [h4, hbE, hE0, h5, h6]⟩
  have hN : 0 ≤ (3 + 5 * B ^ 2) * (E + ε ^ 2) := by positivity
  have hres : ∀ t ∈ Icc 0 T, |P / (z t).gamma - 1| ≤ (2 + kmax) * (3 + 5 * B ^ 2) * (E + ε ^ 2) ∧
      |kk * (g / P * ((z t).pz / g) - 1)| ≤ (2 + kmax) * (3 + 5 * B ^ 2) * (E + ε ^ 2) := by
    intro t ht
    have n1 : 0 ≤ kmax * ((3 + 5 * B ^ 2) * (E + ε ^ 2)) := by positivity
    constructor
    · rw [hγc t ht, abs_sub_comm, abs_of_nonneg (by linarith only [hα1])]
      have h1 : 1 - P / g ≤ E := by nlinarith only [hαb, hα0, hα1, hbE, hE0]
      have h2 : E ≤ (3 + 5 * B ^ 2) * (E + ε ^ 2) := by
        have : 0 ≤ B ^ 2 * (E + ε ^ 2) := by positivity
        nlinarith only [this, sq_nonneg ε, hE0]
      linarith only [h1, h2, n1, hN]
    · rw [abs_mul]
      have := mul_le_mul hs.strength (hbβ t ht) (abs_nonneg _) hkm
      linarith only [this, hN]
  intro t ht
  obtain ⟨h1, h2, h3, h4⟩ := close hres t ht
  have e1 : ε * ((2 + kmax) * (3 + 5 * B ^ 2) * (E + ε ^ 2)) * ((B + 2 * L * B ^ 2) * L * B) =
      (2 + kmax) * (3 + 5 * B ^ 2) * ((B + 2 * L * B ^ 2) * L * B) * ε * (E + ε ^ 2) := by ring
  rw [e1] at h1 h2 h3 h4
  exact ⟨h1, h2, h3, h4⟩

set_option maxHeartbeats 1000000 in
/-- Paths in an ion channel. -/
theorem channel_path {k : Push.Const} {fields : List PField} {T L kmax kk ε f0 : ℝ} {z : ℝ → Ph} (hc : 0 < k.c) (hT : 0 ≤ T) (hcT : k.c * T = L)
    (hf : ∀ t p, Push.felt fields t p = ⟨k.c * f0 * p.x, k.c * f0 * p.y, 0, 0, 0, 0⟩) (hkk : -(k.q / (k.m * k.c) * f0) = kk * (z 0).gamma)
    (hz : Trajectory k fields T z) (hs : Starts L kmax kk ε (z 0)) {t : ℝ} (ht : t ∈ Icc 0 T) : Follows (rest L kmax) kk ε (k.c * t) (z 0) (z t) := by
  have hL : 0 ≤ L := hcT ▸ mul_nonneg hc.le hT
  have hk0 := abs_nonneg kk
  have hkm : 0 ≤ kmax := hk0.trans hs.strength
  have hε : 0 ≤ ε := (abs_nonneg _).trans hs.x
  have hp2 : 0 < (z 0).gamma ^ 2 - 1 := by linarith [hs.energy]
  have hps : √((z 0).gamma ^ 2 - 1) ^ 2 = (z 0).gamma ^ 2 - 1 := Real.sq_sqrt hp2.le
  have hp : 0 < √((z 0).gamma ^ 2 - 1) := Real.sqrt_pos.mpr hp2
  have hγ0 : ∀ t, 0 < (z t).gamma := fun t => Real.sqrt_pos.mpr (by positivity)
  have hg0 := hγ0 0
  have hpg : √((z 0).gamma ^ 2 - 1) ≤ (z 0).gamma := (Real.sqrt_le_left hg0.le).mpr (by linarith)
  have hγ2 : ∀ t, (z t).gamma ^ 2 = 1 + (z t).px ^ 2 + (z t).py ^ 2 + (z t).pz ^ 2 := fun t => Real.sq_sqrt (by positivity)
  have hpzc : ∀ t ∈ Icc 0 T, (z t).pz = (z 0).pz := by
    intro t ht
    have h := (convex_Icc 0 T).norm_image_sub_le_of_norm_hasDerivWithin_le (f := fun t => (z t).pz) (C := 0) (fun t ht => hz.pz t ht)
      (fun x _ => by simp [Push.motion, hf]) ⟨le_rfl, ht.1.trans ht.2⟩ ht
    rw [zero_mul] at h
    exact sub_eq_zero.mp (norm_le_zero_iff.mp h)
  have hx0 := hs.x
  have hy0 := hs.y
  have hpx0 := hs.px
  have hpy0 := hs.py
  have hE4 : 1 / ((z 0).gamma ^ 2 - 1) ≤ 1 / 4 := one_div_le_one_div_of_le (by norm_num) hs.energy
  have hsm := hs.small
  have hB1 : 1 ≤ Real.exp (2 * (1 + kmax) * L) := Real.one_le_exp (by positivity)
  suffices h : ∀ t ∈ Icc 0 T,
      |(z t).x - quadX kk 0 (z 0).x ((z 0).px / √((z 0).gamma ^ 2 - 1)) (k.c * t)| ≤ rest L kmax * ε * (1 / ((z 0).gamma ^ 2 - 1) + ε ^ 2) ∧
      |(z t).px / √((z 0).gamma ^ 2 - 1) - quadU kk 0 (z 0).x ((z 0).px / √((z 0).gamma ^ 2 - 1)) (k.c * t)| ≤ rest L kmax * ε * (1 / ((z 0).gamma ^ 2 - 1) + ε ^ 2) ∧
      |(z t).y - quadX kk 0 (z 0).y ((z 0).py / √((z 0).gamma ^ 2 - 1)) (k.c * t)| ≤ rest L kmax * ε * (1 / ((z 0).gamma ^ 2 - 1) + ε ^ 2) ∧
      |(z t).py / √((z 0).gamma ^ 2 - 1) - quadU kk 0 (z 0).y ((z 0).py / √((z 0).gamma ^ 2 - 1)) (k.c * t)| ≤ rest L kmax * ε * (1 / ((z 0).gamma ^ 2 - 1) + ε ^ 2) by
    obtain ⟨h1, h2, h3, h4⟩ := h t ht
    exact ⟨h1, h2, h3, h4⟩
  have h20 := hγ2 0
  have h20' := hpx0
  generalize hP : √((z 0).gamma ^ 2 - 1) = P at *
  generalize hγ : (z 0).gamma = g at *
  have hb1 : 1 ≤ g / P := by rw [le_div_iff₀ hp, one_mul]; exact hpg
  have hE : 1 / (g ^ 2 - 1) = (g / P) ^ 2 - 1 := by
    rw [div_pow, hps]
    field_simp
    ring
  have hE0 : 0 < 1 / (g ^ 2 - 1) := by positivity
  have hP2i : 1 / (g ^ 2 - 1) = 1 / P ^ 2 := by rw [hps]
  generalize hEd : 1 / (g ^ 2 - 1) = E at *
  have hb2 : g / P ≤ 9 / 8 := by nlinarith only [hb1, hE, hE4]
  have hbE : g / P - 1 ≤ E / 2 := by nlinarith only [hb1, hE]
  have hP20 : 0 < P ^ 2 := by positivity
  -- the energy does not become small
  have q0 : (z 0).px ^ 2 ≤ ε ^ 2 * P ^ 2 ∧ (z 0).py ^ 2 ≤ ε ^ 2 * P ^ 2 := by
    have h1 := sq_le_sq' (abs_le.mp hpx0).1 (abs_le.mp hpx0).2
    have h2 := sq_le_sq' (abs_le.mp hpy0).1 (abs_le.mp hpy0).2
    rw [div_pow, div_le_iff₀ hP20] at h1 h2
    exact ⟨h1, h2⟩
  have hε3 : ε ≤ 1 / 3 := by nlinarith only [hsm, hB1, hε]
  have hlow : ∀ t ∈ Icc 0 T, P / 2 ≤ (z t).gamma := by
    intro t ht
    have h1 := hγ2 t
    rw [hpzc t ht] at h1
    have h3 : ε ^ 2 ≤ 1 / 9 := by nlinarith only [hε3, hε]
    have h4 := mul_le_mul_of_nonneg_right h3 hP20.le
    have h5 : (P / 2) ^ 2 ≤ (z t).gamma ^ 2 := by
      nlinarith only [h1, h20, q0.1, q0.2, h4, hps, sq_nonneg (z t).px, sq_nonneg (z t).py, hP20]
    exact le_of_sq_le_sq h5 (hγ0 t).le
  obtain ⟨apr, close⟩ := focus_close (P := P) (w := fun _ => g / P) (z := z) (R := (2 + kmax) * (3 + 5 * Real.exp (2 * (1 + kmax) * L) ^ 2) * (E + ε ^ 2)) hc hs.strength
    (fun t ht => by
      have := hγ0 t
      rw [abs_of_pos (by positivity), div_le_iff₀ this]
      linarith only [hlow t ht])
    (fun t ht => by
      rw [abs_of_nonneg (by linarith only [hb1] : 0 ≤ g / P)]
      exact hb2)
    (fun t ht => (hz.x t ht).congr_deriv (by
      unfold Push.motion
      have := hγ0 t
      field_simp))
    (fun t ht => (hz.y t ht).congr_deriv (by
      unfold Push.motion
      have := hγ0 t
      field_simp))
    (fun t ht => ((hz.px t ht).div_const P).congr_deriv (by
      unfold Push.motion
      rw [hf]
      dsimp only
      rw [show k.c * (-kk * (g / P) * (z t).x) = -(kk * g) * k.c * (z t).x / P by ring, ← hkk]
      ring))
    (fun t ht => ((hz.py t ht).div_const P).congr_deriv (by
      unfold Push.motion
      rw [hf]
      dsimp only
      rw [show k.c * (-kk * (g / P) * (z t).y) = -(kk * g) * k.c * (z t).y / P by ring, ← hkk]
      ring)) hx0 hy0 hpx0 hpy0
  rw [hcT] at apr close
  unfold rest
  dsimp only
  have hB0 : 0 < Real.exp (2 * (1 + kmax) * L) := Real.exp_pos _
  generalize Real.exp (2 * (1 + kmax) * L) = B at *
  have h6 : 3 * E + 5 * (ε * B) ^ 2 ≤ (3 + 5 * B ^ 2) * (E + ε ^ 2) := by
    have : 0 ≤ B ^ 2 * E := by positivity
    nlinarith only [this, sq_nonneg ε]
  have hN : 0 ≤ (3 + 5 * B ^ 2) * (E + ε ^ 2) := by positivity
  have hres : ∀ t ∈ Icc 0 T, |P / (z t).gamma - 1| ≤ (2 + kmax) * (3 + 5 * B ^ 2) * (E + ε ^ 2) ∧
      |kk * (g / P - 1)| ≤ (2 + kmax) * (3 + 5 * B ^ 2) * (E + ε ^ 2) := by
    intro t ht
    have n1 : 0 ≤ kmax * ((3 + 5 * B ^ 2) * (E + ε ^ 2)) := by positivity
    constructor
    · have h1 := sq_le_sq' (abs_le.mp (apr t ht).1).1 (abs_le.mp (apr t ht).1).2
      have h2 := sq_le_sq' (abs_le.mp (apr t ht).2).1 (abs_le.mp (apr t ht).2).2
      rw [div_pow, div_le_iff₀ hP20] at h1 h2
      have h3 : 1 = E * P ^ 2 := by rw [hP2i]; field_simp
      have h4 := hγ2 t
      rw [hpzc t ht] at h4
      have hεε : ε ^ 2 * P ^ 2 ≤ (ε * B) ^ 2 * P ^ 2 := by
        apply mul_le_mul_of_nonneg_right _ hP20.le
        rw [mul_pow]
        exact le_mul_of_one_le_right (sq_nonneg ε) (one_le_pow₀ hB1)
      have hdiff : |P ^ 2 - (z t).gamma ^ 2| ≤ (E + 2 * (ε * B) ^ 2) * P ^ 2 := by
        refine abs_le.mpr ⟨?_, ?_⟩
        · linarith only [h1, h2, h3, h4, h20, hps, sq_nonneg (z 0).px, sq_nonneg (z 0).py]
        · have : 0 ≤ E * P ^ 2 := by positivity
          linarith only [q0.1, q0.2, hεε, h4, h20, hps, this, sq_nonneg (z t).px, sq_nonneg (z t).py]
      have hG := hγ0 t
      have hl := hlow t ht
      generalize (z t).gamma = G at *
      have e1 : |P / G - 1| * (G * (P + G)) = |P ^ 2 - G ^ 2| := by
        rw [← abs_of_pos (show 0 < G * (P + G) by positivity), ← abs_mul]
        congr 1
        field_simp
        ring
      have e2 : 3 / 4 * P ^ 2 ≤ G * (P + G) := by nlinarith only [hl, hp]
      have e3 := mul_le_mul_of_nonneg_left e2 (abs_nonneg (P / G - 1))
      have e4 : |P / G - 1| * (3 / 4) * P ^ 2 ≤ (E + 2 * (ε * B) ^ 2) * P ^ 2 := by linarith only [e1, e3, hdiff]
      have e5 := le_of_mul_le_mul_right e4 hP20
      have n2 := sq_nonneg (ε * B)
      linarith only [e5, h6, n1, n2, hN, hE0]
    · rw [abs_mul, abs_of_nonneg (by linarith only [hb1] : 0 ≤ g / P - 1)]
      have n2 := sq_nonneg (ε * B)
      have := mul_le_mul hs.strength (show g / P - 1 ≤ (3 + 5 * B ^ 2) * (E + ε ^ 2) by linarith only [hbE, h6, hE0, n2]) (by linarith only [hb1]) hkm
      linarith only [this, hN]
  intro t ht
  obtain ⟨h1, h2, h3, h4⟩ := close hres t ht
  have e1 : ε * ((2 + kmax) * (3 + 5 * B ^ 2) * (E + ε ^ 2)) * ((B + 2 * L * B ^ 2) * L * B) =
      (2 + kmax) * (3 + 5 * B ^ 2) * ((B + 2 * L * B ^ 2) * L * B) * ε * (E + ε ^ 2) := by ring
  rw [e1] at h1 h2 h3 h4
  exact ⟨h1, h2, h3, h4⟩

/-- Elementary functions, for focusing. -/
theorem quad_cos {κ : ℝ} (hκ : 0 < κ) (x0 u0 s : ℝ) :
    quadX (κ ^ 2) 0 x0 u0 s = x0 * Real.cos (κ * s) + u0 / κ * Real.sin (κ * s) ∧
    quadU (κ ^ 2) 0 x0 u0 s = u0 * Real.cos (κ * s) - κ * x0 * Real.sin (κ * s) := by
  have hq : TransferMatrix.csqrt (κ ^ 2) = (κ : ℂ) := by
    simp [TransferMatrix.csqrt, sq_nonneg, Real.sqrt_sq hκ.le]
  have hc : TransferMatrix.cosK (κ ^ 2) s = Real.cos (κ * s) := by
    unfold TransferMatrix.cosK
    rw [hq, ← Complex.ofReal_mul, Complex.cos_ofReal_re, mul_comm]
  have hs : TransferMatrix.sinK (κ ^ 2) s = Real.sin (κ * s) / κ := by
    unfold TransferMatrix.sinK
    rw [hq, if_pos (by exact_mod_cast hκ.ne'), ← Complex.ofReal_mul, ← Complex.ofReal_sin, ← Complex.ofReal_div, Complex.ofReal_re]
  unfold quadX quadU
  rw [hc, hs]
  constructor
  · field_simp
    ring
  · field_simp
    ring

/-! ### C169 -/

/-- The particle `p0` after the distance `s` of a betatron oscillation with the wavenumber `κ`, compared with the particle `p`: offsets and slopes differ by at most the part
`C (1 / (γ² - 1) + ε²)` of `ε`, apart from `K`. -/
structure Oscillates (C K ε κ s : ℝ) (p0 p : Ph) : Prop where
  x : |p.x - (p0.x * Real.cos (κ * s) + p0.px / √(p0.gamma ^ 2 - 1) / κ * Real.sin (κ * s))| ≤ C * ε * (1 / (p0.gamma ^ 2 - 1) + ε ^ 2) + K
  y : |p.y - (p0.y * Real.cos (κ * s) + p0.py / √(p0.gamma ^ 2 - 1) / κ * Real.sin (κ * s))| ≤ C * ε * (1 / (p0.gamma ^ 2 - 1) + ε ^ 2) + K
  px : |p.px - (p0.px * Real.cos (κ * s) - √(p0.gamma ^ 2 - 1) * κ * p0.x * Real.sin (κ * s))| ≤ √(p0.gamma ^ 2 - 1) * (C * ε * (1 / (p0.gamma ^ 2 - 1) + ε ^ 2)) + K
  py : |p.py - (p0.py * Real.cos (κ * s) - √(p0.gamma ^ 2 - 1) * κ * p0.y * Real.sin (κ * s))| ≤ √(p0.gamma ^ 2 - 1) * (C * ε * (1 / (p0.gamma ^ 2 - 1) + ε ^ 2)) + K

variable {F Φ : Type} [LinearOrder F]

/-- An element with the fields `fields`, of the length `L`, in which the particles of the bunch `b` oscillate with the wavenumbers `κ` given by `κ² γ = σ`. All outputs are compared, for all particles that
fly forward, have `γ² - 1 ≥ 4`, a wavenumber with `κ² ≤ kmax`, and offsets and slopes up to `ε ≤ ε0`; `K` does not depend on the steps `D` of the pusher. -/
def Channel (F Φ : Type) [LinearOrder F] (L kmax ε0 C c σ : ℝ) (fields : List PField) (b : Bunch) : Prop :=
  ∃ K, 0 ≤ K ∧ ∀ (fe : FieldElement.Elem F Φ) (D : ℝ) (m : ℕ), FieldElement.Through fe c (L / c) fields D → 0 < fe.nOut →
    (fe.pusher = "boris" ∧ m = 2 ∨ fe.pusher = "rk4" ∧ m = 4) → ∀ opmd fuel b0 φ r w, fe.track opmd fuel (.one b) b0 φ = .returned (r, w) →
    ∃ l : List Bunch, r = .one l ∧ l.length = fe.nOut + 1 ∧ ∀ i < b.n, ∀ κ ε, 0 < κ → κ ^ 2 * (b.ph i).gamma = σ → κ ^ 2 ≤ kmax → 4 ≤ (b.ph i).gamma ^ 2 - 1 →
      0 < (b.ph i).pz → ε ≤ ε0 → |(b.ph i).x| ≤ ε → |(b.ph i).y| ≤ ε → |(b.ph i).px / √((b.ph i).gamma ^ 2 - 1)| ≤ ε → |(b.ph i).py / √((b.ph i).gamma ^ 2 - 1)| ≤ ε →
      ∀ j ≤ fe.nOut, ∃ b', l[j]? = some b' ∧ Oscillates C (K * D ^ m) ε κ (j * (L / fe.nOut)) (b.ph i) (b'.ph i)

theorem channel_of_path {L kmax c σ : ℝ} (hL : 0 < L) (hk : 0 ≤ kmax) (hc : 0 < c) {fields : List PField} (hcd : ∀ n, Push.ContDiffFields n fields) {b : Bunch} (hfit : b.Fits)
    (hzi : b.zInjection = none)
    (hpath : ∀ (z : ℝ → Ph) (kk ε : ℝ), kk * (z 0).gamma = σ → Trajectory ⟨c, b.qSpecies, b.mSpecies⟩ fields (L / c) z → Starts L kmax kk ε (z 0) →
      ∀ t ∈ Icc 0 (L / c), Follows (rest L kmax) kk ε (c * t) (z 0) (z t)) :
    Channel F Φ L kmax (1 / (3 * Real.exp (2 * (1 + kmax) * L))) (rest L kmax) c σ fields b := by
  have hT : 0 < L / c := by positivity
  obtain ⟨z2, hz2, K2, hK2, a2⟩ := FieldElement.boris_second_order (F := F) (Φ := Φ) hc hT (hcd 2) b hfit hzi
  obtain ⟨z4, hz4, K4, hK4, a4⟩ := FieldElement.rk4_fourth_order (F := F) (Φ := Φ) hc hT (hcd 4) b hfit hzi
  refine ⟨K2 + K4, by positivity, fun fe D m hth hn hpm opmd fuel b0 φ r w hr => ?_⟩
  have hD := hth.D0
  have main : ∀ (z : ℕ → ℝ → Ph) (K : ℝ), K ≤ K2 + K4 → (∀ p, z p 0 = b.ph p ∧ Trajectory ⟨c, b.qSpecies, b.mSpecies⟩ fields (L / c) (z p)) →
      FieldElement.Accurate (.one b) r fe.nOut b (L / c) z (K * D ^ m) →
      ∃ l : List Bunch, r = .one l ∧ l.length = fe.nOut + 1 ∧ ∀ i < b.n, ∀ κ ε, 0 < κ → κ ^ 2 * (b.ph i).gamma = σ → κ ^ 2 ≤ kmax → 4 ≤ (b.ph i).gamma ^ 2 - 1 →
      0 < (b.ph i).pz → ε ≤ 1 / (3 * Real.exp (2 * (1 + kmax) * L)) → |(b.ph i).x| ≤ ε → |(b.ph i).y| ≤ ε → |(b.ph i).px / √((b.ph i).gamma ^ 2 - 1)| ≤ ε →
      |(b.ph i).py / √((b.ph i).gamma ^ 2 - 1)| ≤ ε →
      ∀ j ≤ fe.nOut, ∃ b', l[j]? = some b' ∧ Oscillates (rest L kmax) ((K2 + K4) * D ^ m) ε κ (j * (L / fe.nOut)) (b.ph i) (b'.ph i) := by
    rintro z K hK hz ⟨ls, g1, g2, g3⟩
    obtain ⟨l, j1, j2, j3⟩ := g3 0 rfl
    match ls, g2, g1, j1 with
    | [l'], _, g1, j1 =>
      obtain rfl : l' = l := Option.some.inj j1
      refine ⟨l', g1, j2, fun i hi κ ε hκ hκσ hκm hE hpz hε hx hy hpx hpy j hj => ?_⟩
      obtain ⟨b', i1, -, i3⟩ := j3 i hi j hj
      refine ⟨b', i1, ?_⟩
      have hn0 : (0 : ℝ) < fe.nOut := by exact_mod_cast hn
      have hjn : (j : ℝ) ≤ fe.nOut := by exact_mod_cast hj
      have ht : (j : ℝ) * (L / c / fe.nOut) ∈ Icc 0 (L / c) := by
        refine ⟨by positivity, ?_⟩
        calc (j : ℝ) * (L / c / fe.nOut) ≤ fe.nOut * (L / c / fe.nOut) := mul_le_mul_of_nonneg_right hjn (by positivity)
          _ = L / c := by field_simp
      have hsm : ε * (3 * Real.exp (2 * (1 + kmax) * L)) ≤ 1 := (le_div_iff₀ (by positivity)).mp hε
      have hst : Starts L kmax (κ ^ 2) ε (z i 0) := by
        rw [(hz i).1]
        exact ⟨by rwa [abs_of_nonneg (sq_nonneg κ)], hE, hpz, hsm, hx, hy, hpx, hpy⟩
      have hfo := hpath (z i) (κ ^ 2) ε (by rw [(hz i).1]; exact hκσ) (hz i).2 hst _ ht
      have hs : c * ((j : ℝ) * (L / c / fe.nOut)) = j * (L / fe.nOut) := by field_simp
      rw [hs, (hz i).1] at hfo
      obtain ⟨f1, f2, f3, f4⟩ := hfo
      have near := i3.mono (mul_le_mul_of_nonneg_right hK (pow_nonneg hD m))
      have hP : 0 < √((b.ph i).gamma ^ 2 - 1) := Real.sqrt_pos.mpr (by linarith)
      rw [(quad_cos hκ _ _ _).1] at f1 f3
      rw [(quad_cos hκ _ _ _).2] at f2 f4
      have tri : ∀ {u v w A B : ℝ}, |v - w| ≤ A → |u - v| ≤ B → |u - w| ≤ A + B := by
        intro u v w A B h1 h2
        have := abs_sub_le u v w
        linarith
      have mom : ∀ {A p0 x0 R C S : ℝ}, |A / √((b.ph i).gamma ^ 2 - 1) - (p0 / √((b.ph i).gamma ^ 2 - 1) * C - κ * x0 * S)| ≤ R →
          |A - (p0 * C - √((b.ph i).gamma ^ 2 - 1) * κ * x0 * S)| ≤ √((b.ph i).gamma ^ 2 - 1) * R := by
        intro A p0 x0 R C S h
        have e1 : A - (p0 * C - √((b.ph i).gamma ^ 2 - 1) * κ * x0 * S) =
            √((b.ph i).gamma ^ 2 - 1) * (A / √((b.ph i).gamma ^ 2 - 1) - (p0 / √((b.ph i).gamma ^ 2 - 1) * C - κ * x0 * S)) := by
          field_simp
        rw [e1, abs_mul, abs_of_pos hP]
        exact mul_le_mul_of_nonneg_left h hP.le
      exact ⟨tri f1 near.x, tri f3 near.y, tri (mom f2) near.px, tri (mom f4) near.py⟩
  rcases hpm with ⟨hp, rfl⟩ | ⟨hp, rfl⟩
  · exact main z2 K2 (by linarith) hz2 (a2 fe D hth hp opmd fuel (.one b) b0 φ r w hr)
  · exact main z4 K4 (by linarith) hz4 (a4 fe D hth hp opmd fuel (.one b) b0 φ r w hr)

/-- The fields of an `ActivePlasmaLens` without wakefields (active_plasma_lens.py 111-123). -/
noncomputable def lensFields (foc : ℝ) : List PField := [fun _ x y xi v => (lensField foc).gather1 x y xi v]

/-- The fields of a `PlasmaStage` with the model `focusing_blowout` (plasma_stage.py 118-122 and 130-140, focusing_blowout.py 8-27) in a plasma of uniform density `n`. -/
noncomputable def channelFields (k : Const) (n : ℝ) : List PField := [fun t x y xi v => (focusingBlowoutAt k (fun _ => n) t).gather1 x y xi v]

/-- **C169, lens.** Particles in a plasma lens without wakefields oscillate in both planes, each with the wavenumber `√(-q foc / (m c γ))` of its own energy. -/
theorem lens_betatron {L kmax : ℝ} (hL : 0 < L) (hk : 0 ≤ kmax) : ∃ ε0 C, 0 < ε0 ∧ 0 ≤ C ∧ ∀ (b : Bunch) (c foc : ℝ), 0 < c → b.Fits → b.zInjection = none →
    Channel F Φ L kmax ε0 C c (-(b.qSpecies * foc) / (b.mSpecies * c)) (lensFields foc) b := by
  refine ⟨1 / (3 * Real.exp (2 * (1 + kmax) * L)), rest L kmax, by positivity, rest_nonneg hL.le hk, fun b c foc hc hfit hzi => ?_⟩
  have hf : ∀ t p, Push.felt (lensFields foc) t p = ⟨0, 0, 0, foc * p.y, -(foc * p.x), 0⟩ := by
    intro t p
    simp [Push.felt, lensFields, lensField, LibField.gather1]
  refine channel_of_path hL hk hc (fun n => ?_) hfit hzi fun z kk ε hkk hz hs t ht => ?_
  · constructor <;> simp only [hf] <;> fun_prop
  · exact lens_path (k := ⟨c, b.qSpecies, b.mSpecies⟩) hc (by positivity) (by show c * (L / c) = L; field_simp) hf (by
      rw [hkk]
      show -(b.qSpecies / (b.mSpecies * c) * foc) = _
      ring) hz hs ht

/-- **C169, ion channel.** Electrons in a plasma stage with the model `focusing_blowout` and uniform density oscillate in both planes with the wavenumber `k_p / √(2 γ)` of an ion channel. -/
theorem channel_betatron {L kmax : ℝ} (hL : 0 < L) (hk : 0 ≤ kmax) : ∃ ε0 C, 0 < ε0 ∧ 0 ≤ C ∧ ∀ (b : Bunch) (k : Const) (n : ℝ), k.Pos → 0 ≤ n → b.Fits → b.zInjection = none →
    b.qSpecies = -k.e → b.mSpecies = k.me →
    Channel F Φ L kmax ε0 C k.c (n * k.e ^ 2 / (k.me * k.eps0) / k.c ^ 2 / 2) (channelFields k n) b := by
  refine ⟨1 / (3 * Real.exp (2 * (1 + kmax) * L)), rest L kmax, by positivity, rest_nonneg hL.le hk, fun b k n hp hn hfit hzi hq hm => ?_⟩
  have := hp.c
  have := hp.e
  have := hp.me
  have := hp.eps0
  have hf : ∀ t p, Push.felt (channelFields k n) t p =
      ⟨k.c * (k.me / (2 * k.e * k.c) * (n * k.e ^ 2 / (k.me * k.eps0))) * p.x, k.c * (k.me / (2 * k.e * k.c) * (n * k.e ^ 2 / (k.me * k.eps0))) * p.y, 0, 0, 0, 0⟩ := by
    intro t p
    have : √(n * k.e ^ 2 / (k.me * k.eps0)) ^ 2 = n * k.e ^ 2 / (k.me * k.eps0) := Real.sq_sqrt (by positivity)
    simp [Push.felt, channelFields, focusingBlowoutAt, LibField.gather1, this]
  refine channel_of_path hL hk hp.c (fun n => ?_) hfit hzi fun z kk ε hkk hz hs t ht => ?_
  · constructor <;> simp only [hf] <;> fun_prop
  · exact channel_path (k := ⟨k.c, b.qSpecies, b.mSpecies⟩) hp.c (by positivity) (by show k.c * (L / k.c) = L; field_simp) hf (by
      rw [hkk]
      show -(b.qSpecies / (b.mSpecies * k.c) * (k.me / (2 * k.e * k.c) * (n * k.e ^ 2 / (k.me * k.eps0)))) = _
      rw [hq, hm]
      field_simp) hz hs ht

/-- Units with `c = e = m = 1`. -/
def unitConst : Const := ⟨1, 1, 1, 1⟩

/-- Two electrons near 500 MeV, one of them with a small offset `ε`, in two metres of a lens with the gradient `1000`, or of a plasma of density `2000`, both in units of the electron: with any step `D` the
tracking returns, and after two metres the offset is `ε cos 2`, up to `2 · 10⁻⁶ C ε + C ε³ + K D²`. -/
example (sch : ℕ → Push.Sched) (hsch : ∀ n, (sch n).Valid n) :
    ∃ ε0 C, 0 < ε0 ∧ ∀ fields ∈ [lensFields 1000, channelFields unitConst 2000], ∀ ε, 0 < ε → ε ≤ ε0 →
      let b : Bunch := (Bunch.init 2 (fun _ => 1) (fun i => ⟨i * ε, 0, 0, 0, 0, √999999⟩) none 0 0 none none (-1) 1 0).1
      ∃ K, ∀ D, 0 < D → ∃ fuel w l b',
        ({ FieldElement.demo sch with felt := fun _ => fields, dtBunch := .one (some D), numFields := [] } : FieldElement.Elem ℝ Unit).track
          false fuel (.one b) b () = .returned (.one l, w) ∧ l[2]? = some b' ∧ |(b'.ph 1).x - ε * Real.cos 2| ≤ C * ε * (2 * 10⁻¹ ^ 6 + ε ^ 2) + K * D ^ 2 := by
  obtain ⟨ε1, C1, hε1, hC1, h1⟩ := lens_betatron (F := ℝ) (Φ := Unit) (L := 2) (kmax := 1) two_pos one_pos.le
  obtain ⟨ε2, C2, hε2, hC2, h2⟩ := channel_betatron (F := ℝ) (Φ := Unit) (L := 2) (kmax := 1) two_pos one_pos.le
  refine ⟨min ε1 ε2, max C1 C2, lt_min hε1 hε2, fun fields hmem ε hε hεε => ?_⟩
  intro b
  have hfit : b.Fits := ⟨fun _ h => (nomatch h), fun _ h => (nomatch h)⟩
  have hch : ∃ ε0 C, ε ≤ ε0 ∧ C ≤ max C1 C2 ∧ Channel ℝ Unit 2 1 ε0 C 1 1000 fields b := by
    rcases List.mem_cons.mp hmem with rfl | hm
    · refine ⟨ε1, C1, hεε.trans (min_le_left _ _), le_max_left _ _, ?_⟩
      have := h1 b 1 1000 one_pos hfit rfl
      norm_num [b, Bunch.init] at this ⊢
      exact this
    · obtain rfl := List.mem_singleton.mp hm
      refine ⟨ε2, C2, hεε.trans (min_le_right _ _), le_max_right _ _, ?_⟩
      have := h2 b unitConst 2000 ⟨by norm_num [unitConst], by norm_num [unitConst], by norm_num [unitConst], by norm_num [unitConst]⟩ (by norm_num) hfit rfl
        (by norm_num [b, Bunch.init, unitConst]) (by norm_num [b, Bunch.init, unitConst])
      norm_num [unitConst] at this ⊢
      exact this
  obtain ⟨ε0, C, hε0, hCC, K, hK, h⟩ := hch
  refine ⟨K, fun D hD => ?_⟩
  have hok : ({ FieldElement.demo sch with felt := fun _ => fields, dtBunch := .one (some D), numFields := [] } : FieldElement.Elem ℝ Unit).Ok :=
    { FieldElement.demo_ok sch with
      steps := by
        intro d hd
        have hd : some d = some D := List.mem_singleton.mp hd
        rw [Option.some.inj hd]
        exact hD
      fields := by intro x hx; cases hx }
  have hth : FieldElement.Through ({ FieldElement.demo sch with felt := fun _ => fields, dtBunch := .one (some D), numFields := [] } : FieldElement.Elem ℝ Unit)
      1 (2 / 1) fields D :=
    { ok := hok, f32 := strictMono_id, sch := hsch, push := rfl, light := rfl, length := by norm_num [FieldElement.demo], felt := fun _ => rfl, D0 := hD.le
      fixed := by
        intro d hd
        have hd : some d = some D := List.mem_singleton.mp hd
        exact (Option.some.inj hd).le
      auto := by
        intro hn
        have hn : (none : Option ℝ) = some D := List.mem_singleton.mp hn
        cases hn }
  obtain ⟨fuel, ⟨r, w⟩, hr⟩ := FieldElement.track_returns hok strictMono_id (by norm_num [FieldElement.demo]) (δ := 1 / 5) (by norm_num)
    (fun b => by simp only [FieldElement.demo]; nlinarith [sq_nonneg b.propDistance]) (.one b) (by intro l hl; cases hl) false b ()
  obtain ⟨l, rfl, h2, h3⟩ := h _ D 2 hth (by norm_num [FieldElement.demo]) (Or.inl ⟨rfl, rfl⟩) false fuel b () _ _ hr
  have hγ : (b.ph 1).gamma = 1000 := by
    have h9 : √(999999 : ℝ) ^ 2 = 999999 := Real.sq_sqrt (by norm_num)
    simp only [b, Bunch.init, Push.Ph.gamma, h9]
    rw [show (1 : ℝ) + 0 ^ 2 + 0 ^ 2 + 999999 = 1000 ^ 2 by norm_num]
    exact Real.sqrt_sq (by norm_num)
  obtain ⟨b', j1, j2⟩ := h3 1 (by norm_num [b, Bunch.init]) 1 ε one_pos (by rw [hγ]; norm_num) (by norm_num) (by rw [hγ]; norm_num)
    (by simp [b, Bunch.init]) hε0 (by simp [b, Bunch.init, abs_of_pos hε]) (by simpa [b, Bunch.init] using hε.le) (by simpa [b, Bunch.init] using hε.le)
    (by simpa [b, Bunch.init] using hε.le) 2 (by norm_num [FieldElement.demo])
  refine ⟨fuel, w, l, b', hr, j1, ?_⟩
  have hx := j2.x
  rw [hγ] at hx
  have e1 : (b.ph 1).x = ε := by simp [b, Bunch.init]
  have e2 : (b.ph 1).px = 0 := by simp [b, Bunch.init]
  have e3 : (1 : ℝ) * (((2 : ℕ) : ℝ) * (2 / (FieldElement.demo sch).nOut)) = 2 := by norm_num [FieldElement.demo]
  rw [e1, e2] at hx
  dsimp only at hx
  rw [e3, zero_div, zero_div, zero_mul, add_zero] at hx
  refine hx.trans ?_
  have k3 : (1 : ℝ) / (1000 ^ 2 - 1) + ε ^ 2 ≤ 2 * 10⁻¹ ^ 6 + ε ^ 2 := by
    have : (1 : ℝ) / (1000 ^ 2 - 1) ≤ 2 * 10⁻¹ ^ 6 := by norm_num
    linarith
  have k4 := mul_le_mul (mul_le_mul_of_nonneg_right hCC hε.le) k3 (by positivity) (mul_nonneg (hC1.trans (le_max_left _ _)) hε.le)
  linarith

end WakeT.Stage
