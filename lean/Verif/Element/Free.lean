import Verif.Element.Props
import Verif.TransferMatrix.Turned
import Verif.Tracker.FieldElement

/-! # Drifts and elements without fields (C163)

A `Drift` is tracked with transfer matrices, an element without fields by the pushers. -/

set_option linter.unusedSectionVars false

namespace WakeT.Element

open CSR (Elem Calc)
open Bunch (Bunch average init)
open TransferMatrix
open Diag (Diag)
open Push (Ph)
open Matrix

/-! ### Estimates -/

/-- Transverse: `s` is the slope, `b` the inverse of the reference velocity, `d` the relative deviation of the energy. -/
theorem slope_estimate {b ε δ s : ℝ} (hb : 1 ≤ b) (hε : ε = b ^ 2 - 1) (h4 : ε ≤ 1 / 4) (hd : |δ| ≤ 1 / 4) :
    |s * ((b + δ) * (1 - b * δ) - 1)| ≤ 2 * |s| * (ε + δ ^ 2) ∧ |s * ((b + δ) - 1)| ≤ 2 * |s| * (ε + |δ|) := by
  have hb2 : b ≤ 9 / 8 := by nlinarith
  have h0 : 0 ≤ ε := by nlinarith
  have hb1 : b - 1 ≤ ε / 2 := by nlinarith
  have h5 := abs_nonneg δ
  constructor
  · rw [abs_mul, mul_comm 2 |s|, mul_assoc]
    refine mul_le_mul_of_nonneg_left ?_ (abs_nonneg s)
    have e : (b + δ) * (1 - b * δ) - 1 = (b - 1) - ε * δ - b * δ ^ 2 := by rw [hε]; ring
    rw [e]
    have h1 : |(b - 1) - ε * δ - b * δ ^ 2| ≤ |b - 1| + |ε * δ| + |b * δ ^ 2| :=
      (abs_sub _ _).trans (add_le_add_left (abs_sub _ _) _)
    rw [abs_of_nonneg (by linarith : 0 ≤ b - 1), abs_mul, abs_of_nonneg h0, abs_of_nonneg (by positivity : 0 ≤ b * δ ^ 2)] at h1
    nlinarith [mul_le_mul_of_nonneg_left hd h0, sq_nonneg δ]
  · rw [abs_mul, mul_comm 2 |s|, mul_assoc]
    refine mul_le_mul_of_nonneg_left ?_ (abs_nonneg s)
    have e : (b + δ) - 1 = (b - 1) + δ := by ring
    rw [e]
    have h1 := abs_add_le (b - 1) δ
    rw [abs_of_nonneg (by linarith : 0 ≤ b - 1)] at h1
    linarith

set_option maxHeartbeats 1000000 in
/-- Longitudinal: `bz` is the longitudinal velocity, `t2` the square of the slope in units of the reference momentum. -/
theorem slip_estimate {b ε δ t2 bz : ℝ} (hb : 1 ≤ b) (hε : ε = b ^ 2 - 1) (h4 : ε ≤ 1 / 4) (hd : |δ| ≤ 1 / 4) (ht : 0 ≤ t2) (ht8 : t2 ≤ 1 / 8)
    (hz : 0 ≤ bz) (hbz : bz ^ 2 * (b + δ) ^ 2 = (b + δ) ^ 2 - ε - t2) :
    |ε * δ - b * t2 / 2 - 3 / 2 * b * ε * δ ^ 2 + (1 / b - bz)| ≤ 15 * (ε * (ε * |δ| + |δ| ^ 3) + t2 * (ε + |δ| + t2)) ∧
    |ε * δ + (1 / b - bz)| ≤ 15 * (ε * (ε * |δ| + |δ| ^ 2) + t2) := by
  have hb2 : b ≤ 9 / 8 := by nlinarith only [hb, hε, h4]
  have h0 : 0 ≤ ε := by nlinarith only [hb, hε]
  have hb0 : 0 < b := by linarith
  obtain ⟨hd1, hd2⟩ := abs_le.mp hd
  set d := |δ| with hdd
  have hd0 : 0 ≤ d := abs_nonneg δ
  have hδ2 : δ ^ 2 = d ^ 2 := (sq_abs δ).symm
  set u := b + δ with hu
  have hu1 : 3 / 4 ≤ u := by linarith
  have hu0 : 0 < u := by linarith
  have hu2 : 9 / 16 ≤ u ^ 2 := by nlinarith only [hu1]
  have hiu : 1 / u ^ 2 ≤ 16 / 9 := by
    rw [div_le_iff₀ (by positivity)]; linarith
  have hiu0 : 0 < 1 / u ^ 2 := by positivity
  set iu := 1 / u ^ 2 with hiud
  have hiuu : iu * u ^ 2 = 1 := by rw [hiud]; field_simp
  -- the numerator
  set N := (ε + t2) * iu - ε / b ^ 2 with hN
  have hbz2 : bz ^ 2 = 1 - (ε + t2) * iu := by
    have : bz ^ 2 * (u ^ 2 * iu) = u ^ 2 * iu - (ε + t2) * iu := by linear_combination iu * hbz
    rwa [mul_comm (u ^ 2) iu, hiuu, mul_one] at this
  have hib : (1 / b) ^ 2 = 1 - ε / b ^ 2 := by
    rw [hε]; field_simp; ring
  have hD : 0 < 1 / b + bz := by positivity
  have hND : (1 / b - bz) * (1 / b + bz) = N := by
    rw [hN]; linear_combination hib - hbz2
  have hDb : 1 ≤ b * (1 / b + bz) := by
    have : b * (1 / b + bz) = 1 + b * bz := by field_simp
    rw [this]; linarith only [mul_nonneg hb0.le hz]
  clear_value N iu u d
  -- small quantities
  have hN' : |1 / b - bz| ≤ b * |N| := by
    rw [← hND, abs_mul, abs_of_pos hD]
    have := mul_le_mul_of_nonneg_left hDb (abs_nonneg (1 / b - bz))
    linarith only [this]
  have hu2' : |1 - u ^ 2| ≤ ε + 5 / 2 * d := by
    have e : 1 - u ^ 2 = -(ε + 2 * b * δ + δ ^ 2) := by rw [hu, hε]; ring
    rw [e, abs_neg, hδ2]
    have h1 : |ε + 2 * b * δ + δ ^ 2| ≤ |ε| + |2 * b * δ| + |δ ^ 2| := (abs_add_le _ _).trans (add_le_add_left (abs_add_le _ _) _)
    rw [abs_of_nonneg h0, abs_mul, abs_of_nonneg (by positivity : 0 ≤ 2 * b), abs_of_nonneg (sq_nonneg δ), hδ2, ← hdd] at h1
    nlinarith only [h1, hd0, hd, hb2, mul_nonneg hd0 (sub_nonneg.mpr hd), mul_nonneg hd0 (sub_nonneg.mpr hb2)]
  have hT : |t2 * iu - t2| ≤ t2 * (2 * ε + 9 / 2 * d) := by
    have e : t2 * iu - t2 = t2 * (iu * (1 - u ^ 2)) := by linear_combination t2 * hiuu
    rw [e, abs_mul, abs_of_nonneg ht, abs_mul, abs_of_pos hiu0]
    refine mul_le_mul_of_nonneg_left ?_ ht
    have := mul_le_mul hiu hu2' (abs_nonneg _) (by norm_num)
    linarith
  have hib2 : 1 / b ^ 2 ≤ 1 := by
    rw [div_le_one (by positivity)]; nlinarith only [hb]
  have hib0 : 0 < 1 / b ^ 2 := by positivity
  -- second order in the energy
  set F := 2 * b * ε + δ * (-2 * ε - 3 * ε ^ 2) + δ ^ 2 * (-4 * b - 6 * b * ε) - 3 * b ^ 2 * δ ^ 3 with hF
  have hFb : |F| ≤ 3 * ε + 36 / 5 * d ^ 2 := by
    have h1 : |F| ≤ |2 * b * ε| + |δ * (-2 * ε - 3 * ε ^ 2)| + |δ ^ 2 * (-4 * b - 6 * b * ε)| + |3 * b ^ 2 * δ ^ 3| := by
      refine (abs_sub _ _).trans (add_le_add_left ?_ _)
      exact (abs_add_le _ _).trans (add_le_add_left (abs_add_le _ _) _)
    have e2 : |δ * (-2 * ε - 3 * ε ^ 2)| = d * (2 * ε + 3 * ε ^ 2) := by
      rw [abs_mul, ← hdd, ← abs_neg (-2 * ε - 3 * ε ^ 2), abs_of_nonneg (by nlinarith only [h0, sq_nonneg ε])]; ring
    have e3 : |δ ^ 2 * (-4 * b - 6 * b * ε)| = d ^ 2 * (4 * b + 6 * b * ε) := by
      rw [abs_mul, abs_of_nonneg (sq_nonneg δ), hδ2, ← abs_neg (-4 * b - 6 * b * ε), abs_of_nonneg (by nlinarith only [hb0, mul_nonneg hb0.le h0])]; ring
    have e4 : |3 * b ^ 2 * δ ^ 3| = 3 * b ^ 2 * d ^ 3 := by
      rw [abs_mul, abs_pow, abs_of_nonneg (by positivity), ← hdd]
    rw [abs_of_nonneg (by positivity : 0 ≤ 2 * b * ε), e2, e3, e4] at h1
    have q1 : 2 * b * ε ≤ 9 / 4 * ε := by linarith only [mul_le_mul_of_nonneg_right hb2 h0]
    have q2 : d * (2 * ε + 3 * ε ^ 2) ≤ 11 / 16 * ε := by
      have : 2 * ε + 3 * ε ^ 2 ≤ 11 / 4 * ε := by linarith only [mul_le_mul_of_nonneg_left h4 h0, sq ε]
      linarith only [mul_le_mul_of_nonneg_left this hd0, mul_le_mul_of_nonneg_right hd h0]
    have q3 : d ^ 2 * (4 * b + 6 * b * ε) ≤ 99 / 16 * d ^ 2 := by
      have : 4 * b + 6 * b * ε ≤ 99 / 16 := by linarith only [mul_le_mul hb2 h4 h0 (by norm_num), hb2]
      linarith only [mul_le_mul_of_nonneg_left this (sq_nonneg d)]
    have q4 : 3 * b ^ 2 * d ^ 3 ≤ 15 / 16 * d ^ 2 := by
      have r1 : b ^ 2 ≤ 5 / 4 := by linarith only [hε, h4]
      have r2 : d ^ 3 ≤ d ^ 2 / 4 := by linarith only [mul_le_mul_of_nonneg_right hd (sq_nonneg d)]
      have r3 : 0 ≤ d ^ 3 := by positivity
      linarith only [mul_le_mul_of_nonneg_right r1 r3, r2]
    linarith only [h0, h1, q1, q2, q3, q4, sq_nonneg d]
  set E := iu - 1 / b ^ 2 + 2 * δ / b - 3 * δ ^ 2 with hE
  have hEF : E = δ * F * (iu * (1 / b ^ 2)) := by
    rw [hE, hF, hiud, hu, hε]
    have : b + δ ≠ 0 := hu ▸ hu0.ne'
    field_simp
    ring
  have hEb : |E| ≤ 16 / 3 * (ε * d) + 64 / 5 * d ^ 3 := by
    rw [hEF, abs_mul, abs_mul, ← hdd, abs_of_pos (by positivity : 0 < iu * (1 / b ^ 2))]
    have h1 : iu * (1 / b ^ 2) ≤ 16 / 9 := by
      linarith only [mul_le_mul hiu hib2 hib0.le (by norm_num)]
    have h2 : d * |F| ≤ d * (3 * ε + 36 / 5 * d ^ 2) := mul_le_mul_of_nonneg_left hFb hd0
    have h3 := mul_le_mul h2 h1 (by positivity) (by positivity)
    linarith only [h3]
  -- the two main terms
  set X := -(ε * δ) + b * t2 / 2 + 3 / 2 * b * ε * δ ^ 2 with hX
  have hXb : |X| ≤ 3 / 2 * (ε * d) + 3 / 5 * t2 := by
    have h1 : |X| ≤ |-(ε * δ)| + |b * t2 / 2| + |3 / 2 * b * ε * δ ^ 2| := (abs_add_le _ _).trans (add_le_add_left (abs_add_le _ _) _)
    rw [abs_neg, abs_mul, abs_of_nonneg h0, ← hdd, abs_of_nonneg (by positivity : 0 ≤ b * t2 / 2),
      abs_of_nonneg (by positivity : 0 ≤ 3 / 2 * b * ε * δ ^ 2), hδ2] at h1
    have q1 : b * t2 / 2 ≤ 9 / 16 * t2 := by linarith only [mul_le_mul_of_nonneg_right hb2 ht]
    have q2 : 3 / 2 * b * ε * d ^ 2 ≤ 27 / 64 * (ε * d) := by
      have r1 : b * d ≤ 9 / 32 := by linarith only [mul_le_mul hb2 hd hd0 (by norm_num)]
      have r2 : 0 ≤ ε * d := by positivity
      linarith only [mul_le_mul_of_nonneg_right r1 r2]
    linarith only [h1, q1, q2, mul_nonneg h0 hd0, ht]
  have hNb : |N| ≤ 2 * t2 + 9 / 2 * (ε * d) := by
    have e : N = t2 * iu - ε * (δ * (2 * b + δ) * (iu * (1 / b ^ 2))) := by
      rw [hN, hiud, hu]
      have : b + δ ≠ 0 := hu ▸ hu0.ne'
      field_simp
      ring
    have h1 : |N| ≤ |t2 * iu| + |ε * (δ * (2 * b + δ) * (iu * (1 / b ^ 2)))| := by rw [e]; exact abs_sub _ _
    have h2 : iu * (1 / b ^ 2) ≤ 16 / 9 := by
      linarith only [mul_le_mul hiu hib2 hib0.le (by norm_num)]
    rw [abs_of_nonneg (by positivity : 0 ≤ t2 * iu), abs_mul, abs_of_nonneg h0, abs_mul, abs_mul, ← hdd,
      abs_of_pos (by positivity : 0 < iu * (1 / b ^ 2)), abs_of_pos (by linarith : 0 < 2 * b + δ)] at h1
    have q1 : t2 * iu ≤ 2 * t2 := by linarith only [mul_le_mul_of_nonneg_left hiu ht, ht]
    have q2 : (2 * b + δ) * (iu * (1 / b ^ 2)) ≤ 9 / 2 := by
      have := mul_le_mul (show 2 * b + δ ≤ 5 / 2 by linarith) h2 (by positivity) (by norm_num)
      linarith
    have q3 : ε * (d * (2 * b + δ) * (iu * (1 / b ^ 2))) ≤ 9 / 2 * (ε * d) := by
      have r2 : 0 ≤ ε * d := by positivity
      linarith only [mul_le_mul_of_nonneg_left q2 r2]
    linarith only [h1, q1, q3]
  have main : |(1 / b - bz) - X| ≤ 9 / 8 * (t2 * (2 * ε + 9 / 2 * d) + ε * (16 / 3 * (ε * d) + 64 / 5 * d ^ 3)
      + (3 / 2 * (ε * d) + 3 / 5 * t2) * (9 / 8 * (2 * t2 + 9 / 2 * (ε * d)))) := by
    have e : ((1 / b - bz) - X) * (1 / b + bz) = (t2 * iu - t2) + ε * E - X * (bz - 1 / b) := by
      have hε' : b * b = 1 + ε := by rw [hε]; ring
      rw [sub_mul, hND, hN, hE, hX]
      field_simp
      ring
    have h1 : |((1 / b - bz) - X) * (1 / b + bz)| ≤ |t2 * iu - t2| + |ε * E| + |X * (bz - 1 / b)| := by
      rw [e]; exact (abs_sub _ _).trans (add_le_add_left (abs_add_le _ _) _)
    rw [abs_mul, abs_of_pos hD, abs_mul ε, abs_of_nonneg h0, abs_mul X, abs_sub_comm bz] at h1
    have h2 : |X| * |1 / b - bz| ≤ (3 / 2 * (ε * d) + 3 / 5 * t2) * (9 / 8 * (2 * t2 + 9 / 2 * (ε * d))) := by
      refine mul_le_mul hXb (hN'.trans ?_) (abs_nonneg _) (by positivity)
      exact mul_le_mul hb2 hNb (abs_nonneg _) (by norm_num)
    have h3 := mul_le_mul_of_nonneg_left hEb h0
    set R := t2 * (2 * ε + 9 / 2 * d) + ε * (16 / 3 * (ε * d) + 64 / 5 * d ^ 3)
      + (3 / 2 * (ε * d) + 3 / 5 * t2) * (9 / 8 * (2 * t2 + 9 / 2 * (ε * d))) with hR
    have hR0 : |(1 / b - bz) - X| * (1 / b + bz) ≤ R := by linarith
    have h5 : 0 ≤ R := le_trans (by positivity) hR0
    have h6 := abs_nonneg ((1 / b - bz) - X)
    calc |(1 / b - bz) - X| ≤ |(1 / b - bz) - X| * (b * (1 / b + bz)) := le_mul_of_one_le_right h6 hDb
      _ = b * (|(1 / b - bz) - X| * (1 / b + bz)) := by ring
      _ ≤ b * R := mul_le_mul_of_nonneg_left hR0 hb0.le
      _ ≤ 9 / 8 * R := mul_le_mul_of_nonneg_right hb2 h5
  have p1 : 0 ≤ ε * d := by positivity
  have p2 : ε * d * (ε * d) ≤ 1 / 4 * (ε * (ε * d)) := by linarith only [mul_le_mul_of_nonneg_right hd (mul_nonneg h0 p1), mul_nonneg h0 p1]
  have p3 : (ε * d) * t2 ≤ 1 / 4 * (t2 * ε) := by linarith only [mul_le_mul_of_nonneg_left hd (mul_nonneg h0 ht)]
  have p4 : 0 ≤ ε * (ε * d) := by positivity
  have p5 : 0 ≤ ε * d ^ 3 := by positivity
  have p6 : 0 ≤ t2 * ε := by positivity
  have p7 : 0 ≤ t2 * d := by positivity
  have p8 : 0 ≤ t2 * t2 := by positivity
  have first : |(1 / b - bz) - X| ≤ 14.5 * (ε * (ε * d + d ^ 3) + t2 * (ε + d + t2)) := by
    refine main.trans ?_
    linarith only [p2, p3, p4, p5, p6, p7, p8]
  constructor
  · have e : ε * δ - b * t2 / 2 - 3 / 2 * b * ε * δ ^ 2 + (1 / b - bz) = (1 / b - bz) - X := by rw [hX]; ring
    rw [e]
    refine first.trans ?_
    linarith only [p4, p5, p6, p7, p8]
  · have e : ε * δ + (1 / b - bz) = ((1 / b - bz) - X) + (b * t2 / 2 + 3 / 2 * b * ε * δ ^ 2) := by rw [hX]; ring
    rw [e]
    refine (abs_add_le _ _).trans ?_
    rw [abs_of_nonneg (by positivity : 0 ≤ b * t2 / 2 + 3 / 2 * b * ε * δ ^ 2), hδ2]
    have q1 : b * t2 / 2 ≤ 9 / 16 * t2 := by linarith only [mul_le_mul_of_nonneg_right hb2 ht]
    have q2 : 3 / 2 * b * ε * d ^ 2 ≤ 27 / 16 * (ε * d ^ 2) := by
      have : 0 ≤ ε * d ^ 2 := by positivity
      linarith only [mul_le_mul_of_nonneg_right hb2 this]
    have q3 : ε * d ^ 3 ≤ 1 / 4 * (ε * d ^ 2) := by
      have : 0 ≤ ε * d ^ 2 := by positivity
      linarith only [mul_le_mul_of_nonneg_left hd this]
    have q4 : t2 * ε ≤ 1 / 4 * t2 := by linarith only [mul_le_mul_of_nonneg_left h4 ht]
    have q5 : t2 * d ≤ 1 / 4 * t2 := by linarith only [mul_le_mul_of_nonneg_left hd ht]
    have q6 : t2 * t2 ≤ 1 / 8 * t2 := by linarith only [mul_le_mul_of_nonneg_left ht8 ht]
    have q7 : 0 ≤ ε * d ^ 2 := by positivity
    linarith only [first, q1, q2, q3, q4, q5, q6, q7, p4, ht]

/-! ### The transfer map of a drift -/

variable (env : Env) {e : Elem} (csr : Calc) {b : Bunch} (d : Option Diag) (o : Opts)

theorem beta_eq {g : ℝ} (hg : 1 < g) : beta g = √(g ^ 2 - 1) / g := by
  unfold beta igamma2
  rw [if_pos (by linarith : g ≠ 0), show 1 - 1 / (g * g) = (g ^ 2 - 1) / g ^ 2 by field_simp, Real.sqrt_div' _ (by positivity),
    Real.sqrt_sq (by linarith)]

/-- Bunch behind a drift on the axis. -/
theorem drift_track (hc : e.csrOn = false) (hθ : e.theta = 0) (hk1 : e.k1 = 0) (hk2 : e.k2 = 0) (ht : Trackable e o)
    (ho : o.backtrack = false) (hno : e.nOut = none → o.outInitial = false) (h0 : b.thetaRef = 0) (h1 : b.xRef = 0)
    {g : ℝ} (hgam : gammaOf e b = g) (hg : 1 < g) (i : ℕ) (hz : 0 ≤ (b.ph i).pz) :
    let δ := ((b.ph i).gamma - g) / √(g ^ 2 - 1)
    let q := (track env e csr b d o).bunch.ph i
    q.px = (b.ph i).px ∧ q.py = (b.ph i).py ∧ q.pz = (b.ph i).pz ∧
    (e.order = 2 →
      q.x = (b.ph i).x + e.length * ((b.ph i).px / √(g ^ 2 - 1) * (1 - g / √(g ^ 2 - 1) * δ)) ∧
      q.y = (b.ph i).y + e.length * ((b.ph i).py / √(g ^ 2 - 1) * (1 - g / √(g ^ 2 - 1) * δ)) ∧
      q.xi = (b.ph i).xi + e.length * (1 / (g ^ 2 - 1) * δ - g / √(g ^ 2 - 1) * (((b.ph i).px ^ 2 + (b.ph i).py ^ 2) / (g ^ 2 - 1)) / 2
        - 3 / 2 * (g / √(g ^ 2 - 1)) * (1 / (g ^ 2 - 1)) * δ ^ 2)) ∧
    (e.order ≠ 2 →
      q.x = (b.ph i).x + e.length * ((b.ph i).px / √(g ^ 2 - 1)) ∧ q.y = (b.ph i).y + e.length * ((b.ph i).py / √(g ^ 2 - 1)) ∧
      q.xi = (b.ph i).xi + e.length * (1 / (g ^ 2 - 1) * δ)) := by
  intro δ q
  have hG : GammaOk g := Or.inr hg
  have hp2 : 0 < g ^ 2 - 1 := by nlinarith
  set p0 := √(g ^ 2 - 1) with hp0
  have hp : 0 < p0 := Real.sqrt_pos.mpr hp2
  have hps : p0 ^ 2 = g ^ 2 - 1 := Real.sq_sqrt hp2.le
  have hβ : beta g = p0 / g := beta_eq hg
  have hig : igamma2 g = 1 / (g * g) := if_pos (by linarith : g ≠ 0)
  have hg0 : (0 : ℝ) < g := by linarith
  have hcomp : ∀ z1 z2 v, transferMap z2 e.length (-e.theta) e.k1 e.k2 (gammaOf e b) e.order
      (transferMap z1 e.length (-e.theta) e.k1 e.k2 (gammaOf e b) e.order v) =
        transferMap (z1 + z2) e.length (-e.theta) e.k1 e.k2 (gammaOf e b) e.order v := by
    intro z1 z2 v
    by_cases h2 : e.order = 2
    · rw [hθ, hk1, hk2, h2, neg_zero, hgam]
      exact second_order_drift_compose z1 z2 _ _ ht.length hG v
    · rw [hgam]
      exact transferMap_compose h2 ht.length hG z1 z2 v
  have hq : q = (finish e b g fun i => transferMap e.length e.length 0 0 0 g e.order (toOcelot g (localCols b i))).ph i := by
    show (track env e csr b d o).bunch.ph i = _
    rw [track_finish ht (stepFits_of_off hc) ho hno, finalCols_compose hc ht.nOut hcomp, hgam, hθ, hk1, hk2, neg_zero]
  have hloc : localCols b i = ![(b.ph i).x, (b.ph i).px, (b.ph i).y, (b.ph i).py, (b.ph i).xi, (b.ph i).pz] := by
    unfold localCols
    dsimp only
    rw [if_neg (by simp [h0])]
    funext r
    fin_cases r <;> simp [Bunch.get6D, h1]
  have hgb : g * √(1 - 1 / g ^ 2) = p0 := by
    have := beta_eq hg
    unfold beta at this
    rw [hig] at this
    rw [show 1 / g ^ 2 = 1 / (g * g) by rw [sq], this, ← hp0]
    field_simp
  have hgam' : √(1 + (b.ph i).px ^ 2 + (b.ph i).py ^ 2 + (b.ph i).pz ^ 2) = (b.ph i).gamma := rfl
  have hoc : toOcelot g (localCols b i) = ![(b.ph i).x, (b.ph i).px / p0, (b.ph i).y, (b.ph i).py / p0, -(b.ph i).xi, δ] := by
    rw [hloc]
    unfold toOcelot
    dsimp only
    rw [hgb]
    funext r
    fin_cases r <;> simp [δ, ← hp0, hgam']
  set M := transferMap e.length e.length 0 0 0 g e.order (toOcelot g (localCols b i)) with hM
  have hq' : q = ⟨fromOcelot g M 0, fromOcelot g M 2, fromOcelot g M 4, fromOcelot g M 1, fromOcelot g M 3, fromOcelot g M 5⟩ := by
    rw [hq]
    unfold finish createBunch init reference
    simp [hθ, h0, h1, ← hM]
  have hmom : M 1 = (b.ph i).px / p0 ∧ M 3 = (b.ph i).py / p0 ∧ M 5 = δ := by
    rw [hM, hoc]
    unfold transferMap
    rw [linear_rows]
    split_ifs
    · simp [sext_rows]
    · simp
  have hgδ : δ * g * √(1 - 1 / g ^ 2) + g = (b.ph i).gamma := by
    rw [mul_assoc, hgb]
    show ((b.ph i).gamma - g) / p0 * p0 + g = _
    field_simp
    ring
  have hγ2 : (b.ph i).gamma ^ 2 = 1 + (b.ph i).px ^ 2 + (b.ph i).py ^ 2 + (b.ph i).pz ^ 2 := Real.sq_sqrt (by positivity)
  have f1 : (b.ph i).px / p0 * p0 = (b.ph i).px := div_mul_cancel₀ _ hp.ne'
  have f2 : (b.ph i).py / p0 * p0 = (b.ph i).py := div_mul_cancel₀ _ hp.ne'
  refine ⟨?_, ?_, ?_, fun h2 => ?_, fun h2 => ?_⟩
  · rw [hq']
    show M 1 * √(g ^ 2 - 1) = _
    rw [hmom.1, ← hp0, f1]
  · rw [hq']
    show M 3 * √(g ^ 2 - 1) = _
    rw [hmom.2.1, ← hp0, f2]
  · rw [hq']
    show √((M 5 * g * √(1 - 1 / g ^ 2) + g) ^ 2 - (M 1 * √(g ^ 2 - 1)) ^ 2 - (M 3 * √(g ^ 2 - 1)) ^ 2 - 1) = _
    rw [hmom.1, hmom.2.1, hmom.2.2, hgδ, ← hp0, f1, f2, hγ2]
    rw [show 1 + (b.ph i).px ^ 2 + (b.ph i).py ^ 2 + (b.ph i).pz ^ 2 - (b.ph i).px ^ 2 - (b.ph i).py ^ 2 - 1 = (b.ph i).pz ^ 2 by ring]
    exact Real.sqrt_sq hz
  · have hM0 : ∀ r, M r = (firstOrder e.length e.length 0 0 g *ᵥ toOcelot g (localCols b i)) r +
        ∑ j, ∑ k, secondOrder e.length e.length 0 0 0 g r j k * toOcelot g (localCols b i) j * toOcelot g (localCols b i) k := by
      intro r
      rw [hM]
      unfold transferMap
      rw [if_pos h2]
    rw [hq']
    refine ⟨?_, ?_, ?_⟩
    · show M 0 = _
      rw [hM0, linear_rows, sext_rows, hoc, hβ]
      simp
      field_simp
      ring
    · show M 2 = _
      rw [hM0, linear_rows, sext_rows, hoc, hβ]
      simp
      field_simp
      ring
    · show -M 4 = _
      rw [hM0, linear_rows, sext_rows, hoc, hβ, hig, ← hps]
      simp
      field_simp
      ring
  · have hM0 : M = firstOrder e.length e.length 0 0 g *ᵥ toOcelot g (localCols b i) := by
      rw [hM]
      unfold transferMap
      rw [if_neg h2]
    rw [hq']
    refine ⟨?_, ?_, ?_⟩
    · show M 0 = _
      rw [hM0, linear_rows, hoc]
      simp
    · show M 2 = _
      rw [hM0, linear_rows, hoc]
      simp
    · show -M 4 = _
      rw [hM0, linear_rows, hoc, hβ, hig, ← hps]
      simp
      field_simp
      ring

/-! ### C163 -/

/-- How close the particle `q` behind a drift of length `L`, with a map of the given order and the reference energy `g`, is to the freely flying particle `p`, which
was `p0` at the start: momenta are the same; positions differ by third (first order: second) powers of the slope and of the deviation of the energy, and by parts
`1 / (g² - 1)` of the slope and of the deviation of the energy; except for the slippage of the reference particle with respect to light, which the drift leaves out. -/
structure Agrees (order : ℕ) (g L : ℝ) (p0 q p : Ph) : Prop where
  px : q.px = p.px
  py : q.py = p.py
  pz : q.pz = p.pz
  x : |q.x - p.x| ≤ 2 * L * |p0.px / p0.gamma| * (1 / (g ^ 2 - 1) + |(p0.gamma - g) / √(g ^ 2 - 1)| ^ (if order = 2 then 2 else 1))
  y : |q.y - p.y| ≤ 2 * L * |p0.py / p0.gamma| * (1 / (g ^ 2 - 1) + |(p0.gamma - g) / √(g ^ 2 - 1)| ^ (if order = 2 then 2 else 1))
  xi : let ε := 1 / (g ^ 2 - 1)
    let δ := |(p0.gamma - g) / √(g ^ 2 - 1)|
    let t := (p0.px ^ 2 + p0.py ^ 2) / (g ^ 2 - 1)
    |q.xi - p.xi - L * (1 - √(g ^ 2 - 1) / g)| ≤
      if order = 2 then 15 * L * (ε * (ε * δ + δ ^ 3) + t * (ε + δ + t)) else 15 * L * (ε * (ε * δ + δ ^ 2) + t)

theorem drift_agrees_one (hc : e.csrOn = false) (hθ : e.theta = 0) (hk1 : e.k1 = 0) (hk2 : e.k2 = 0) (ht : Trackable e o) (hL : 0 < e.length)
    (ho : o.backtrack = false) (hno : e.nOut = none → o.outInitial = false) (h0 : b.thetaRef = 0) (h1 : b.xRef = 0)
    {g : ℝ} (hgam : gammaOf e b = g) (hg0 : 0 < g) (hg : 4 ≤ g ^ 2 - 1) (i : ℕ) (hz : 0 < (b.ph i).pz) (hδ : |((b.ph i).gamma - g) / √(g ^ 2 - 1)| ≤ 1 / 4)
    (hs : ((b.ph i).px ^ 2 + (b.ph i).py ^ 2) / (g ^ 2 - 1) ≤ 1 / 8) (k : Push.Const) (hk : 0 < k.c) :
    Agrees e.order g e.length (b.ph i) ((track env e csr b d o).bunch.ph i) ((b.ph i).drift k (e.length / k.c)) := by
  have hg1 : 1 < g := by nlinarith
  obtain ⟨a1, a2, a3, a4, a5⟩ := drift_track env csr d o hc hθ hk1 hk2 ht ho hno h0 h1 hgam hg1 i hz.le
  have hp2 : 0 < g ^ 2 - 1 := by linarith
  have hp : 0 < √(g ^ 2 - 1) := Real.sqrt_pos.mpr hp2
  have hps : √(g ^ 2 - 1) ^ 2 = g ^ 2 - 1 := Real.sq_sqrt hp2.le
  have hγ2 : (b.ph i).gamma ^ 2 = 1 + (b.ph i).px ^ 2 + (b.ph i).py ^ 2 + (b.ph i).pz ^ 2 := Real.sq_sqrt (by positivity)
  have hγ : 0 < (b.ph i).gamma := Real.sqrt_pos.mpr (by positivity)
  have hb1 : 1 ≤ g / √(g ^ 2 - 1) := by
    rw [le_div_iff₀ hp, one_mul]
    exact (Real.sqrt_le_left hg0.le).mpr (by linarith)
  have hε : 1 / (g ^ 2 - 1) = (g / √(g ^ 2 - 1)) ^ 2 - 1 := by
    rw [div_pow, hps]
    field_simp
    ring
  have hε4 : 1 / (g ^ 2 - 1) ≤ 1 / 4 := one_div_le_one_div_of_le (by norm_num) hg
  have hu : g / √(g ^ 2 - 1) + ((b.ph i).gamma - g) / √(g ^ 2 - 1) = (b.ph i).gamma / √(g ^ 2 - 1) := by
    field_simp
    ring
  have tr := fun s => slope_estimate (s := s) hb1 hε hε4 hδ
  have lo := slip_estimate (t2 := ((b.ph i).px ^ 2 + (b.ph i).py ^ 2) / (g ^ 2 - 1)) (bz := (b.ph i).pz / (b.ph i).gamma) hb1 hε hε4 hδ
    (by positivity) hs (by positivity) (by
      rw [hu, div_pow, div_pow, hps]
      field_simp
      linarith)
  rw [one_div_div] at lo
  have x1 : ∀ a : ℝ, e.length / k.c * (k.c * a / (b.ph i).gamma) = e.length * (a / (b.ph i).gamma) := by
    intro a
    field_simp
  have x2 : ∀ a : ℝ, a / √(g ^ 2 - 1) = a / (b.ph i).gamma * (g / √(g ^ 2 - 1) + ((b.ph i).gamma - g) / √(g ^ 2 - 1)) := by
    intro a
    rw [hu]
    field_simp
  have x3 : e.length / k.c * (k.c * (b.ph i).pz / (b.ph i).gamma - k.c) = e.length * ((b.ph i).pz / (b.ph i).gamma - 1) := by
    field_simp
  set q := (track env e csr b d o).bunch.ph i
  set γ := (b.ph i).gamma
  set δ := (γ - g) / √(g ^ 2 - 1) with hδd
  set B := g / √(g ^ 2 - 1) with hB
  have side : ∀ {X x pv : ℝ}, (e.order = 2 → X = x + e.length * (pv / √(g ^ 2 - 1) * (1 - B * δ))) →
      (e.order ≠ 2 → X = x + e.length * (pv / √(g ^ 2 - 1))) →
      |X - (x + e.length / k.c * (k.c * pv / γ))| ≤ 2 * e.length * |pv / γ| * (1 / (g ^ 2 - 1) + |δ| ^ (if e.order = 2 then 2 else 1)) := by
    intro X x pv h2 h1
    by_cases h : e.order = 2
    · rw [h2 h, x1, x2 pv, if_pos h, sq_abs,
        show x + e.length * (pv / γ * (B + δ) * (1 - B * δ)) - (x + e.length * (pv / γ)) = e.length * (pv / γ * ((B + δ) * (1 - B * δ) - 1)) by ring,
        abs_mul, abs_of_pos hL]
      have := mul_le_mul_of_nonneg_left (tr (pv / γ)).1 hL.le
      linarith
    · rw [h1 h, x1, x2 pv, if_neg h, pow_one,
        show x + e.length * (pv / γ * (B + δ)) - (x + e.length * (pv / γ)) = e.length * (pv / γ * ((B + δ) - 1)) by ring,
        abs_mul, abs_of_pos hL]
      have := mul_le_mul_of_nonneg_left (tr (pv / γ)).2 hL.le
      linarith
  refine ⟨a1, a2, a3, side (fun h => (a4 h).1) (fun h => (a5 h).1), side (fun h => (a4 h).2.1) (fun h => (a5 h).2.1), ?_⟩
  show |q.xi - ((b.ph i).xi + e.length / k.c * (k.c * (b.ph i).pz / γ - k.c)) - e.length * (1 - √(g ^ 2 - 1) / g)| ≤ _
  by_cases h : e.order = 2
  · rw [(a4 h).2.2, x3, if_pos h]
    have e1 : ∀ A : ℝ, (b.ph i).xi + e.length * A - ((b.ph i).xi + e.length * ((b.ph i).pz / γ - 1)) - e.length * (1 - √(g ^ 2 - 1) / g) =
        e.length * (A + (√(g ^ 2 - 1) / g - (b.ph i).pz / γ)) := fun A => by ring
    rw [e1, abs_mul, abs_of_pos hL]
    have := mul_le_mul_of_nonneg_left lo.1 hL.le
    linarith
  · rw [(a5 h).2.2, x3, if_neg h]
    have e1 : ∀ A : ℝ, (b.ph i).xi + e.length * A - ((b.ph i).xi + e.length * ((b.ph i).pz / γ - 1)) - e.length * (1 - √(g ^ 2 - 1) / g) =
        e.length * (A + (√(g ^ 2 - 1) / g - (b.ph i).pz / γ)) := fun A => by ring
    rw [e1, abs_mul, abs_of_pos hL]
    have := mul_le_mul_of_nonneg_left lo.2 hL.le
    linarith

variable {F Φ : Type} [LinearOrder F]

/-- **C163.** A drift that is tracked with transfer matrices and an element of the same length without fields, tracked with any pusher, time steps and number of
outputs, do the same to particles with small slopes and deviations of the energy. -/
theorem drift_agrees (hc : e.csrOn = false) (hθ : e.theta = 0) (hk1 : e.k1 = 0) (hk2 : e.k2 = 0) (ht : Trackable e o)
    (ho : o.backtrack = false) (hno : e.nOut = none → o.outInitial = false) (h0 : b.thetaRef = 0) (h1 : b.xRef = 0)
    {g : ℝ} (hgam : gammaOf e b = g) (hg0 : 0 < g) (hg : 4 ≤ g ^ 2 - 1)
    {fe : FieldElement.Elem F Φ} (hok : fe.Ok) (hpush : fe.pushBefore = true) (hp : fe.pusher = "rk4" ∨ fe.pusher = "boris")
    (hsch : ∀ n, (fe.sch n).Valid n) (hfree : ∀ φ t p, Push.felt (fe.felt φ) t p = ⟨0, 0, 0, 0, 0, 0⟩) (hL : fe.length = e.length) (hn : 0 < fe.nOut)
    (opmd : Bool) (fuel : ℕ) (hb : FieldElement.Ready b.n b) (b0 : Bunch) (φ : Φ) {r : FieldElement.OneOrMany (List Bunch)} {w : FieldElement.World Φ}
    (hr : fe.track opmd fuel (.one b) b0 φ = .returned (r, w)) :
    ∃ (l : List Bunch) (b' : Bunch), r = .one l ∧ l.getLast? = some b' ∧
      ∀ i < b.n, 0 < (b.ph i).pz → |((b.ph i).gamma - g) / √(g ^ 2 - 1)| ≤ 1 / 4 → ((b.ph i).px ^ 2 + (b.ph i).py ^ 2) / (g ^ 2 - 1) ≤ 1 / 8 →
        Agrees e.order g e.length (b.ph i) ((track env e csr b d o).bunch.ph i) (b'.ph i) := by
  obtain ⟨ls, g1, g2, g3⟩ := FieldElement.track_drift hok hpush hp hsch hfree opmd fuel (.one b)
    (by intro x hx; rw [List.mem_singleton.mp hx]; exact hb) b0 φ hr
  obtain ⟨l, k1, k2, k3⟩ := g3 0 b rfl
  obtain ⟨b', k4, k5⟩ := k3 fe.nOut le_rfl
  match ls, g2, g1, k1 with
  | [l'], _, g1, k1 =>
    obtain rfl : l' = l := Option.some.inj k1
    refine ⟨l', b', g1, ?_, fun i hi hz hδ hs => ?_⟩
    · rw [List.getLast?_eq_getElem?, k2]
      exact k4
    · have hdt : (fe.nOut : ℝ) * (fe.length / fe.c / fe.nOut) = e.length / fe.c := by
        have : (fe.nOut : ℝ) ≠ 0 := by exact_mod_cast hn.ne'
        rw [hL]
        field_simp
      rw [k5 i hi, hdt]
      exact drift_agrees_one env csr d o hc hθ hk1 hk2 ht (hL ▸ hok.length) ho hno h0 h1 hgam hg0 hg i hz hδ hs (b.const fe.c) hok.c

/-- Two electrons near 500 MeV, one of them with a slope of a milliradian, in two metres: the element without fields returns, and the positions of the electron with the slope
behind it and behind the drift differ by less than a tenth of a micrometre. -/
example (env : Env) (csr : Calc) (d : Option Diag) (sch : ℕ → Push.Sched) (hsch : ∀ n, (sch n).Valid n) :
    let b : Bunch := (init 2 (fun _ => 1) (fun i => ⟨i, 0, -i, i, 0, 1000⟩) none 0 0 none none (-1) 1 0).1
    let e : Elem := ⟨0, 2, 0, 0, 0, some 1000, false, some 3, 2, true⟩
    let fe : FieldElement.Elem ℝ Unit := { FieldElement.demo sch with dtBunch := .one none }
    ∃ fuel w l b', fe.track false fuel (.one b) b () = .returned (.one l, w) ∧ l.getLast? = some b' ∧
      |((track env e csr b d ⟨false, true, true⟩).bunch.ph 1).x - (b'.ph 1).x| ≤ 10⁻¹ ^ 7 := by
  intro b e fe
  have hok : fe.Ok :=
    { FieldElement.demo_ok sch with
      steps := by
        intro x hx
        simp [fe, FieldElement.OneOrMany.toList] at hx }
  obtain ⟨fuel, ⟨r, w⟩, hr⟩ := FieldElement.track_returns hok strictMono_id (by norm_num [fe, FieldElement.demo]) (δ := 1 / 5) (by norm_num)
    (fun b => by simp only [fe, FieldElement.demo]; nlinarith [sq_nonneg b.propDistance]) (.one b) (by intro l hl; cases hl) false b ()
  obtain ⟨l, b', rfl, h2, h3⟩ := drift_agrees (e := e) env csr d ⟨false, true, true⟩ rfl rfl rfl rfl
    ⟨by norm_num [e], by simp [e], fun _ => rfl⟩ rfl (by simp [e]) rfl rfl (g := 1000) (by simp [e, gammaOf]) (by norm_num) (by norm_num) hok rfl (Or.inr rfl)
    hsch (fun _ _ _ => rfl) (by norm_num [e, fe, FieldElement.demo]) (by norm_num [fe, FieldElement.demo]) false fuel
    ⟨rfl, by simp [b, init], by simp [b, init], by simp [b, init]⟩ b () hr
  refine ⟨fuel, w, l, b', hr, h2, ?_⟩
  have hγ : (b.ph 1).gamma = √1000002 := by
    simp only [b, init, Push.Ph.gamma]
    norm_num
  have g1 : (1000 : ℝ) ≤ √1000002 := Real.le_sqrt_of_sq_le (by norm_num)
  have g2 : √1000002 ≤ (1000 + 1 / 500 : ℝ) := Real.sqrt_le_iff.mpr (by norm_num)
  have g3 : (999 : ℝ) ≤ √(1000 ^ 2 - 1) := Real.le_sqrt_of_sq_le (by norm_num)
  have hδ : |((b.ph 1).gamma - 1000) / √(1000 ^ 2 - 1)| ≤ 1 / 10000 := by
    rw [hγ, abs_of_nonneg (div_nonneg (by linarith) (by linarith)), div_le_iff₀ (by linarith)]
    generalize √(1000 ^ 2 - 1) = P at g3 ⊢
    linarith
  have h := (h3 1 (by simp [b, init]) (by simp [b, init]) (hδ.trans (by norm_num)) (by norm_num [b, init])).x
  refine h.trans ?_
  rw [if_pos rfl]
  have k1 : |(b.ph 1).px / (b.ph 1).gamma| ≤ 1 / 1000 := by
    rw [hγ, show (b.ph 1).px = 1 by norm_num [b, init], abs_of_nonneg (by positivity)]
    exact one_div_le_one_div_of_le (by norm_num) g1
  have k2 := pow_le_pow_left₀ (abs_nonneg _) hδ 2
  have k3 := mul_le_mul (mul_le_mul_of_nonneg_left k1 (by norm_num [e] : (0 : ℝ) ≤ 2 * e.length)) (add_le_add_right k2 (1 / (1000 ^ 2 - 1)))
    (by positivity) (by norm_num [e])
  refine k3.trans ?_
  norm_num [e]

end WakeT.Element
