import Verif.Element.QuadPath
import Verif.Tracker.Order
import Verif.Stage.Fields

/-! # Quadrupoles given as magnet and as field (C168)

A `Quadrupole` is tracked with transfer matrices, a `FieldQuadrupole` by the pushers. -/

set_option linter.unusedSectionVars false

namespace WakeT.Element

open CSR (Elem Calc)
open Bunch (Bunch average init)
open TransferMatrix
open Diag (Diag)
open Push (Ph PField)
open Matrix Set

/-! ### The magnet -/

theorem cs_bound {k L : ℝ} (hL : 0 ≤ L) : |cosK k L| ≤ Real.exp (2 * (1 + |k|) * L) ∧ |sinK k L| ≤ Real.exp (2 * (1 + |k|) * L) := by
  have hk := abs_nonneg k
  have key : ∀ x0 u0 : ℝ, |x0| ≤ 1 → |u0| ≤ 1 → |quadX k 0 x0 u0 L| ≤ Real.exp (2 * (1 + |k|) * L) := by
    intro x0 u0 h1 h2
    have := plane_bound (c := 1) (T := L) (Λ := 2 * (1 + |k|)) (ρ := 0) (ε := 1) one_pos (by positivity) le_rfl one_pos.le
      (fun t _ => (quad_deriv_time k 0 x0 u0 1 t (Icc 0 L)).1)
      (fun t _ => (quad_deriv_time k 0 x0 u0 1 t (Icc 0 L)).2)
      (fun t _ => by
        rw [zero_mul, sub_zero, add_zero]
        exact (le_max_right _ _).trans (le_mul_of_one_le_left ((abs_nonneg _).trans (le_max_right _ _)) (by linarith)))
      (fun t _ => by
        rw [abs_mul, abs_neg, add_zero]
        exact mul_le_mul (by linarith) (le_max_left _ _) (abs_nonneg _) (by positivity))
      (by rw [mul_zero, (quad_zero _ _ _ _).1]; exact h1) (by rw [mul_zero, (quad_zero _ _ _ _).2]; exact h2) (t := L) ⟨hL, le_rfl⟩
    simpa using this.1
  have h1 := key 1 0 (by simp) (by simp)
  have h2 := key 0 1 (by simp) (by simp)
  simp [quadX] at h1 h2
  exact ⟨h1, h2⟩

/-- Longitudinal part of second order, in one plane. -/
theorem slip_bound {k z S C x u ε B : ℝ} (hz : 0 ≤ z) (hS : |S| ≤ B) (hC : |C| ≤ B) (hx : |x| ≤ ε) (hu : |u| ≤ ε) :
    |k * (z - S * C) * x ^ 2 - 2 * k * S ^ 2 * x * u + (z + S * C) * u ^ 2| ≤ ((1 + |k|) * (z + B ^ 2) + 2 * |k| * B ^ 2) * ε ^ 2 := by
  have hB : 0 ≤ B := (abs_nonneg _).trans hS
  have hε : 0 ≤ ε := (abs_nonneg _).trans hx
  have hk := abs_nonneg k
  have h1 : |S * C| ≤ B ^ 2 := by rw [abs_mul, sq]; exact mul_le_mul hS hC (abs_nonneg _) hB
  have h2 : |S ^ 2| ≤ B ^ 2 := by rw [abs_pow]; exact pow_le_pow_left₀ (abs_nonneg _) hS 2
  have h3 : |x ^ 2| ≤ ε ^ 2 := by rw [abs_pow]; exact pow_le_pow_left₀ (abs_nonneg _) hx 2
  have h4 : |u ^ 2| ≤ ε ^ 2 := by rw [abs_pow]; exact pow_le_pow_left₀ (abs_nonneg _) hu 2
  have h5 : |x * u| ≤ ε ^ 2 := by rw [abs_mul, sq]; exact mul_le_mul hx hu (abs_nonneg _) hε
  have h6 : |z - S * C| ≤ z + B ^ 2 := (abs_sub _ _).trans (by rw [abs_of_nonneg hz]; linarith)
  have h7 : |z + S * C| ≤ z + B ^ 2 := (abs_add_le _ _).trans (by rw [abs_of_nonneg hz]; linarith)
  have t1 : |k * (z - S * C) * x ^ 2| ≤ |k| * (z + B ^ 2) * ε ^ 2 := by
    rw [abs_mul, abs_mul]
    exact mul_le_mul (mul_le_mul_of_nonneg_left h6 hk) h3 (abs_nonneg _) (by positivity)
  have t2 : |2 * k * S ^ 2 * x * u| ≤ 2 * |k| * B ^ 2 * ε ^ 2 := by
    rw [show 2 * k * S ^ 2 * x * u = 2 * k * S ^ 2 * (x * u) by ring, abs_mul, abs_mul, abs_mul, abs_two]
    exact mul_le_mul (mul_le_mul_of_nonneg_left h2 (by positivity)) h5 (abs_nonneg _) (by positivity)
  have t3 : |(z + S * C) * u ^ 2| ≤ (z + B ^ 2) * ε ^ 2 := by
    rw [abs_mul]
    exact mul_le_mul h7 h4 (abs_nonneg _) (by positivity)
  have := (abs_add_le (k * (z - S * C) * x ^ 2 - 2 * k * S ^ 2 * x * u) ((z + S * C) * u ^ 2)).trans (add_le_add_left (abs_sub _ _) _)
  linarith only [this, t1, t2, t3]

variable (env : Env) {e : Elem} (csr : Calc) {b : Bunch} (d : Option Diag) (o : Opts)

/-- The map of an element without CSR is applied once, if it can be composed or there is only one step. -/
theorem finalCols_once (hc : e.csrOn = false) (ht : Trackable e o) (hG : GammaOk (gammaOf e b)) (hone : e.order = 2 → e.nOut = none ∨ e.nOut = some 1) :
    finalCols env csr e b false = fun i => transferMap e.length e.length (-e.theta) e.k1 e.k2 (gammaOf e b) e.order (toOcelot (gammaOf e b) (localCols b i)) := by
  by_cases h2 : e.order = 2
  · unfold finalCols
    dsimp only
    rw [trackLoop_linear _ _ { e with gammaRef := some (gammaOf e b) } _ _ _ _ hc]
    funext i
    dsimp only
    unfold determineSteps
    dsimp only
    simp only [hc, Bool.false_eq_true, if_false]
    rcases hone h2 with h | h
    · rw [h]
      rfl
    · rw [h]
      simp
  · exact finalCols_compose hc ht.nOut (fun z1 z2 v => transferMap_compose h2 ht.length hG z1 z2 v) false

set_option maxHeartbeats 1000000 in
/-- Bunch behind a quadrupole on the axis. -/
theorem quad_track (hc : e.csrOn = false) (hθ : e.theta = 0) (hk2 : e.k2 = 0) (ht : Trackable e o) (hL : 0 ≤ e.length)
    (ho : o.backtrack = false) (hno : e.nOut = none → o.outInitial = false) (h0 : b.thetaRef = 0) (h1 : b.xRef = 0)
    (hone : e.order = 2 → e.nOut = none ∨ e.nOut = some 1)
    {g : ℝ} (hgam : gammaOf e b = g) (hg0 : 0 < g) (hg : 4 ≤ g ^ 2 - 1) (i : ℕ) {ε : ℝ} (hδ : |((b.ph i).gamma - g) / √(g ^ 2 - 1)| ≤ 1 / 4)
    (hx0 : |(b.ph i).x| ≤ ε) (hy0 : |(b.ph i).y| ≤ ε) (hpx0 : |(b.ph i).px / √(g ^ 2 - 1)| ≤ ε) (hpy0 : |(b.ph i).py / √(g ^ 2 - 1)| ≤ ε) :
    let a := if e.order = 2 then g / √(g ^ 2 - 1) * (((b.ph i).gamma - g) / √(g ^ 2 - 1)) else 0
    let q := (track env e csr b d o).bunch.ph i
    let B := Real.exp (2 * (1 + |e.k1|) * e.length)
    q.x = quadX e.k1 a (b.ph i).x ((b.ph i).px / √(g ^ 2 - 1)) e.length ∧
    q.px = √(g ^ 2 - 1) * quadU e.k1 a (b.ph i).x ((b.ph i).px / √(g ^ 2 - 1)) e.length ∧
    q.y = quadX (-e.k1) a (b.ph i).y ((b.ph i).py / √(g ^ 2 - 1)) e.length ∧
    q.py = √(g ^ 2 - 1) * quadU (-e.k1) a (b.ph i).y ((b.ph i).py / √(g ^ 2 - 1)) e.length ∧
    |q.xi - (b.ph i).xi| ≤ (e.length + 2 * (1 + |e.k1|) * (e.length + 2 * B ^ 2)) * (1 / (g ^ 2 - 1) + ε ^ 2) := by
  intro a q B
  have hg1 : 1 < g := by nlinarith
  have hG : GammaOk g := Or.inr hg1
  have hp2 : 0 < g ^ 2 - 1 := by nlinarith
  set p0 := √(g ^ 2 - 1) with hp0
  have hp : 0 < p0 := Real.sqrt_pos.mpr hp2
  have hps : p0 ^ 2 = g ^ 2 - 1 := Real.sq_sqrt hp2.le
  have hβ : beta g = p0 / g := beta_eq hg1
  have hig : igamma2 g = 1 / (g * g) := if_pos hg0.ne'
  set δ := ((b.ph i).gamma - g) / p0 with hδd
  have hq : q = (finish e b g fun i => transferMap e.length e.length 0 e.k1 0 g e.order (toOcelot g (localCols b i))).ph i := by
    show (track env e csr b d o).bunch.ph i = _
    rw [track_finish ht (stepFits_of_off hc) ho hno, finalCols_once env csr o hc ht (hgam ▸ hG) hone, hgam, hθ, hk2, neg_zero]
  have hloc : localCols b i = ![(b.ph i).x, (b.ph i).px, (b.ph i).y, (b.ph i).py, (b.ph i).xi, (b.ph i).pz] := by
    unfold localCols
    dsimp only
    rw [if_neg (by simp [h0])]
    funext r
    fin_cases r <;> simp [Bunch.get6D, h1]
  have hgb : g * √(1 - 1 / g ^ 2) = p0 := by
    have := beta_eq hg1
    unfold beta at this
    rw [hig] at this
    rw [show 1 / g ^ 2 = 1 / (g * g) by rw [sq], this, ← hp0]
    field_simp
  have hgam' : √(1 + (b.ph i).px ^ 2 + (b.ph i).py ^ 2 + (b.ph i).pz ^ 2) = (b.ph i).gamma := rfl
  have hoc : toOcelot g (localCols b i) = ![(b.ph i).x, (b.ph i).px / p0, (b.ph i).y, (b.ph i).py / p0, -(b.ph i).xi, δ] := by
    rw [hloc]
    unfold toOcelot
    dsimp only
    rw [hgb]
    funext r
    fin_cases r <;> simp [δ, ← hp0, hgam']
  set M := transferMap e.length e.length 0 e.k1 0 g e.order (toOcelot g (localCols b i)) with hM
  have hq' : q = ⟨fromOcelot g M 0, fromOcelot g M 2, fromOcelot g M 4, fromOcelot g M 1, fromOcelot g M 3, fromOcelot g M 5⟩ := by
    rw [hq]
    unfold finish createBunch init reference
    simp [hθ, h0, h1, ← hM]
  have hM2 : e.order = 2 → ∀ r, M r = (firstOrder e.length e.length 0 e.k1 g *ᵥ toOcelot g (localCols b i)) r +
      ∑ j, ∑ k, secondOrder e.length e.length 0 e.k1 0 g r j k * toOcelot g (localCols b i) j * toOcelot g (localCols b i) k := by
    intro h2 r
    rw [hM]
    unfold transferMap
    rw [if_pos h2]
  have hM1 : e.order ≠ 2 → M = firstOrder e.length e.length 0 e.k1 g *ᵥ toOcelot g (localCols b i) := by
    intro h2
    rw [hM]
    unfold transferMap
    rw [if_neg h2]
  have rows : M 0 = quadX e.k1 a (b.ph i).x ((b.ph i).px / p0) e.length ∧ M 1 = quadU e.k1 a (b.ph i).x ((b.ph i).px / p0) e.length ∧
      M 2 = quadX (-e.k1) a (b.ph i).y ((b.ph i).py / p0) e.length ∧ M 3 = quadU (-e.k1) a (b.ph i).y ((b.ph i).py / p0) e.length := by
    by_cases h2 : e.order = 2
    · have ha : a = g / p0 * δ := if_pos h2
      rw [ha]
      refine ⟨?_, ?_, ?_, ?_⟩ <;>
      · rw [hM2 h2, linear_rows, quad_rows, hoc, hβ]
        simp [quadX, quadU]
        field_simp
        try ring
    · have ha : a = 0 := if_neg h2
      rw [ha, hM1 h2, linear_rows, hoc]
      refine ⟨?_, ?_, ?_, ?_⟩ <;> simp [quadX, quadU]
  refine ⟨?_, ?_, ?_, ?_, ?_⟩
  · rw [hq']; exact rows.1
  · rw [hq']
    show M 1 * √(g ^ 2 - 1) = _
    rw [rows.2.1, ← hp0, mul_comm]
  · rw [hq']; exact rows.2.2.1
  · rw [hq']
    show M 3 * √(g ^ 2 - 1) = _
    rw [rows.2.2.2, ← hp0, mul_comm]
  · have hb1 : 1 ≤ g / p0 := by
      rw [le_div_iff₀ hp, one_mul]
      exact (Real.sqrt_le_left hg0.le).mpr (by linarith)
    have hE : 1 / (g ^ 2 - 1) = (g / p0) ^ 2 - 1 := by
      rw [div_pow, hps]
      field_simp
      ring
    have hE4 : 1 / (g ^ 2 - 1) ≤ 1 / 4 := one_div_le_one_div_of_le (by norm_num) hg
    have hE0 : 0 < 1 / (g ^ 2 - 1) := by positivity
    have hb2 : g / p0 ≤ 9 / 8 := by nlinarith only [hb1, hE, hE4]
    have hδ2 : δ ^ 2 ≤ 1 / 16 := by
      have := sq_le_sq' (abs_le.mp hδ).1 (abs_le.mp hδ).2
      linarith only [this]
    have hB0 : 0 < B := Real.exp_pos _
    have hk := abs_nonneg e.k1
    have hBn : Real.exp (2 * (1 + |-e.k1|) * e.length) = B := by rw [abs_neg]
    obtain ⟨c1, s1⟩ := cs_bound (k := e.k1) hL
    obtain ⟨c2, s2⟩ := cs_bound (k := -e.k1) hL
    rw [hBn] at c2 s2
    have ux := slip_bound (k := e.k1) hL s1 c1 hx0 hpx0
    have uy := slip_bound (k := -e.k1) hL s2 c2 hy0 hpy0
    rw [abs_neg] at uy
    set U := e.k1 * (e.length - sinK e.k1 e.length * cosK e.k1 e.length) * (b.ph i).x ^ 2
      - 2 * e.k1 * sinK e.k1 e.length ^ 2 * (b.ph i).x * ((b.ph i).px / p0) + (e.length + sinK e.k1 e.length * cosK e.k1 e.length) * ((b.ph i).px / p0) ^ 2 with hU
    set V := -e.k1 * (e.length - sinK (-e.k1) e.length * cosK (-e.k1) e.length) * (b.ph i).y ^ 2
      - 2 * -e.k1 * sinK (-e.k1) e.length ^ 2 * (b.ph i).y * ((b.ph i).py / p0) + (e.length + sinK (-e.k1) e.length * cosK (-e.k1) e.length) * ((b.ph i).py / p0) ^ 2 with hV
    have hM4 : -M 4 = (b.ph i).xi + (e.length * (1 / (g ^ 2 - 1) * δ) - (if e.order = 2 then g / p0 / 4 * (U + V) + 3 / 2 * (g / p0) * (1 / (g ^ 2 - 1)) * e.length * δ ^ 2 else 0)) := by
      by_cases h2 : e.order = 2
      · rw [if_pos h2, hM2 h2, linear_rows, quad_rows, hoc, hβ, hig, ← hps, hU, hV]
        simp
        field_simp
        ring
      · rw [if_neg h2, hM1 h2, linear_rows, hoc, hβ, hig, ← hps]
        simp
        field_simp
        ring
    rw [hq']
    show |-M 4 - (b.ph i).xi| ≤ _
    rw [hM4, add_sub_cancel_left]
    generalize 1 / (g ^ 2 - 1) = E at *
    have l1 : |e.length * (E * δ)| ≤ e.length * E / 4 := by
      rw [abs_mul, abs_mul, abs_of_nonneg hL, abs_of_pos hE0]
      have := mul_le_mul_of_nonneg_left hδ (mul_nonneg hL hE0.le)
      linarith only [this]
    have l2 : |if e.order = 2 then g / p0 / 4 * (U + V) + 3 / 2 * (g / p0) * E * e.length * δ ^ 2 else 0| ≤
        2 * (1 + |e.k1|) * (e.length + 2 * B ^ 2) * ε ^ 2 + e.length * E / 8 := by
      have n1 : 0 ≤ 2 * (1 + |e.k1|) * (e.length + 2 * B ^ 2) * ε ^ 2 := by positivity
      have n2 : 0 ≤ e.length * E / 8 := by positivity
      split_ifs
      · refine (abs_add_le _ _).trans (add_le_add ?_ ?_)
        · rw [abs_mul, abs_of_pos (by positivity)]
          have h1 := (abs_add_le U V).trans (add_le_add ux uy)
          have h2 := mul_le_mul (show g / p0 / 4 ≤ 1 / 2 by linarith only [hb2]) h1 (abs_nonneg _) (by norm_num)
          refine h2.trans ?_
          have h3 : 0 ≤ (e.length + B ^ 2 + B ^ 2) * ε ^ 2 := by positivity
          have h4 : 0 ≤ |e.k1| * ((e.length + B ^ 2) * ε ^ 2) := by positivity
          have h5 : 0 ≤ B ^ 2 * ε ^ 2 := by positivity
          nlinarith only [h3, h4, h5]
        · rw [abs_of_nonneg (by positivity)]
          have h1 := mul_le_mul hb2 hδ2 (sq_nonneg δ) (by norm_num)
          have h2 := mul_le_mul_of_nonneg_left h1 (mul_nonneg hL hE0.le)
          linarith only [h2, n2]
      · rw [abs_zero]
        linarith only [n1, n2]
    refine (abs_sub _ _).trans ((add_le_add l1 l2).trans ?_)
    have n1 : 0 ≤ 2 * (1 + |e.k1|) * (e.length + 2 * B ^ 2) * E := by positivity
    have n2 : 0 ≤ e.length * ε ^ 2 := by positivity
    have n3 : 0 ≤ e.length * E := by positivity
    linarith only [n1, n2, n3]

/-! ### C168 -/

/-- Particles for which the optics of a quadrupole with the reference energy `g` is linear: it flies forward, its energy differs by less than a quarter, and its
offset and slope are at most `ε`. -/
structure Paraxial (g ε : ℝ) (p : Ph) : Prop where
  pz : 0 < p.pz
  energy : |(p.gamma - g) / √(g ^ 2 - 1)| ≤ 1 / 4
  x : |p.x| ≤ ε
  y : |p.y| ≤ ε
  px : |p.px / √(g ^ 2 - 1)| ≤ ε
  py : |p.py / √(g ^ 2 - 1)| ≤ ε

/-- How close the particle `q` behind the magnet, with a map of the given order, is to the particle `p` behind the field, which both were `p0` at the start. Offsets and slopes
differ by the part `C (1 / (g² - 1) + δ² + ε²)` of `ε` (first order: `δ` instead of `δ²`), where `δ` is the relative deviation of the energy. `K` bounds the error of the pusher. -/
structure QuadAgrees (order : ℕ) (g C K ε : ℝ) (p0 q p : Ph) : Prop where
  x : |q.x - p.x| ≤ C * ε * (1 / (g ^ 2 - 1) + |(p0.gamma - g) / √(g ^ 2 - 1)| ^ (if order = 2 then 2 else 1) + ε ^ 2) + K
  y : |q.y - p.y| ≤ C * ε * (1 / (g ^ 2 - 1) + |(p0.gamma - g) / √(g ^ 2 - 1)| ^ (if order = 2 then 2 else 1) + ε ^ 2) + K
  px : |q.px - p.px| ≤ √(g ^ 2 - 1) * (C * ε * (1 / (g ^ 2 - 1) + |(p0.gamma - g) / √(g ^ 2 - 1)| ^ (if order = 2 then 2 else 1) + ε ^ 2)) + K
  py : |q.py - p.py| ≤ √(g ^ 2 - 1) * (C * ε * (1 / (g ^ 2 - 1) + |(p0.gamma - g) / √(g ^ 2 - 1)| ^ (if order = 2 then 2 else 1) + ε ^ 2)) + K
  xi : |q.xi - p.xi| ≤ C * (1 / (g ^ 2 - 1) + ε ^ 2) + K

/-- The fields of a `FieldQuadrupole` (field_quadrupole.py 53-61). -/
noncomputable def quadFields (foc : ℝ) : List PField := [fun _ x y xi v => (Stage.quadField foc).gather1 x y xi v]

theorem quadFields_felt (foc t : ℝ) (p : Ph) : Push.felt (quadFields foc) t p = ⟨0, 0, 0, -(foc * p.y), -(foc * p.x), 0⟩ := by
  simp [Push.felt, quadFields, Stage.quadField, Fields.LibField.gather1]

theorem quadFields_contDiff (foc : ℝ) (n : ℕ) : Push.ContDiffFields n (quadFields foc) := by
  constructor <;> simp only [quadFields_felt] <;> fun_prop

/-- One particle: the exact path in the field and the magnet. -/
theorem quad_agrees_one {L k1 : ℝ} (hL : 0 < L) : ∃ ε0 C, 0 < ε0 ∧ 0 ≤ C ∧ ∀ (env : Env) (csr : Calc) (d : Option Diag) (o : Opts) (e : Elem) (b : Bunch) (g foc c ε : ℝ) (i : ℕ) (z : ℝ → Ph),
    e.length = L → e.k1 = k1 → e.csrOn = false → e.theta = 0 → e.k2 = 0 → Trackable e o → o.backtrack = false → (e.nOut = none → o.outInitial = false) →
    (e.order = 2 → e.nOut = none ∨ e.nOut = some 1) → b.thetaRef = 0 → b.xRef = 0 → gammaOf e b = g → 0 < g → 4 ≤ g ^ 2 - 1 → 0 < c → b.mSpecies ≠ 0 →
    b.qSpecies * foc = -(k1 * g * b.mSpecies * c) → Push.Trajectory ⟨c, b.qSpecies, b.mSpecies⟩ (quadFields foc) (L / c) z → z 0 = b.ph i → ε ≤ ε0 → Paraxial g ε (b.ph i) →
    QuadAgrees e.order g C 0 ε (b.ph i) ((track env e csr b d o).bunch.ph i) (z (L / c)) := by
  obtain ⟨ε0, C, hε0, hC, key⟩ := quad_path (L := L) (k1 := k1) hL.le
  set C2 := L + 2 * (1 + |k1|) * (L + 2 * Real.exp (2 * (1 + |k1|) * L) ^ 2) with hC2
  have hC20 : 0 ≤ C2 := by positivity
  refine ⟨ε0, C + C2, hε0, by positivity, ?_⟩
  intro env csr d o e b g foc c ε i z heL hek hcsr hθ hk2 ht ho hno hone h0 h1 hgam hg0 hg hc hm hfoc hz hz0 hε hp
  have hTM := quad_track env csr d o hcsr hθ hk2 ht (heL ▸ hL.le) ho hno h0 h1 hone hgam hg0 hg i hp.energy hp.x hp.y hp.px hp.py
  rw [heL, hek] at hTM
  have hp2 : 0 < g ^ 2 - 1 := by linarith
  have hps : √(g ^ 2 - 1) ^ 2 = g ^ 2 - 1 := Real.sq_sqrt hp2.le
  have hP : 0 < √(g ^ 2 - 1) := Real.sqrt_pos.mpr hp2
  have hγ : 0 < (b.ph i).gamma := Real.sqrt_pos.mpr (by positivity)
  have hE0 : 0 < 1 / (g ^ 2 - 1) := by positivity
  have hEε : 0 ≤ 1 / (g ^ 2 - 1) + ε ^ 2 := by positivity
  have hεn : 0 ≤ ε := (abs_nonneg _).trans hp.x
  set δ := ((b.ph i).gamma - g) / √(g ^ 2 - 1) with hδ
  set a := if e.order = 2 then g / √(g ^ 2 - 1) * δ else 0 with ha
  set η := |δ| ^ (if e.order = 2 then 2 else 1) with hη
  have hη0 : 0 ≤ η := by positivity
  have est : |√(g ^ 2 - 1) / (b.ph i).gamma - 1 + a| ≤ 3 * (1 / (g ^ 2 - 1) + η) ∧ a ^ 2 ≤ 3 * η ∧ |a| ≤ 1 := by
    have hb1 : 1 ≤ g / √(g ^ 2 - 1) := by
      rw [le_div_iff₀ hP, one_mul]
      exact (Real.sqrt_le_left hg0.le).mpr (by linarith)
    have hE : 1 / (g ^ 2 - 1) = (g / √(g ^ 2 - 1)) ^ 2 - 1 := by
      rw [div_pow, hps]
      field_simp
      ring
    have hE4 : 1 / (g ^ 2 - 1) ≤ 1 / 4 := one_div_le_one_div_of_le (by norm_num) hg
    have hu : g / √(g ^ 2 - 1) + δ = (b.ph i).gamma / √(g ^ 2 - 1) := by
      rw [hδ]
      field_simp
      ring
    have hs1 : √(g ^ 2 - 1) / (b.ph i).gamma * (g / √(g ^ 2 - 1) + δ) = 1 := by
      rw [hu]
      field_simp
    obtain ⟨s1, s2⟩ := slope_estimate (s := √(g ^ 2 - 1) / (b.ph i).gamma) hb1 hE hE4 hp.energy
    have hsl : |√(g ^ 2 - 1) / (b.ph i).gamma| ≤ 4 / 3 := by
      rw [abs_of_pos (by positivity)]
      have h1 := (abs_le.mp hp.energy).1
      have h2 : 0 < √(g ^ 2 - 1) / (b.ph i).gamma := by positivity
      nlinarith only [h1, h2, hs1, hb1]
    have hb2 : g / √(g ^ 2 - 1) ≤ 9 / 8 := by nlinarith only [hb1, hE, hE4]
    have hd2 : δ ^ 2 ≤ 1 / 16 := by
      have := sq_le_sq' (abs_le.mp hp.energy).1 (abs_le.mp hp.energy).2
      linarith only [this]
    generalize g / √(g ^ 2 - 1) = B at *
    generalize √(g ^ 2 - 1) / (b.ph i).gamma = s at *
    generalize 1 / (g ^ 2 - 1) = E at *
    by_cases h2 : e.order = 2
    · rw [ha, hη, if_pos h2, if_pos h2, sq_abs]
      refine ⟨?_, ?_, ?_⟩
      · rw [show s - 1 + B * δ = -(s * ((B + δ) * (1 - B * δ) - 1)) by linear_combination (1 - B * δ) * hs1, abs_neg]
        refine s1.trans ?_
        have := mul_le_mul_of_nonneg_right hsl (by positivity : 0 ≤ E + δ ^ 2)
        have h3 : 0 ≤ E + δ ^ 2 := by positivity
        linarith only [this, h3]
      · rw [mul_pow]
        have h3 : B ^ 2 ≤ 3 := by nlinarith only [hb1, hb2]
        exact mul_le_mul_of_nonneg_right h3 (sq_nonneg δ)
      · rw [abs_mul, abs_of_nonneg (by linarith only [hb1])]
        have := mul_le_mul hb2 hp.energy (abs_nonneg _) (by norm_num)
        linarith only [this]
    · rw [ha, hη, if_neg h2, if_neg h2, pow_one]
      refine ⟨?_, ?_, ?_⟩
      · rw [show s - 1 + 0 = -(s * ((B + δ) - 1)) by linear_combination hs1, abs_neg]
        refine s2.trans ?_
        have := mul_le_mul_of_nonneg_right hsl (by positivity : 0 ≤ E + |δ|)
        have h3 : 0 ≤ E + |δ| := by positivity
        linarith only [this, h3]
      · have := abs_nonneg δ
        linarith only [this]
      · simp
  have hk : -((⟨c, b.qSpecies, b.mSpecies⟩ : Push.Const).q / ((⟨c, b.qSpecies, b.mSpecies⟩ : Push.Const).m * (⟨c, b.qSpecies, b.mSpecies⟩ : Push.Const).c) * foc) = k1 * g := by
    show -(b.qSpecies / (b.mSpecies * c) * foc) = _
    rw [div_mul_eq_mul_div, hfoc]
    field_simp
  have res := key ⟨c, b.qSpecies, b.mSpecies⟩ (quadFields foc) foc g (L / c) ε a η z hc (by positivity) (by show c * (L / c) = L; field_simp)
    (quadFields_felt foc) hk hg0 hg hz (hz0 ▸ hp.pz) (hz0 ▸ hp.energy) hε (hz0 ▸ hp.x) (hz0 ▸ hp.y) (hz0 ▸ hp.px) (hz0 ▸ hp.py) (hz0 ▸ est.1) est.2.1 est.2.2 hη0
  rw [hz0] at res
  obtain ⟨t1, t2, t3, t4, t5⟩ := hTM
  obtain ⟨r1, r2, r3, r4, r5, -, -⟩ := res
  have up : C * ε * (1 / (g ^ 2 - 1) + η + ε ^ 2) ≤ (C + C2) * ε * (1 / (g ^ 2 - 1) + η + ε ^ 2) := by
    have : 0 ≤ C2 * ε * (1 / (g ^ 2 - 1) + η + ε ^ 2) := by positivity
    linarith only [this]
  have mom : ∀ {A Q : ℝ}, |A / √(g ^ 2 - 1) - Q| ≤ C * ε * (1 / (g ^ 2 - 1) + η + ε ^ 2) →
      |√(g ^ 2 - 1) * Q - A| ≤ √(g ^ 2 - 1) * ((C + C2) * ε * (1 / (g ^ 2 - 1) + η + ε ^ 2)) + 0 := by
    intro A Q h
    have e1 : √(g ^ 2 - 1) * Q - A = -(√(g ^ 2 - 1) * (A / √(g ^ 2 - 1) - Q)) := by
      field_simp
      ring
    rw [e1, abs_neg, abs_mul, abs_of_pos hP, add_zero]
    exact mul_le_mul_of_nonneg_left (h.trans up) hP.le
  refine ⟨?_, ?_, ?_, ?_, ?_⟩
  · rw [t1, abs_sub_comm, add_zero]
    exact r1.trans up
  · rw [t3, abs_sub_comm, add_zero]
    exact r3.trans up
  · rw [t2]
    exact mom r2
  · rw [t4]
    exact mom r4
  · have e1 := abs_sub_le ((track env e csr b d o).bunch.ph i).xi (b.ph i).xi (z (L / c)).xi
    rw [abs_sub_comm (b.ph i).xi] at e1
    rw [add_zero]
    linarith only [e1, t5, r5]

variable {F Φ : Type} [LinearOrder F]

/-- **C168.** A quadrupole that is tracked with transfer matrices and a quadrupole of the same length that is tracked through its field, with the gradient
`foc = -k1 γ m c / q`, do the same to paraxial particles, whichever pusher, time steps and outputs are chosen. The constant `C` depends on length and strength only; the error of
the pusher is of second (Boris) or fourth (Runge-Kutta) order in the step `D`. -/
theorem quad_agrees {L k1 : ℝ} (hL : 0 < L) : ∃ ε0 C, 0 < ε0 ∧ 0 ≤ C ∧ ∀ (env : Env) (csr : Calc) (d : Option Diag) (o : Opts) (e : Elem) (b : Bunch) (g foc c : ℝ),
    e.length = L → e.k1 = k1 → e.csrOn = false → e.theta = 0 → e.k2 = 0 → Trackable e o → o.backtrack = false → (e.nOut = none → o.outInitial = false) →
    (e.order = 2 → e.nOut = none ∨ e.nOut = some 1) → b.thetaRef = 0 → b.xRef = 0 → gammaOf e b = g → 0 < g → 4 ≤ g ^ 2 - 1 → 0 < c → b.mSpecies ≠ 0 →
    b.qSpecies * foc = -(k1 * g * b.mSpecies * c) → b.Fits → b.zInjection = none →
    ∃ K, 0 ≤ K ∧ ∀ (fe : FieldElement.Elem F Φ) (D : ℝ) (m : ℕ), FieldElement.Through fe c (L / c) (quadFields foc) D → 0 < fe.nOut →
      (fe.pusher = "boris" ∧ m = 2 ∨ fe.pusher = "rk4" ∧ m = 4) → ∀ opmd fuel b0 φ r w, fe.track opmd fuel (.one b) b0 φ = .returned (r, w) →
      ∃ (l : List Bunch) (b' : Bunch), r = .one l ∧ l.getLast? = some b' ∧ ∀ i < b.n, ∀ ε ≤ ε0, Paraxial g ε (b.ph i) →
        QuadAgrees e.order g C (K * D ^ m) ε (b.ph i) ((track env e csr b d o).bunch.ph i) (b'.ph i) := by
  obtain ⟨ε0, C, hε0, hC, key⟩ := quad_agrees_one (L := L) (k1 := k1) hL
  refine ⟨ε0, C, hε0, hC, ?_⟩
  intro env csr d o e b g foc c heL hek hcsr hθ hk2 ht ho hno hone h0 h1 hgam hg0 hg hc hm hfoc hfit hzi
  have hT : 0 < L / c := by positivity
  obtain ⟨z2, hz2, K2, hK2, a2⟩ := FieldElement.boris_second_order (F := F) (Φ := Φ) hc hT (quadFields_contDiff foc 2) b hfit hzi
  obtain ⟨z4, hz4, K4, hK4, a4⟩ := FieldElement.rk4_fourth_order (F := F) (Φ := Φ) hc hT (quadFields_contDiff foc 4) b hfit hzi
  refine ⟨K2 + K4, by positivity, fun fe D m hth hn hpm opmd fuel b0 φ r w hr => ?_⟩
  have hD := hth.D0
  have main : ∀ (z : ℕ → ℝ → Ph) (K : ℝ), K ≤ K2 + K4 → (∀ p, z p 0 = b.ph p ∧ Push.Trajectory ⟨c, b.qSpecies, b.mSpecies⟩ (quadFields foc) (L / c) (z p)) →
      FieldElement.Accurate (.one b) r fe.nOut b (L / c) z (K * D ^ m) →
      ∃ (l : List Bunch) (b' : Bunch), r = .one l ∧ l.getLast? = some b' ∧ ∀ i < b.n, ∀ ε ≤ ε0, Paraxial g ε (b.ph i) →
        QuadAgrees e.order g C ((K2 + K4) * D ^ m) ε (b.ph i) ((track env e csr b d o).bunch.ph i) (b'.ph i) := by
    rintro z K hK hz ⟨ls, g1, g2, g3⟩
    obtain ⟨l, j1, j2, j3⟩ := g3 0 rfl
    match ls, g2, g1, j1 with
    | [l'], _, g1, j1 =>
      obtain rfl : l' = l := Option.some.inj j1
      have hlt : fe.nOut < l'.length := by omega
      refine ⟨l', l'[fe.nOut], g1, ?_, fun i hi ε hε hp => ?_⟩
      · rw [List.getLast?_eq_getElem?, j2]
        exact List.getElem?_eq_getElem hlt
      · obtain ⟨b', i1, -, i3⟩ := j3 i hi fe.nOut le_rfl
        obtain rfl : l'[fe.nOut] = b' := Option.some.inj ((List.getElem?_eq_getElem hlt).symm.trans i1)
        have hdt : (fe.nOut : ℝ) * (L / c / fe.nOut) = L / c := by
          have : (fe.nOut : ℝ) ≠ 0 := by exact_mod_cast hn.ne'
          field_simp
        rw [hdt] at i3
        have h := key env csr d o e b g foc c ε i (z i) heL hek hcsr hθ hk2 ht ho hno hone h0 h1 hgam hg0 hg hc hm hfoc (hz i).2 (hz i).1 hε hp
        have near := i3.mono (mul_le_mul_of_nonneg_right hK (pow_nonneg hD m))
        have tri : ∀ {u v w A B : ℝ}, |u - v| ≤ A + 0 → |w - v| ≤ B → |u - w| ≤ A + B := by
          intro u v w A B h1 h2
          have := abs_sub_le u v w
          rw [abs_sub_comm v w] at this
          linarith
        exact ⟨tri h.x near.x, tri h.y near.y, tri h.px near.px, tri h.py near.py, tri h.xi near.xi⟩
  rcases hpm with ⟨hp, rfl⟩ | ⟨hp, rfl⟩
  · exact main z2 K2 (by linarith) hz2 (a2 fe D hth hp opmd fuel (.one b) b0 φ r w hr)
  · exact main z4 K4 (by linarith) hz4 (a4 fe D hth hp opmd fuel (.one b) b0 φ r w hr)

/-- Two electrons near 500 MeV, one on the axis, one with a small offset `ε`, in a quadrupole of two metres with `k1 = 1`, that is a gradient of `1000` in units of `m c / e`: for any time step `D` the
tracking returns, and the offsets behind field and magnet differ by at most `2 · 10⁻⁶ C ε + C ε³ + K D²`. -/
example (env : Env) (csr : Calc) (d : Option Diag) (sch : ℕ → Push.Sched) (hsch : ∀ n, (sch n).Valid n) :
    ∃ ε0 C, 0 < ε0 ∧ ∀ ε, 0 < ε → ε ≤ ε0 →
      let b : Bunch := (init 2 (fun _ => 1) (fun i => ⟨i * ε, 0, 0, 0, 0, 1000⟩) none 0 0 none none (-1) 1 0).1
      let e : Elem := ⟨0, 2, 0, 1, 0, some 1000, false, some 1, 2, true⟩
      ∃ K, ∀ D, 0 < D → ∃ fuel w l b',
        ({ FieldElement.demo sch with felt := fun _ => quadFields 1000, dtBunch := .one (some D), numFields := [] } : FieldElement.Elem ℝ Unit).track
          false fuel (.one b) b () = .returned (.one l, w) ∧ l.getLast? = some b' ∧
        |((track env e csr b d ⟨false, true, true⟩).bunch.ph 1).x - (b'.ph 1).x| ≤ C * ε * (2 * 10⁻¹ ^ 6 + ε ^ 2) + K * D ^ 2 := by
  obtain ⟨ε0, C, hε0, hC, key⟩ := quad_agrees (F := ℝ) (Φ := Unit) (L := 2) (k1 := 1) two_pos
  refine ⟨ε0, C, hε0, fun ε hε hεε => ?_⟩
  intro b e
  have hfit : b.Fits := ⟨fun _ h => (nomatch h), fun _ h => (nomatch h)⟩
  obtain ⟨K, hK, h⟩ := key env csr d ⟨false, true, true⟩ e b 1000 1000 1 rfl rfl rfl rfl rfl ⟨by norm_num [e], by simp [e], fun _ => rfl⟩ rfl (by simp [e])
    (fun _ => Or.inr rfl) rfl rfl (by simp [e, gammaOf]) (by norm_num) (by norm_num) one_pos (by norm_num [b, init]) (by norm_num [b, init]) hfit rfl
  refine ⟨K, fun D hD => ?_⟩
  have hok : ({ FieldElement.demo sch with felt := fun _ => quadFields 1000, dtBunch := .one (some D), numFields := [] } : FieldElement.Elem ℝ Unit).Ok :=
    { FieldElement.demo_ok sch with
      steps := by
        intro d hd
        have hd : some d = some D := List.mem_singleton.mp hd
        rw [Option.some.inj hd]
        exact hD
      fields := by intro x hx; cases hx }
  have hth : FieldElement.Through ({ FieldElement.demo sch with felt := fun _ => quadFields 1000, dtBunch := .one (some D), numFields := [] } : FieldElement.Elem ℝ Unit)
      1 (2 / 1) (quadFields 1000) D :=
    { ok := hok, f32 := strictMono_id, sch := hsch, push := rfl, light := rfl, length := by norm_num [FieldElement.demo], felt := fun _ => rfl, D0 := hD.le
      fixed := by
        intro d hd
        have hd : some d = some D := List.mem_singleton.mp hd
        exact (Option.some.inj hd).le
      auto := by
        intro hn
        have hn : (none : Option ℝ) = some D := List.mem_singleton.mp hn
        cases hn }
  obtain ⟨fuel, ⟨r, w⟩, hr⟩ := FieldElement.track_returns hok strictMono_id (by norm_num [FieldElement.demo]) (δ := 1 / 5) (by norm_num)
    (fun b => by simp only [FieldElement.demo]; nlinarith [sq_nonneg b.propDistance]) (.one b) (by intro l hl; cases hl) false b ()
  obtain ⟨l, b', rfl, h2, h3⟩ := h _ D 2 hth (by norm_num [FieldElement.demo]) (Or.inl ⟨rfl, rfl⟩) false fuel b () _ _ hr
  refine ⟨fuel, w, l, b', hr, h2, ?_⟩
  have hγ : (b.ph 1).gamma = √1000001 := by
    simp only [b, init, Push.Ph.gamma]
    norm_num
  have g1 : (1000 : ℝ) ≤ √1000001 := Real.le_sqrt_of_sq_le (by norm_num)
  have g2 : √1000001 ≤ (1000 + 1 / 1000 : ℝ) := Real.sqrt_le_iff.mpr (by norm_num)
  have g3 : (999 : ℝ) ≤ √(1000 ^ 2 - 1) := Real.le_sqrt_of_sq_le (by norm_num)
  have hδ : |((b.ph 1).gamma - 1000) / √(1000 ^ 2 - 1)| ≤ 1 / 900000 := by
    rw [hγ, abs_of_nonneg (div_nonneg (by linarith) (by linarith)), div_le_iff₀ (by linarith)]
    generalize √(1000 ^ 2 - 1) = P at g3 ⊢
    linarith
  have hpar : Paraxial 1000 ε (b.ph 1) :=
    ⟨by norm_num [b, init], hδ.trans (by norm_num), by simp [b, init, abs_of_pos hε], by simpa [b, init] using hε.le, by simpa [b, init] using hε.le,
      by simpa [b, init] using hε.le⟩
  have hx := (h3 1 (by norm_num [b, init]) ε hεε hpar).x
  refine hx.trans ?_
  rw [if_pos rfl]
  have k2 := pow_le_pow_left₀ (abs_nonneg _) hδ 2
  have k3 : (1 : ℝ) / (1000 ^ 2 - 1) + |((b.ph 1).gamma - 1000) / √(1000 ^ 2 - 1)| ^ 2 + ε ^ 2 ≤ 2 * 10⁻¹ ^ 6 + ε ^ 2 := by
    have : (1 : ℝ) / (1000 ^ 2 - 1) + (1 / 900000) ^ 2 ≤ 2 * 10⁻¹ ^ 6 := by norm_num
    linarith
  have k4 := mul_le_mul_of_nonneg_left k3 (mul_nonneg hC hε.le)
  linarith

end WakeT.Element
