import Verif.Deposition.Rounding
import Verif.Deposition.Ruyten
import Verif.Base.Rounding
import Mathlib.Analysis.SpecialFunctions.Exponential

/-! # Charge and memory safety of the deposition with rounding -/

set_option linter.unusedSectionVars false

namespace WakeT.Deposition.Rounded

open WakeT.Base (Rounds)

variable {rnd : ℝ → ℝ} {ε : ℝ}

/-! ### Shape factors -/

private theorem rnd_abs (hr : Rounds ε rnd) (x : ℝ) : |rnd x| ≤ (1 + ε) * |x| := hr.abs_le x

/-- Almost in the cell. -/
def InCell (ε u : ℝ) : Prop := -(2 * ε) ≤ u ∧ u ≤ 1 + 2 * ε

theorem frac_inCell (hr : Rounds ε rnd) (h0 : 0 ≤ ε) (h1 : ε ≤ 1 / 1000) (c : ℝ) : InCell ε (frac rnd c) := by
  have a := Int.le_ceil c
  have b := Int.ceil_lt_add_one c
  unfold frac
  set d := c - ⌈c⌉ with hd
  have d0 : d ≤ 0 := by linarith
  have d1 : -1 ≤ d := by linarith
  have hd' := hr d
  rw [abs_of_nonpos d0, abs_le] at hd'
  have e0 : rnd d ≤ 0 := by nlinarith
  have e1 : -(1 + ε) ≤ rnd d := by nlinarith
  have h2 := hr (rnd d + 1)
  have h3 : |rnd d + 1| ≤ 1 := abs_le.mpr ⟨by linarith, by linarith⟩
  have h4 := mul_le_mul_of_nonneg_left h3 h0
  rw [abs_le] at h2
  exact ⟨by linarith, by linarith⟩

private theorem uR_inCell (hr : Rounds ε rnd) (h0 : 0 ≤ ε) (h1 : ε ≤ 1 / 1000) (g : Grid ℝ) (p : Part) : InCell ε (uR rnd g p) := by
  unfold uR
  split_ifs
  · exact ⟨by linarith, by linarith⟩
  · exact ⟨by linarith, by linarith⟩
  · exact frac_inCell hr h0 h1 _

private theorem uZ_inCell (hr : Rounds ε rnd) (h0 : 0 ≤ ε) (h1 : ε ≤ 1 / 1000) (g : Grid ℝ) (p : Part) : InCell ε (uZ rnd g p) := by
  unfold uZ
  split_ifs
  · exact ⟨by linarith, by linarith⟩
  · exact ⟨by linarith, by linarith⟩
  · exact frac_inCell hr h0 h1 _

/-- The shape factors add up to one, nearly, and their moduli to at most two. -/
def Fair (ε : ℝ) (s : List ℝ) : Prop := |s.sum - 1| ≤ 80 * ε ∧ (s.map fun x => |x|).sum ≤ 2

theorem zLinear_fair (hr : Rounds ε rnd) (h0 : 0 ≤ ε) (h1 : ε ≤ 1 / 1000) {u : ℝ} (hu : InCell ε u) : Fair ε (zLinear rnd u) := by
  obtain ⟨a, b⟩ := hu
  have h := hr (1 - u)
  have hv : |1 - u| ≤ 1 + 2 * ε := abs_le.mpr ⟨by linarith, by linarith⟩
  have hu' : |u| + |1 - u| ≤ 1 + 4 * ε := by
    rcases abs_cases u with ⟨h1, -⟩ | ⟨h1, -⟩ <;> rcases abs_cases (1 - u) with ⟨h2, -⟩ | ⟨h2, -⟩ <;> rw [h1, h2] <;> linarith
  have h' := rnd_abs hr (1 - u)
  unfold Fair zLinear
  simp only [List.sum_cons, List.sum_nil, List.map_cons, List.map_nil]
  constructor
  · have e : rnd (1 - u) + (u + 0) - 1 = rnd (1 - u) - (1 - u) := by ring
    rw [e]
    nlinarith
  · nlinarith

/-- The correction is at most about a quarter. -/
private theorem corr_abs (hr : Rounds ε rnd) (h0 : 0 ≤ ε) (h1 : ε ≤ 1 / 1000) {u c : ℝ} (hu : InCell ε u) (hc : |c| ≤ 1) :
    |rnd (rnd (c * rnd (1 - u)) * u)| ≤ 3 / 10 := by
  obtain ⟨a, b⟩ := hu
  have e1 := rnd_abs hr (1 - u)
  have e2 := rnd_abs hr (c * rnd (1 - u))
  have e3 := rnd_abs hr (rnd (c * rnd (1 - u)) * u)
  rw [abs_mul] at e2 e3
  have u0 := abs_nonneg u
  have huv : |1 - u| * |u| ≤ 26 / 100 := by
    rw [← abs_mul]
    refine abs_le.mpr ⟨?_, ?_⟩
    · nlinarith
    · nlinarith [sq_nonneg (u - 1 / 2)]
  have r1 : |rnd (c * rnd (1 - u))| ≤ (1 + ε) * ((1 + ε) * |1 - u|) := by
    refine e2.trans (mul_le_mul_of_nonneg_left ?_ (by linarith))
    calc |c| * |rnd (1 - u)| ≤ 1 * |rnd (1 - u)| := mul_le_mul_of_nonneg_right hc (abs_nonneg _)
      _ ≤ _ := by linarith
  calc _ ≤ (1 + ε) * (|rnd (c * rnd (1 - u))| * |u|) := e3
    _ ≤ (1 + ε) * (((1 + ε) * ((1 + ε) * |1 - u|)) * |u|) :=
      mul_le_mul_of_nonneg_left (mul_le_mul_of_nonneg_right r1 u0) (by linarith)
    _ = (1 + ε) ^ 3 * (|1 - u| * |u|) := by ring
    _ ≤ (1 + 1 / 1000) ^ 3 * (26 / 100) := mul_le_mul (pow_le_pow_left₀ (by linarith) (by linarith) _) huv (by positivity) (by norm_num)
    _ ≤ _ := by norm_num

private theorem rLinear_fair (hr : Rounds ε rnd) (h0 : 0 ≤ ε) (h1 : ε ≤ 1 / 1000) {u : ℝ} (hu : InCell ε u) {rc : Option ℝ}
    (hc : ∀ c, rc = some c → |c| ≤ 1) : Fair ε (rLinear rnd rc u) := by
  cases rc with
  | none => exact zLinear_fair hr h0 h1 hu
  | some c =>
    have hd := corr_abs hr h0 h1 hu (hc c rfl)
    obtain ⟨s, t⟩ := zLinear_fair hr h0 h1 hu
    obtain ⟨a, b⟩ := hu
    unfold Fair rLinear
    unfold zLinear at s t
    simp only [List.sum_cons, List.sum_nil, List.map_cons, List.map_nil] at s t ⊢
    generalize rnd (rnd (c * rnd (1 - u)) * u) = d at *
    have hv := hr (1 - u)
    have hv' : |1 - u| ≤ 1 + 2 * ε := abs_le.mpr ⟨by linarith, by linarith⟩
    have hv'' := rnd_abs hr (1 - u)
    have hu' : |u| + |1 - u| ≤ 1 + 4 * ε := by
      rcases abs_cases u with ⟨h1, -⟩ | ⟨h1, -⟩ <;> rcases abs_cases (1 - u) with ⟨h2, -⟩ | ⟨h2, -⟩ <;> rw [h1, h2] <;> linarith
    generalize rnd (1 - u) = v at *
    have e1 := hr (v + d)
    have e2 := hr (u - d)
    have f1 := rnd_abs hr (v + d)
    have f2 := rnd_abs hr (u - d)
    have g1 := abs_add_le v d
    have g2 := abs_sub u d
    have hva : |v| ≤ 1.1 := by nlinarith [abs_nonneg (1 - u)]
    have hua : |u| ≤ 1.1 := abs_le.mpr ⟨by linarith, by linarith⟩
    constructor
    · have e : rnd (v + d) + (rnd (u - d) + 0) - 1 = (rnd (v + d) - (v + d)) + (rnd (u - d) - (u - d)) + (v - (1 - u)) := by ring
      rw [e]
      refine (abs_add_le _ _).trans ?_
      have := abs_add_le (rnd (v + d) - (v + d)) (rnd (u - d) - (u - d))
      nlinarith
    · nlinarith [abs_nonneg (1 - u)]

private theorem rnd_near' (hr : Rounds ε rnd) (h0 : 0 ≤ ε) (h1 : ε ≤ 1 / 1000) {x y k M : ℝ} (h : |x - y| ≤ k * ε) (hk : 0 ≤ k) (hM : |y| ≤ M) :
    |rnd x - y| ≤ (k + M + k / 1000) * ε := by
  have := hr.near h0 h hM
  have hε : 0 ≤ ε * (1 / 1000 - ε) := mul_nonneg h0 (by linarith)
  nlinarith [mul_nonneg hk hε]

private theorem mul_near' (h0 : 0 ≤ ε) (h1 : ε ≤ 1 / 1000) {x y x' y' k k' M M' : ℝ} (h : |x - y| ≤ k * ε) (h' : |x' - y'| ≤ k' * ε)
    (hk : 0 ≤ k) (hk' : 0 ≤ k') (hM : |y| ≤ M) (hM' : |y'| ≤ M') : |x * x' - y * y'| ≤ (k * M' + M * k' + k * k' / 1000) * ε := by
  have := Base.mul_near h h' hM hM'
  have hε : 0 ≤ ε * (1 / 1000 - ε) := mul_nonneg h0 (by linarith)
  nlinarith [mul_nonneg (mul_nonneg hk hk') hε]

private theorem sq_near (hr : Rounds ε rnd) (h0 : 0 ≤ ε) (h1 : ε ≤ 1 / 1000) {u : ℝ} (hu : |u| ≤ 11 / 10) :
    |u * u| ≤ 121 / 100 ∧ |rnd (u * u) - u * u| ≤ 121 / 100 * ε := by
  have u2 : |u * u| ≤ 121 / 100 := by rw [abs_mul]; nlinarith [abs_nonneg u]
  have := rnd_near' hr h0 h1 (x := u * u) (y := u * u) (k := 0) (by simp) le_rfl u2
  exact ⟨u2, by linarith⟩

private theorem cube_near (hr : Rounds ε rnd) (h0 : 0 ≤ ε) (h1 : ε ≤ 1 / 1000) {u : ℝ} (hu : |u| ≤ 11 / 10) :
    |u * u * u| ≤ 1331 / 1000 ∧ |rnd (rnd (u * u) * u) - u * u * u| ≤ 27 / 10 * ε := by
  obtain ⟨u2, a⟩ := sq_near hr h0 h1 hu
  have u3 : |u * u * u| ≤ 1331 / 1000 := by rw [abs_mul]; nlinarith [abs_nonneg u]
  have b := rnd_near' hr h0 h1 (mul_near' h0 h1 a (x' := u) (y' := u) (k' := 0) (by simp) (by norm_num) le_rfl u2 hu) (by norm_num) u3
  exact ⟨u3, b.trans (mul_le_mul_of_nonneg_right (by norm_num) h0)⟩

private theorem sixth_near (hr : Rounds ε rnd) (h0 : 0 ≤ ε) (h1 : ε ≤ 1 / 1000) : |rnd (1 / 6) - 1 / 6| ≤ 1 / 6 * ε := by
  have := rnd_near' hr h0 h1 (x := 1 / 6) (y := 1 / 6) (k := 0) (M := 1 / 6) (by simp) le_rfl (by norm_num)
  linarith

private theorem outer_near (hr : Rounds ε rnd) (h0 : 0 ≤ ε) (h1 : ε ≤ 1 / 1000) {u : ℝ} (hu : |u| ≤ 11 / 10) :
    |outer rnd u - 1 / 6 * u ^ 3| ≤ 2 * ε := by
  obtain ⟨u3, b⟩ := cube_near hr h0 h1 hu
  have c := sixth_near hr h0 h1
  have d := rnd_near' hr h0 h1 (mul_near' h0 h1 c b (M := 1 / 6) (by norm_num) (by norm_num) (by norm_num) u3) (by norm_num) (M := 1331 / 6000) (by
    rw [abs_mul, abs_of_pos (by norm_num : (0 : ℝ) < 1 / 6)]; linarith)
  have e : 1 / 6 * u ^ 3 = 1 / 6 * (u * u * u) := by ring
  unfold outer
  rw [e]
  exact d.trans (mul_le_mul_of_nonneg_right (by norm_num) h0)

private theorem inner_near (hr : Rounds ε rnd) (h0 : 0 ≤ ε) (h1 : ε ≤ 1 / 1000) {u : ℝ} (hu : |u| ≤ 11 / 10) :
    |inner rnd u - 1 / 6 * (3 * u ^ 3 - 6 * u ^ 2 + 4)| ≤ 15 * ε := by
  obtain ⟨u2, a⟩ := sq_near hr h0 h1 hu
  obtain ⟨u3, b⟩ := cube_near hr h0 h1 hu
  have c := sixth_near hr h0 h1
  have l : ∀ {m x y k : ℝ}, 0 ≤ m → |x - y| ≤ k * ε → |m * x - m * y| ≤ m * k * ε := by
    intro m x y k hm h
    rw [← mul_sub, abs_mul, abs_of_nonneg hm, mul_assoc]
    exact mul_le_mul_of_nonneg_left h hm
  have m : ∀ {m x M : ℝ}, 0 ≤ m → |x| ≤ M → |m * x| ≤ m * M := by
    intro m x M hm h
    rw [abs_mul, abs_of_nonneg hm]
    exact mul_le_mul_of_nonneg_left h hm
  have d := rnd_near' hr h0 h1 (l (m := 3) (by norm_num) b) (by norm_num) (m (by norm_num) u3)
  have e := rnd_near' hr h0 h1 (l (m := 6) (by norm_num) a) (by norm_num) (m (by norm_num) u2)
  have f : |rnd (3 * rnd (rnd (u * u) * u)) - rnd (6 * rnd (u * u)) - (3 * (u * u * u) - 6 * (u * u))| ≤ 27 * ε := by
    have e1 : rnd (3 * rnd (rnd (u * u) * u)) - rnd (6 * rnd (u * u)) - (3 * (u * u * u) - 6 * (u * u)) =
      (rnd (3 * rnd (rnd (u * u) * u)) - 3 * (u * u * u)) - (rnd (6 * rnd (u * u)) - 6 * (u * u)) := by ring
    rw [e1]
    refine (abs_sub _ _).trans ((add_le_add d e).trans ?_)
    rw [← add_mul]
    exact mul_le_mul_of_nonneg_right (by norm_num) h0
  have y1 : |3 * (u * u * u) - 6 * (u * u)| ≤ 12 := by
    refine (abs_sub _ _).trans ?_
    have := m (m := 3) (by norm_num) u3
    have := m (m := 6) (by norm_num) u2
    linarith
  have g := rnd_near' hr h0 h1 f (by norm_num) y1
  have g' : |rnd (rnd (3 * rnd (rnd (u * u) * u)) - rnd (6 * rnd (u * u))) + 4 - (3 * (u * u * u) - 6 * (u * u) + 4)| ≤ 40 * ε := by
    rw [add_sub_add_right_eq_sub]
    exact g.trans (mul_le_mul_of_nonneg_right (by norm_num) h0)
  have y2 : |3 * (u * u * u) - 6 * (u * u) + 4| ≤ 16 := by
    refine (abs_add_le _ _).trans ?_
    rw [abs_of_pos (by norm_num : (0 : ℝ) < 4)]
    linarith
  have i := rnd_near' hr h0 h1 g' (by norm_num) y2
  have j := rnd_near' hr h0 h1 (mul_near' h0 h1 c i (M := 1 / 6) (by norm_num) (by norm_num) (by norm_num) y2) (by norm_num) (M := 8 / 3) (by
    have := m (m := 1 / 6) (by norm_num) y2
    linarith)
  have e2 : 1 / 6 * (3 * u ^ 3 - 6 * u ^ 2 + 4) = 1 / 6 * (3 * (u * u * u) - 6 * (u * u) + 4) := by ring
  unfold inner
  rw [e2]
  exact j.trans (mul_le_mul_of_nonneg_right (by norm_num) h0)

/-- Sum of the four factors and of their moduli. -/
def Fair4 (k ε : ℝ) (a : ℝ) (s : S4 ℝ) : Prop :=
  |s.s0 + s.s1 + s.s2 + s.s3 - 1| ≤ k * ε ∧ |s.s0| + |s.s1| + |s.s2| + |s.s3| ≤ a

theorem cubic_fair (hr : Rounds ε rnd) (h0 : 0 ≤ ε) (h1 : ε ≤ 1 / 1000) {u : ℝ} (hu : InCell ε u) :
    Fair4 50 ε (11 / 10) (cubic rnd u) := by
  obtain ⟨a, b⟩ := hu
  have hua : |u| ≤ 11 / 10 := abs_le.mpr ⟨by linarith, by linarith⟩
  have hv := hr (1 - u)
  have hv' : |1 - u| ≤ 1 + 2 * ε := abs_le.mpr ⟨by linarith, by linarith⟩
  unfold Fair4 cubic
  simp only
  generalize rnd (1 - u) = v at *
  have hve : |v - (1 - u)| ≤ 2 * ε := hv.trans (by nlinarith)
  obtain ⟨p, q⟩ := abs_le.mp hve
  have hva : |v| ≤ 11 / 10 := abs_le.mpr ⟨by linarith, by linarith⟩
  have o1 := abs_le.mp (outer_near hr h0 h1 hua)
  have o2 := abs_le.mp (outer_near hr h0 h1 hva)
  have i1 := abs_le.mp (inner_near hr h0 h1 hua)
  have i2 := abs_le.mp (inner_near hr h0 h1 hva)
  have hu1 : -(1 / 100) ≤ u := by linarith
  have hu2 : u ≤ 1 + 1 / 100 := by linarith
  have hv1 : -(1 / 100) ≤ v := by linarith
  have hv2 : v ≤ 1 + 1 / 100 := by linarith
  have cb : ∀ x : ℝ, -(1 / 100) ≤ x → -(1 / 1000) ≤ 1 / 6 * x ^ 3 := by
    intro x hx
    rcases le_total 0 x with h | h
    · have := pow_nonneg h 3; linarith
    · nlinarith [pow_nonneg (neg_nonneg.mpr h) 2, mul_nonneg (neg_nonneg.mpr h) (neg_nonneg.mpr h)]
  have ib : ∀ x : ℝ, -(1 / 100) ≤ x → x ≤ 1 + 1 / 100 → 1 / 10 ≤ 1 / 6 * (3 * x ^ 3 - 6 * x ^ 2 + 4) := by
    intro x h h'
    nlinarith [mul_nonneg (sub_nonneg.mpr h) (sub_nonneg.mpr h'), mul_nonneg (sub_nonneg.mpr h) (sq_nonneg (x - 1)), sq_nonneg (x - 1)]
  have lip : |4 * v ^ 3 - 6 * v ^ 2 - (4 * (1 - u) ^ 3 - 6 * (1 - u) ^ 2)| ≤ 60 * ε := by
    have e : 4 * v ^ 3 - 6 * v ^ 2 - (4 * (1 - u) ^ 3 - 6 * (1 - u) ^ 2) =
      (v - (1 - u)) * (4 * (v ^ 2 + v * (1 - u) + (1 - u) ^ 2) - 6 * (v + (1 - u))) := by ring
    rw [e, abs_mul]
    have : |4 * (v ^ 2 + v * (1 - u) + (1 - u) ^ 2) - 6 * (v + (1 - u))| ≤ 30 := by
      refine abs_le.mpr ⟨by nlinarith [sq_nonneg (v + (1 - u))], by nlinarith⟩
    calc _ ≤ 2 * ε * 30 := mul_le_mul hve this (abs_nonneg _) (by linarith)
      _ = _ := by ring
  obtain ⟨l1, l2⟩ := abs_le.mp lip
  have sum : |outer rnd v + inner rnd u + inner rnd v + outer rnd u - 1| ≤ 50 * ε := by
    refine abs_le.mpr ⟨?_, ?_⟩ <;> nlinarith
  refine ⟨sum, ?_⟩
  have n1 := cb u hu1
  have n2 := cb v hv1
  have n3 := ib u hu1 hu2
  have n4 := ib v hv1 hv2
  rw [abs_of_nonneg (by linarith : 0 ≤ inner rnd u), abs_of_nonneg (by linarith : 0 ≤ inner rnd v)]
  have a1 : |outer rnd u| ≤ outer rnd u + 6 / 1000 := abs_le.mpr ⟨by linarith, by linarith⟩
  have a2 : |outer rnd v| ≤ outer rnd v + 6 / 1000 := abs_le.mpr ⟨by linarith, by linarith⟩
  have := (abs_le.mp sum).2
  linarith

private theorem correct_fair (hr : Rounds ε rnd) (h0 : 0 ≤ ε) (h1 : ε ≤ 1 / 1000) {u : ℝ} (hu : InCell ε u) {rc : Option ℝ}
    (hc : ∀ c, rc = some c → |c| ≤ 1) : Fair4 60 ε (18 / 10) (correct rnd rc u (cubic rnd u)) := by
  obtain ⟨s, t⟩ := cubic_fair hr h0 h1 hu
  cases rc with
  | none => exact ⟨s.trans (by linarith), t.trans (by norm_num)⟩
  | some c =>
    have hd := corr_abs hr h0 h1 hu (hc c rfl)
    unfold correct Fair4
    simp only
    generalize rnd (rnd (c * rnd (1 - u)) * u) = d at *
    generalize cubic rnd u = k at *
    have e1 := hr (k.s1 + d)
    have e2 := hr (k.s2 - d)
    have f1 := rnd_abs hr (k.s1 + d)
    have f2 := rnd_abs hr (k.s2 - d)
    have g1 := abs_add_le k.s1 d
    have g2 := abs_sub k.s2 d
    have n0 := abs_nonneg k.s0
    have n1 := abs_nonneg k.s1
    have n2 := abs_nonneg k.s2
    have n3 := abs_nonneg k.s3
    have b1 : |k.s1 + d| + |k.s2 - d| ≤ 17 / 10 - |k.s0| - |k.s3| := by linarith
    constructor
    · have e : k.s0 + rnd (k.s1 + d) + rnd (k.s2 - d) + k.s3 - 1 =
        (k.s0 + k.s1 + k.s2 + k.s3 - 1) + ((rnd (k.s1 + d) - (k.s1 + d)) + (rnd (k.s2 - d) - (k.s2 - d))) := by ring
      rw [e]
      refine (abs_add_le _ _).trans ?_
      have := abs_add_le (rnd (k.s1 + d) - (k.s1 + d)) (rnd (k.s2 - d) - (k.s2 - d))
      nlinarith
    · nlinarith

theorem fold_fair (hr : Rounds ε rnd) (h0 : 0 ≤ ε) (h1 : ε ≤ 1 / 1000) {s : S4 ℝ} (h : Fair4 60 ε (18 / 10) s) (c : ℝ) (n : ℕ) :
    Fair ε (toList (fold rnd c n s)) := by
  obtain ⟨a, b⟩ := h
  have n0 := abs_nonneg s.s0
  have n1 := abs_nonneg s.s1
  have n2 := abs_nonneg s.s2
  have n3 := abs_nonneg s.s3
  have key : ∀ x y, |x| + |y| ≤ 18 / 10 → |rnd (x + y) - (x + y)| ≤ 2 * ε ∧ |rnd (x + y)| ≤ |x| + |y| + 2 / 1000 := by
    intro x y hxy
    have h := abs_add_le x y
    exact ⟨(hr _).trans (by nlinarith), (rnd_abs hr _).trans (by nlinarith)⟩
  unfold Fair fold toList
  obtain ⟨a1, a2⟩ := abs_le.mp a
  split_ifs <;> simp only [List.sum_cons, List.sum_nil, List.map_cons, List.map_nil, abs_zero]
  · obtain ⟨p, q⟩ := key s.s2 s.s1 (by linarith)
    obtain ⟨p', q'⟩ := key s.s3 s.s0 (by linarith)
    obtain ⟨p1, p2⟩ := abs_le.mp p
    obtain ⟨p3, p4⟩ := abs_le.mp p'
    exact ⟨abs_le.mpr ⟨by linarith, by linarith⟩, by linarith⟩
  · obtain ⟨p, q⟩ := key s.s1 s.s0 (by linarith)
    obtain ⟨p1, p2⟩ := abs_le.mp p
    exact ⟨abs_le.mpr ⟨by linarith, by linarith⟩, by linarith⟩
  · obtain ⟨p, q⟩ := key s.s0 s.s3 (by linarith)
    obtain ⟨p', q'⟩ := key s.s1 s.s2 (by linarith)
    obtain ⟨p1, p2⟩ := abs_le.mp p
    obtain ⟨p3, p4⟩ := abs_le.mp p'
    exact ⟨abs_le.mpr ⟨by linarith, by linarith⟩, by linarith⟩
  · obtain ⟨p, q⟩ := key s.s2 s.s3 (by linarith)
    obtain ⟨p1, p2⟩ := abs_le.mp p
    exact ⟨abs_le.mpr ⟨by linarith, by linarith⟩, by linarith⟩
  · exact ⟨abs_le.mpr ⟨by linarith, by linarith⟩, by linarith⟩

/-! ### One particle -/

private theorem writes_vals (i j : ℤ) (zs rs : List ℝ) (w : ℝ) :
    (writes rnd i j zs rs w).map (fun x => x.v) = zs.flatMap fun s => rs.map fun t => rnd (rnd (s * t) * w) := by
  unfold writes
  rw [List.map_flatMap]
  simp only [List.map_map, Function.comp_def]
  have : ∀ s : ℝ, (rs.zipIdx.map fun x => rnd (rnd (s * x.1) * w)) = rs.map fun t => rnd (rnd (s * t) * w) := by
    intro s
    conv_rhs => rw [← List.zipIdx_map_fst (i := 0) (l := rs), List.map_map]
    rfl
  simp only [this]
  conv_rhs => rw [← List.zipIdx_map_fst (i := 0) (l := zs), List.flatMap_map]

private theorem term_near (hr : Rounds ε rnd) (h0 : 0 ≤ ε) (s t w : ℝ) :
    |rnd (rnd (s * t) * w) - s * t * w| ≤ (2 * ε + ε ^ 2) * (|s| * |t| * |w|) := by
  have a := hr (s * t)
  have b := hr (rnd (s * t) * w)
  have c := rnd_abs hr (s * t)
  rw [abs_mul] at b
  rw [abs_mul] at a c
  have e : rnd (rnd (s * t) * w) - s * t * w = (rnd (rnd (s * t) * w) - rnd (s * t) * w) + (rnd (s * t) - s * t) * w := by ring
  rw [e]
  refine (abs_add_le _ _).trans ?_
  rw [abs_mul (rnd (s * t) - s * t) w]
  have w0 := abs_nonneg w
  have d := mul_le_mul_of_nonneg_right a w0
  have f := mul_le_mul_of_nonneg_left (mul_le_mul_of_nonneg_right c w0) h0
  nlinarith

private theorem row_near (hr : Rounds ε rnd) (h0 : 0 ≤ ε) (h1 : ε ≤ 1 / 1000) (s w : ℝ) (rs : List ℝ) :
    |(rs.map fun t => rnd (rnd (s * t) * w)).sum - s * rs.sum * w| ≤ (2 * ε + ε ^ 2) * (|s| * (rs.map fun t => |t|).sum * |w|) := by
  induction rs with
  | nil => simp
  | cons t rs ih =>
    simp only [List.map_cons, List.sum_cons]
    have := term_near hr h0 s t w
    have e : rnd (rnd (s * t) * w) + (rs.map fun t => rnd (rnd (s * t) * w)).sum - s * (t + rs.sum) * w =
      (rnd (rnd (s * t) * w) - s * t * w) + ((rs.map fun t => rnd (rnd (s * t) * w)).sum - s * rs.sum * w) := by ring
    rw [e]
    refine (abs_add_le _ _).trans ((add_le_add this ih).trans (le_of_eq ?_))
    ring

private theorem all_near (hr : Rounds ε rnd) (h0 : 0 ≤ ε) (h1 : ε ≤ 1 / 1000) (w : ℝ) (zs rs : List ℝ) :
    |(zs.flatMap fun s => rs.map fun t => rnd (rnd (s * t) * w)).sum - zs.sum * rs.sum * w| ≤
      (2 * ε + ε ^ 2) * ((zs.map fun s => |s|).sum * (rs.map fun t => |t|).sum * |w|) := by
  induction zs with
  | nil => simp
  | cons s zs ih =>
    simp only [List.flatMap_cons, List.sum_append, List.map_cons, List.sum_cons]
    have := row_near hr h0 h1 s w rs
    have e : (rs.map fun t => rnd (rnd (s * t) * w)).sum + (zs.flatMap fun s => rs.map fun t => rnd (rnd (s * t) * w)).sum -
        (s + zs.sum) * rs.sum * w = ((rs.map fun t => rnd (rnd (s * t) * w)).sum - s * rs.sum * w) +
        ((zs.flatMap fun s => rs.map fun t => rnd (rnd (s * t) * w)).sum - zs.sum * rs.sum * w) := by ring
    rw [e]
    refine (abs_add_le _ _).trans ((add_le_add this ih).trans (le_of_eq ?_))
    ring

private theorem all_abs (hr : Rounds ε rnd) (h0 : 0 ≤ ε) (w : ℝ) (zs rs : List ℝ) :
    ((zs.flatMap fun s => rs.map fun t => rnd (rnd (s * t) * w)).map fun x => |x|).sum ≤
      (1 + ε) ^ 2 * ((zs.map fun s => |s|).sum * (rs.map fun t => |t|).sum * |w|) := by
  have one : ∀ s t, |rnd (rnd (s * t) * w)| ≤ (1 + ε) ^ 2 * (|s| * |t| * |w|) := by
    intro s t
    have a := rnd_abs hr (rnd (s * t) * w)
    have b := rnd_abs hr (s * t)
    rw [abs_mul] at a b
    have := mul_le_mul_of_nonneg_left (mul_le_mul_of_nonneg_right b (abs_nonneg w)) (by linarith : 0 ≤ 1 + ε)
    nlinarith
  have row : ∀ s, ((rs.map fun t => rnd (rnd (s * t) * w)).map fun x => |x|).sum ≤ (1 + ε) ^ 2 * (|s| * (rs.map fun t => |t|).sum * |w|) := by
    intro s
    induction rs with
    | nil => simp
    | cons t rs ih =>
      simp only [List.map_cons, List.sum_cons] at ih ⊢
      have := one s t
      nlinarith
  induction zs with
  | nil => simp
  | cons s zs ih =>
    simp only [List.flatMap_cons, List.map_append, List.sum_append, List.map_cons, List.sum_cons] at ih ⊢
    have := row s
    nlinarith

theorem writes_charge (hr : Rounds ε rnd) (h0 : 0 ≤ ε) (h1 : ε ≤ 1 / 1000) (i j : ℤ) {zs rs : List ℝ} (hz : Fair ε zs) (hrs : Fair ε rs)
    (w : ℝ) : |((writes rnd i j zs rs w).map fun x => x.v).sum - w| ≤ 200 * ε * |w| ∧
      ((writes rnd i j zs rs w).map fun x => |x.v|).sum ≤ 5 * |w| := by
  obtain ⟨a, b⟩ := hz
  obtain ⟨c, d⟩ := hrs
  have w0 := abs_nonneg w
  have Z0 : 0 ≤ (zs.map fun s => |s|).sum := List.sum_nonneg (by simp)
  have R0 : 0 ≤ (rs.map fun s => |s|).sum := List.sum_nonneg (by simp)
  have zr : (zs.map fun s => |s|).sum * (rs.map fun s => |s|).sum ≤ 4 := by nlinarith
  have e : ((writes rnd i j zs rs w).map fun x => |x.v|) = ((writes rnd i j zs rs w).map fun x => x.v).map fun x => |x| := by
    rw [List.map_map]; rfl
  rw [e, writes_vals]
  constructor
  · have := all_near hr h0 h1 w zs rs
    have h : |zs.sum * rs.sum * w - w| ≤ 170 * ε * |w| := by
      have e : zs.sum * rs.sum * w - w = (zs.sum * rs.sum - 1 * 1) * w := by ring
      rw [e, abs_mul]
      have := Base.mul_near a c (M := 1) (M' := 1) (by norm_num) (by norm_num)
      refine mul_le_mul_of_nonneg_right (this.trans ?_) w0
      nlinarith
    have h2 := abs_sub_le ((zs.flatMap fun s => rs.map fun t => rnd (rnd (s * t) * w)).sum) (zs.sum * rs.sum * w) w
    have h3 : (2 * ε + ε ^ 2) * ((zs.map fun s => |s|).sum * (rs.map fun s => |s|).sum * |w|) ≤ 30 * ε * |w| := by
      have h4 : 2 * ε + ε ^ 2 ≤ 3 * ε := by nlinarith
      have h5 := mul_le_mul_of_nonneg_right zr w0
      have h6 : 0 ≤ (zs.map fun s => |s|).sum * (rs.map fun s => |s|).sum * |w| := by positivity
      calc _ ≤ 3 * ε * (4 * |w|) := mul_le_mul h4 h5 h6 (by linarith)
        _ ≤ _ := by nlinarith [mul_nonneg h0 w0]
    linarith
  · refine (all_abs hr h0 w zs rs).trans ?_
    have h5 := mul_le_mul_of_nonneg_right zr w0
    have h6 : 0 ≤ (zs.map fun s => |s|).sum * (rs.map fun s => |s|).sum * |w| := by positivity
    have h7 : (1 + ε) ^ 2 ≤ 5 / 4 := by nlinarith
    calc _ ≤ 5 / 4 * (4 * |w|) := mul_le_mul h7 h5 h6 (by norm_num)
      _ = _ := by ring

/-- The coefficients of the correction are at most one. -/
def SmallCoef (coef : Option (ℕ → ℝ)) : Prop := ∀ c, coef = some c → ∀ k, |c k| ≤ 1

theorem writesOf_charge (hr : Rounds ε rnd) (h0 : 0 ≤ ε) (h1 : ε ≤ 1 / 1000) (sh : Shape) {coef : Option (ℕ → ℝ)} (hc : SmallCoef coef)
    (g : Grid ℝ) {p : Part} (hp : Inside rnd g p) :
    |((writesOf rnd sh coef g p).map fun x => x.v).sum - p.w| ≤ 200 * ε * |p.w| ∧
      ((writesOf rnd sh coef g p).map fun x => |x.v|).sum ≤ 5 * |p.w| := by
  have hc' : ∀ k c, (coef.map fun c => c k) = some c → |c| ≤ 1 := by
    intro k c h
    obtain ⟨f, hf, rfl⟩ := Option.map_eq_some_iff.mp h
    exact hc f hf k
  cases sh with
  | linear =>
    unfold writesOf writesLinear
    simp only [if_pos hp]
    exact writes_charge hr h0 h1 _ _ (zLinear_fair hr h0 h1 (uZ_inCell hr h0 h1 g p))
      (rLinear_fair hr h0 h1 (uR_inCell hr h0 h1 g p) (hc' _)) _
  | cubic =>
    unfold writesOf writesCubic
    simp only [if_pos hp]
    have hz := cubic_fair hr h0 h1 (frac_inCell hr h0 h1 (zCell rnd g p))
    exact writes_charge hr h0 h1 _ _ (fold_fair hr h0 h1 ⟨hz.1.trans (by linarith), hz.2.trans (by norm_num)⟩ _ _)
      (fold_fair hr h0 h1 (correct_fair hr h0 h1 (frac_inCell hr h0 h1 _) (hc' _)) _ _) _

/-! ### The array -/

/-- The writes to one cell. -/
def at' (L : List (Write ℝ)) (i j : ℤ) : List (Write ℝ) := L.filter fun w => decide (i = w.i ∧ j = w.j)

theorem foldl_near (hr : Rounds ε rnd) (h0 : 0 ≤ ε) (i j : ℤ) : ∀ (L : List (Write ℝ)) (a : ℤ → ℤ → ℝ),
    |L.foldl (addTo rnd) a i j - (a i j + ((at' L i j).map fun w => w.v).sum)| ≤
      ((1 + ε) ^ (at' L i j).length - 1) * (|a i j| + ((at' L i j).map fun w => |w.v|).sum)
  | [], a => by simp [at']
  | w :: L, a => by
    have ih := foldl_near hr h0 i j L (addTo rnd a w)
    rw [List.foldl_cons]
    by_cases h : i = w.i ∧ j = w.j
    · have e : at' (w :: L) i j = w :: at' L i j := by
        unfold at'; rw [List.filter_cons_of_pos (by simpa using h)]
      have ea : addTo rnd a w i j = rnd (a i j + w.v) := by unfold addTo; exact if_pos h
      rw [ea] at ih
      rw [e]
      simp only [List.map_cons, List.sum_cons, List.length_cons]
      have T0 : 0 ≤ ((at' L i j).map fun w => |w.v|).sum := List.sum_nonneg (by simp)
      generalize ((at' L i j).map fun w => |w.v|).sum = T at *
      generalize ((at' L i j).map fun w => w.v).sum = S at *
      generalize L.foldl (addTo rnd) (addTo rnd a w) i j = R at *
      have r1 := hr (a i j + w.v)
      have r2 := rnd_abs hr (a i j + w.v)
      have r3 := abs_add_le (a i j) w.v
      generalize rnd (a i j + w.v) = q at *
      have P1 : 1 ≤ (1 + ε) ^ (at' L i j).length := one_le_pow₀ (by linarith)
      rw [pow_succ]
      generalize (1 + ε) ^ (at' L i j).length = P at *
      have t := abs_sub_le R (q + S) (a i j + (w.v + S))
      have e2 : q + S - (a i j + (w.v + S)) = q - (a i j + w.v) := by ring
      rw [e2] at t
      have s1 : |q| ≤ (1 + ε) * (|a i j| + |w.v|) := r2.trans (mul_le_mul_of_nonneg_left r3 (by linarith))
      have s2 : |q - (a i j + w.v)| ≤ ε * (|a i j| + |w.v|) := r1.trans (mul_le_mul_of_nonneg_left r3 h0)
      have s3 := mul_le_mul_of_nonneg_left (add_le_add_left s1 T) (by linarith : 0 ≤ P - 1)
      have s4 : 0 ≤ P * ε * T := by positivity
      nlinarith
    · have e : at' (w :: L) i j = at' L i j := by
        unfold at'; rw [List.filter_cons_of_neg (by simpa using h)]
      have ea : addTo rnd a w i j = a i j := by unfold addTo; exact if_neg h
      rw [ea] at ih
      rw [e]
      exact ih

private theorem deposit_eq (sh : Shape) (coef : Option (ℕ → ℝ)) (g : Grid ℝ) (ps : List Part) (a : ℤ → ℤ → ℝ) :
    deposit rnd sh coef g ps a = (ps.flatMap fun p => writesOf rnd sh coef g p).foldl (addTo rnd) a := by
  unfold deposit
  induction ps generalizing a with
  | nil => rfl
  | cons p ps ih => rw [List.foldl_cons, ih, List.flatMap_cons, List.foldl_append]

theorem writes_pos (i j : ℤ) (zs rs : List ℝ) (w : ℝ) :
    (writes rnd i j zs rs w).map (fun x => (x.i, x.j)) =
      (List.range zs.length).flatMap fun s : ℕ => (List.range rs.length).map fun t : ℕ => (i + (s : ℤ), j + (t : ℤ)) := by
  unfold writes
  rw [List.map_flatMap]
  simp only [List.map_map, Function.comp_def]
  have : ∀ s : ℕ, (rs.zipIdx.map fun x : ℝ × ℕ => (i + (s : ℤ), j + (x.2 : ℤ))) = (List.range rs.length).map fun t : ℕ => (i + (s : ℤ), j + (t : ℤ)) := by
    intro s
    rw [List.range_eq_range', ← List.zipIdx_map_snd (l := rs), List.map_map]
    rfl
  simp only [this]
  rw [List.range_eq_range' (n := zs.length), ← List.zipIdx_map_snd (l := zs), List.flatMap_map]

theorem writes_nodup (i j : ℤ) (zs rs : List ℝ) (w : ℝ) : ((writes rnd i j zs rs w).map fun x => (x.i, x.j)).Nodup := by
  rw [writes_pos]
  have e : ((List.range zs.length).flatMap fun s : ℕ => (List.range rs.length).map fun t : ℕ => (i + (s : ℤ), j + (t : ℤ))) =
      ((List.range zs.length) ×ˢ (List.range rs.length)).map fun x : ℕ × ℕ => (i + (x.1 : ℤ), j + (x.2 : ℤ)) := by
    simp only [SProd.sprod, List.product, List.map_flatMap, List.map_map, Function.comp_def]
  rw [e]
  refine List.Nodup.map ?_ (List.nodup_range.product List.nodup_range)
  rintro ⟨a, b⟩ ⟨c, d⟩ h
  simp only [Prod.mk.injEq] at h ⊢
  omega

private theorem writesOf_nodup (sh : Shape) (coef : Option (ℕ → ℝ)) (g : Grid ℝ) (p : Part) :
    ((writesOf rnd sh coef g p).map fun x => (x.i, x.j)).Nodup := by
  cases sh <;> unfold writesOf <;> simp only
  · unfold writesLinear
    split_ifs
    · exact writes_nodup _ _ _ _ _
    · simp
  · unfold writesCubic
    split_ifs
    · exact writes_nodup _ _ _ _ _
    · simp

theorem at_one {L : List (Write ℝ)} (h : (L.map fun x => (x.i, x.j)).Nodup) (i j : ℤ) : (at' L i j).length ≤ 1 := by
  have := List.nodup_iff_count_le_one.mp h (i, j)
  rw [List.count, List.countP_map] at this
  unfold at'
  rw [← List.countP_eq_length_filter]
  refine le_trans (le_of_eq (List.countP_congr ?_)) this
  intro x _
  simp only [Function.comp_def, decide_eq_true_eq, beq_iff_eq, Prod.mk.injEq]
  constructor <;> rintro ⟨h1, h2⟩ <;> exact ⟨h1.symm, h2.symm⟩

private theorem at_count (sh : Shape) (coef : Option (ℕ → ℝ)) (g : Grid ℝ) (ps : List Part) (i j : ℤ) :
    (at' (ps.flatMap fun p => writesOf rnd sh coef g p) i j).length ≤ ps.length := by
  induction ps with
  | nil => simp [at']
  | cons p ps ih =>
    rw [List.flatMap_cons, List.length_cons]
    unfold at' at ih ⊢
    rw [List.filter_append, List.length_append]
    have := at_one (writesOf_nodup (rnd := rnd) sh coef g p) i j
    unfold at' at this
    omega

/-- The cells of the array (deposition.py 40-43). -/
noncomputable def cells (g : Grid ℝ) : Finset (ℤ × ℤ) := Finset.Icc 0 ((g.nz : ℤ) + 3) ×ˢ Finset.Icc 0 ((g.nr : ℤ) + 3)

theorem sum_at (B : Finset (ℤ × ℤ)) (f : Write ℝ → ℝ) : ∀ (L : List (Write ℝ)), (∀ w ∈ L, (w.i, w.j) ∈ B) →
    ∑ c ∈ B, ((at' L c.1 c.2).map f).sum = (L.map f).sum
  | [], _ => by simp [at']
  | w :: L, h => by
    have ih := sum_at B f L fun x hx => h x (List.mem_cons_of_mem _ hx)
    have e : ∀ c : ℤ × ℤ, ((at' (w :: L) c.1 c.2).map f).sum = (if c = (w.i, w.j) then f w else 0) + ((at' L c.1 c.2).map f).sum := by
      intro c
      unfold at'
      by_cases hc : c = (w.i, w.j)
      · subst hc
        rw [List.filter_cons_of_pos (by simp), List.map_cons, List.sum_cons, if_pos rfl]
      · rw [List.filter_cons_of_neg (by
          intro hh
          exact hc (Prod.ext (by simpa using (of_decide_eq_true hh).1) (by simpa using (of_decide_eq_true hh).2))), if_neg hc, zero_add]
    simp only [e, Finset.sum_add_distrib, ih, List.map_cons, List.sum_cons]
    rw [Finset.sum_ite_eq' B (w.i, w.j) (fun _ => f w), if_pos (h w List.mem_cons_self)]

/-! ### Bounds of the array -/

/-- The grid has positive cells, the first radial point is half a cell from the axis, and positions are resolved: the rounding error
is smaller than an eighth of a cell over the grid. -/
structure Resolved (ε : ℝ) (g : Grid ℝ) : Prop where
  nz : 1 ≤ g.nz
  dz : 0 < g.dz
  dr : 0 < g.dr
  rMin : g.rMin = g.dr / 2
  z : 8 * ε * (|g.zMin| + g.nz * g.dz) ≤ g.dz
  r : 10 * ε * g.nr ≤ 1

theorem rnd_sign (hr : Rounds ε rnd) (h1 : ε ≤ 1 / 1000) {x : ℝ} (hx : 0 ≤ x) : 0 ≤ rnd x ∧ rnd x ≤ (1 + ε) * x := by
  have := hr x
  rw [abs_of_nonneg hx, abs_le] at this
  constructor <;> nlinarith

private theorem zCell_mem (hr : Rounds ε rnd) (h0 : 0 ≤ ε) (h1 : ε ≤ 1 / 1000) {g : Grid ℝ} (hg : Resolved ε g) {p : Part} (hp : Inside rnd g p) :
    0 ≤ zCell rnd g p ∧ zCell rnd g p ≤ g.nz := by
  obtain ⟨a, b, -⟩ := hp
  unfold zCell
  have d0 := hg.dz
  have n1 : (1 : ℝ) ≤ g.nz := by exact_mod_cast hg.nz
  obtain ⟨s1, s2⟩ := rnd_sign hr h1 (sub_nonneg.mpr a)
  obtain ⟨t1, t2⟩ := rnd_sign hr h1 (div_nonneg s1 d0.le)
  refine ⟨t1, t2.trans ?_⟩
  have X0 : 0 ≤ ((g.nz : ℝ) - 1) * g.dz := mul_nonneg (by linarith) d0.le
  have hX := hr (((g.nz : ℝ) - 1) * g.dz)
  rw [abs_of_nonneg X0] at hX
  obtain ⟨x1, x2⟩ := rnd_sign hr h1 X0
  have hz := hr (g.zMin + rnd (((g.nz : ℝ) - 1) * g.dz))
  have hz' := abs_add_le g.zMin (rnd (((g.nz : ℝ) - 1) * g.dz))
  rw [abs_of_nonneg x1] at hz'
  have hm := hg.z
  unfold zMax at b
  have eX : ((g.nz : ℝ) - 1) * g.dz = g.nz * g.dz - g.dz := by ring
  generalize hXd : ((g.nz : ℝ) - 1) * g.dz = X at *
  have zm := abs_nonneg g.zMin
  have hd : p.z - g.zMin ≤ X + ε * (|g.zMin| + 3 * X) := by
    have h2 := (abs_le.mp hX).2
    have h3 := (abs_le.mp hz).2
    have h4 := mul_le_mul_of_nonneg_left (hz'.trans (add_le_add_right x2 _)) h0
    have h5 : ε * ((1 + ε) * X) ≤ ε * (2 * X) := mul_le_mul_of_nonneg_left (mul_le_mul_of_nonneg_right (by linarith) X0) h0
    nlinarith
  have hf : (1 + ε) * (rnd (p.z - g.zMin)) ≤ g.nz * g.dz := by
    have c1 : (1 + ε) * (rnd (p.z - g.zMin)) ≤ (1 + 3 * ε) * (X + ε * (|g.zMin| + 3 * X)) := by
      calc _ ≤ (1 + ε) * ((1 + ε) * (p.z - g.zMin)) := mul_le_mul_of_nonneg_left s2 (by linarith)
        _ = (1 + ε) * (1 + ε) * (p.z - g.zMin) := by ring
        _ ≤ (1 + 3 * ε) * (X + ε * (|g.zMin| + 3 * X)) :=
          mul_le_mul (by nlinarith) hd (sub_nonneg.mpr a) (by linarith)
    have c2 : 0 ≤ ε * X := mul_nonneg h0 X0
    have c3 : 0 ≤ ε * |g.zMin| := mul_nonneg h0 zm
    have c4 : 0 ≤ ε * g.dz := mul_nonneg h0 d0.le
    have c5 : ε * (ε * (|g.zMin| + 3 * X)) ≤ 1 / 1000 * (ε * (|g.zMin| + 3 * X)) := mul_le_mul_of_nonneg_right h1 (by nlinarith)
    nlinarith
  rw [← mul_div_assoc, div_le_iff₀ d0]
  exact hf

/-- The radial position of a particle in units of cells. -/
theorem cell_mem (hr : Rounds ε rnd) (h0 : 0 ≤ ε) (h1 : ε ≤ 1 / 1000) {g : Grid ℝ} (d0 : 0 < g.dr) (hm : g.rMin = g.dr / 2)
    (hrr : 10 * ε * g.nr ≤ 1) {ρ : ℝ} (r0 : 0 ≤ ρ) (c : ρ ≤ rMax rnd g) :
    -1 < rnd (rnd (ρ - g.rMin) / g.dr) ∧ rnd (rnd (ρ - g.rMin) / g.dr) ≤ g.nr := by
  have n0 : (0 : ℝ) ≤ g.nr := Nat.cast_nonneg _
  obtain ⟨m0, m1⟩ := rnd_sign hr h1 (mul_nonneg n0 d0.le)
  unfold rMax at c
  rw [hm]
  have e1 := hr (ρ - g.dr / 2)
  have e2 := hr (rnd (ρ - g.dr / 2) / g.dr)
  rcases le_total 0 (ρ - g.dr / 2) with h | h
  · obtain ⟨s1, s2⟩ := rnd_sign hr h1 h
    obtain ⟨t1, t2⟩ := rnd_sign hr h1 (div_nonneg s1 d0.le)
    refine ⟨by linarith, t2.trans ?_⟩
    rw [← mul_div_assoc, div_le_iff₀ d0]
    have hρ : ρ - g.dr / 2 ≤ ((1 + ε) * g.nr - 1 / 2) * g.dr := by nlinarith
    have q0 : 0 ≤ ((1 + ε) * g.nr - 1 / 2) * g.dr := h.trans hρ
    calc _ ≤ (1 + ε) * ((1 + ε) * (ρ - g.dr / 2)) := mul_le_mul_of_nonneg_left s2 (by linarith)
      _ = (1 + ε) * (1 + ε) * (ρ - g.dr / 2) := by ring
      _ ≤ (1 + 3 * ε) * (((1 + ε) * g.nr - 1 / 2) * g.dr) := mul_le_mul (by nlinarith) hρ h (by linarith)
      _ = ((1 + 3 * ε) * ((1 + ε) * g.nr - 1 / 2)) * g.dr := by ring
      _ ≤ g.nr * g.dr := by
        refine mul_le_mul_of_nonneg_right ?_ d0.le
        nlinarith [mul_nonneg h0 n0, mul_nonneg h0 (mul_nonneg h0 n0)]
  · have habs : |ρ - g.dr / 2| ≤ g.dr / 2 := abs_le.mpr ⟨by linarith, by linarith⟩
    have f1 : |rnd (ρ - g.dr / 2)| ≤ (1 + ε) * (g.dr / 2) := (rnd_abs hr _).trans (mul_le_mul_of_nonneg_left habs (by linarith))
    have f2 : |rnd (rnd (ρ - g.dr / 2) / g.dr)| ≤ (1 + ε) * ((1 + ε) / 2) := by
      refine (rnd_abs hr _).trans (mul_le_mul_of_nonneg_left ?_ (by linarith))
      rw [abs_div, abs_of_pos d0, div_le_iff₀ d0]
      linarith
    have f3 : (1 + ε) * ((1 + ε) / 2) < 1 := by nlinarith
    refine ⟨by linarith [(abs_le.mp f2).1], ?_⟩
    have u1 : rnd (ρ - g.dr / 2) ≤ 0 := by
      rw [abs_of_nonpos h] at e1
      nlinarith [(abs_le.mp e1).2]
    have u2 : rnd (ρ - g.dr / 2) / g.dr ≤ 0 := div_nonpos_of_nonpos_of_nonneg u1 d0.le
    rw [abs_of_nonpos u2] at e2
    nlinarith [(abs_le.mp e2).2]

private theorem rCell_mem (hr : Rounds ε rnd) (h0 : 0 ≤ ε) (h1 : ε ≤ 1 / 1000) {g : Grid ℝ} (hg : Resolved ε g) {p : Part} (hp : Inside rnd g p) :
    -1 < rCell rnd g p ∧ rCell rnd g p ≤ g.nr :=
  cell_mem hr h0 h1 hg.dr hg.rMin hg.r (rnd_sign hr h1 (Real.sqrt_nonneg _)).1 hp.2.2

/-- No particle, wherever it is, leads to an access outside of the arrays. -/
theorem rounded_writes_in_bounds (hr : Rounds ε rnd) (h0 : 0 ≤ ε) (h1 : ε ≤ 1 / 1000) (sh : Shape) (coef : Option (ℕ → ℝ)) {g : Grid ℝ}
    (hg : Resolved ε g) (p : Part) :
    (∀ w ∈ writesOf rnd sh coef g p, 0 ≤ w.i ∧ w.i < g.nz + 4 ∧ 0 ≤ w.j ∧ w.j < g.nr + 4) ∧
      (Inside rnd g p → 0 ≤ ⌈rCell rnd g p⌉) := by
  by_cases hp : Inside rnd g p
  · obtain ⟨a, b⟩ := zCell_mem hr h0 h1 hg hp
    obtain ⟨c, d⟩ := rCell_mem hr h0 h1 hg hp
    have z1 : 0 ≤ ⌈zCell rnd g p⌉ := Int.ceil_nonneg a
    have z2 : ⌈zCell rnd g p⌉ ≤ g.nz := Int.ceil_le.mpr (by exact_mod_cast b)
    have r1 : 0 ≤ ⌈rCell rnd g p⌉ := Int.ceil_nonneg_of_neg_one_lt c
    have r2 : ⌈rCell rnd g p⌉ ≤ g.nr := Int.ceil_le.mpr (by exact_mod_cast d)
    refine ⟨?_, fun _ => r1⟩
    have pos : ∀ (i j : ℤ) (zs rs : List ℝ) (w : ℝ), ∀ x ∈ writes rnd i j zs rs w,
        i ≤ x.i ∧ x.i < i + zs.length ∧ j ≤ x.j ∧ x.j < j + rs.length := by
      intro i j zs rs w x hx
      have := List.mem_map_of_mem (f := fun x : Write ℝ => (x.i, x.j)) hx
      rw [writes_pos] at this
      simp only [List.mem_flatMap, List.mem_map, List.mem_range, Prod.mk.injEq] at this
      obtain ⟨s, hs, t, ht, e1, e2⟩ := this
      omega
    cases sh with
    | linear =>
      unfold writesOf writesLinear
      simp only [if_pos hp]
      intro w hw
      have := pos _ _ _ _ _ w hw
      have l1 : (zLinear rnd (uZ rnd g p)).length = 2 := rfl
      have l2 : ∀ rc u, (rLinear rnd rc u).length = 2 := by intro rc u; cases rc <;> rfl
      rw [l1, l2] at this
      omega
    | cubic =>
      unfold writesOf writesCubic
      simp only [if_pos hp]
      intro w hw
      have := pos _ _ _ _ _ w hw
      have l1 : ∀ s, (toList s).length = 4 := fun _ => rfl
      rw [l1, l1] at this
      omega
  · refine ⟨?_, fun h => absurd h hp⟩
    cases sh <;> simp [writesOf, writesLinear, writesCubic, hp]

/-! ### The charge on the grid -/

open Classical in
/-- The charge of the particles inside of the grid. -/
noncomputable def charge (rnd : ℝ → ℝ) (g : Grid ℝ) (ps : List Part) : ℝ := ((ps.filter fun p => Inside rnd g p).map fun p => p.w).sum

open Classical in
private theorem total (hr : Rounds ε rnd) (h0 : 0 ≤ ε) (h1 : ε ≤ 1 / 1000) (sh : Shape) {coef : Option (ℕ → ℝ)} (hc : SmallCoef coef)
    (g : Grid ℝ) (ps : List Part) :
    |((ps.flatMap fun p => writesOf rnd sh coef g p).map fun x => x.v).sum - charge rnd g ps| ≤ 200 * ε * (ps.map fun p => |p.w|).sum ∧
      ((ps.flatMap fun p => writesOf rnd sh coef g p).map fun x => |x.v|).sum ≤ 5 * (ps.map fun p => |p.w|).sum := by
  induction ps with
  | nil => simp [charge]
  | cons p ps ih =>
    obtain ⟨a, b⟩ := ih
    simp only [List.flatMap_cons, List.map_append, List.sum_append, List.map_cons, List.sum_cons]
    have w0 := abs_nonneg p.w
    by_cases hp : Inside rnd g p
    · obtain ⟨c, d⟩ := writesOf_charge hr h0 h1 sh hc g hp
      have e : charge rnd g (p :: ps) = p.w + charge rnd g ps := by
        unfold charge
        rw [List.filter_cons_of_pos (by simpa using hp), List.map_cons, List.sum_cons]
      rw [e]
      refine ⟨?_, by linarith⟩
      generalize ((writesOf rnd sh coef g p).map fun x => x.v).sum = A at *
      generalize ((ps.flatMap fun p => writesOf rnd sh coef g p).map fun x => x.v).sum = B at *
      have e2 : A + B - (p.w + charge rnd g ps) = (A - p.w) + (B - charge rnd g ps) := by ring
      rw [e2]
      refine (abs_add_le _ _).trans ((add_le_add c a).trans (le_of_eq ?_))
      ring
    · have e : charge rnd g (p :: ps) = charge rnd g ps := by
        unfold charge
        rw [List.filter_cons_of_neg (by simpa using hp)]
      have e' : writesOf rnd sh coef g p = [] := by cases sh <;> simp [writesOf, writesLinear, writesCubic, hp]
      rw [e, e']
      simp only [List.map_nil, List.sum_nil, zero_add]
      exact ⟨a.trans (by nlinarith [mul_nonneg h0 w0]), by linarith⟩

/-- In floating point arithmetic the charge on the grid is that of the particles inside, up to rounding errors proportional to the charge
and to the number of particles. -/
theorem rounded_charge_conserved (hr : Rounds ε rnd) (h0 : 0 ≤ ε) (h1 : ε ≤ 1 / 1000) (sh : Shape) {coef : Option (ℕ → ℝ)}
    (hc : SmallCoef coef) {g : Grid ℝ} (hg : Resolved ε g) (ps : List Part) :
    |(∑ c ∈ cells g, deposit rnd sh coef g ps (fun _ _ => 0) c.1 c.2) - charge rnd g ps| ≤
      (200 * ε + 5 * ((1 + ε) ^ ps.length - 1)) * (ps.map fun p => |p.w|).sum := by
  obtain ⟨a, b⟩ := total hr h0 h1 sh hc g ps
  rw [deposit_eq]
  have hin : ∀ w ∈ ps.flatMap (fun p => writesOf rnd sh coef g p), (w.i, w.j) ∈ cells g := by
    intro w hw
    obtain ⟨p, -, hw⟩ := List.mem_flatMap.mp hw
    have := (rounded_writes_in_bounds hr h0 h1 sh coef hg p).1 w hw
    unfold cells
    simp only [Finset.mem_product, Finset.mem_Icc]
    omega
  have cnt := at_count (rnd := rnd) sh coef g ps
  generalize (ps.flatMap fun p => writesOf rnd sh coef g p) = L at *
  have s1 := sum_at (cells g) (fun w => w.v) L hin
  have s2 := sum_at (cells g) (fun w => |w.v|) L hin
  have near : |(∑ c ∈ cells g, L.foldl (addTo rnd) (fun _ _ => 0) c.1 c.2) - (L.map fun w => w.v).sum| ≤
      ((1 + ε) ^ ps.length - 1) * (L.map fun w => |w.v|).sum := by
    rw [← s1, ← s2, ← Finset.sum_sub_distrib, Finset.mul_sum]
    refine (Finset.abs_sum_le_sum_abs _ _).trans (Finset.sum_le_sum fun c _ => ?_)
    have := foldl_near hr h0 c.1 c.2 L (fun _ _ => 0)
    rw [zero_add, abs_zero, zero_add] at this
    refine this.trans (mul_le_mul_of_nonneg_right ?_ (List.sum_nonneg (by simp)))
    exact sub_le_sub_right (pow_le_pow_right₀ (by linarith) (cnt c.1 c.2)) 1
  have P : 0 ≤ (1 + ε) ^ ps.length - 1 := sub_nonneg.mpr (one_le_pow₀ (by linarith))
  have t := abs_sub_le (∑ c ∈ cells g, L.foldl (addTo rnd) (fun _ _ => 0) c.1 c.2) (L.map fun w => w.v).sum (charge rnd g ps)
  have := mul_le_mul_of_nonneg_left b P
  nlinarith

/-- The relative error of the charge on the grid grows with the number of particles only, by ten units of the rounding for each. -/
theorem rounded_charge_error (hr : Rounds ε rnd) (h0 : 0 ≤ ε) (h1 : ε ≤ 1 / 1000) (sh : Shape) {coef : Option (ℕ → ℝ)}
    (hc : SmallCoef coef) {g : Grid ℝ} (hg : Resolved ε g) (ps : List Part) (hN : ps.length * ε ≤ 1) :
    |(∑ c ∈ cells g, deposit rnd sh coef g ps (fun _ _ => 0) c.1 c.2) - charge rnd g ps| ≤
      (200 + 10 * ps.length) * ε * (ps.map fun p => |p.w|).sum := by
  refine (rounded_charge_conserved hr h0 h1 sh hc hg ps).trans (mul_le_mul_of_nonneg_right ?_ (List.sum_nonneg (by simp)))
  have a : (1 + ε) ^ ps.length ≤ Real.exp (ps.length * ε) := by
    rw [Real.exp_nat_mul]
    exact pow_le_pow_left₀ (by linarith) (by linarith [Real.add_one_le_exp ε]) _
  have n0 : 0 ≤ (ps.length : ℝ) * ε := mul_nonneg (Nat.cast_nonneg _) h0
  have b := (abs_le.mp (Real.abs_exp_sub_one_sub_id_le (x := ps.length * ε) (by rw [abs_of_nonneg n0]; exact hN))).2
  nlinarith

/-! ### Without rounding -/

/-- The coefficients of the correction in exact arithmetic (deposition.py 67-80, 155-168). -/
noncomputable def exactCoef (sh : Shape) (ruyten : Bool) (g : Grid ℝ) : Option (ℕ → ℝ) :=
  if ruyten then some (match sh with | .linear => ruytenLinear g | .cubic => ruytenCubic g) else none

/-- The exact coefficients satisfy what is required of the coefficients. -/
theorem exactCoef_small (sh : Shape) (ruyten : Bool) (g : Grid ℝ) (hd : 0 < g.dr) : SmallCoef (exactCoef sh ruyten g) := by
  intro c hc k
  have key : ∀ n : ℕ, 1 ≤ n → ∀ x : ℝ, 0 ≤ x → x ≤ 1 → |-(x / n)| ≤ 1 := by
    intro n hn x h0 h1
    have hn' : (1 : ℝ) ≤ n := by exact_mod_cast hn
    rw [abs_neg, abs_of_nonneg (by positivity), div_le_one (by linarith)]
    linarith
  cases ruyten with
  | false => simp [exactCoef] at hc
  | true =>
    cases sh with
    | linear =>
      simp only [exactCoef, if_true, Option.some.injEq] at hc
      subst hc
      rcases Nat.eq_zero_or_pos k with rfl | hk
      · simp [ruytenLinear]
      · rw [ruytenLinear_eq g hd hk.ne']
        have hn' : (1 : ℝ) ≤ k := by exact_mod_cast hk
        have := key k hk (1 / 4) (by norm_num) (by norm_num)
        convert this using 2
        field_simp
    | cubic =>
      simp only [exactCoef, if_true, Option.some.injEq] at hc
      subst hc
      rcases Nat.eq_zero_or_pos k with rfl | hk
      · simp [ruytenCubic]
      · rcases Nat.eq_or_lt_of_le hk with rfl | hk2
        · rw [ruytenCubic_one g hd]; norm_num [abs_le]
        · rw [ruytenCubic_eq g hd hk2]
          have hn' : (1 : ℝ) ≤ k := by exact_mod_cast hk
          have := key k hk (3 / 4) (by norm_num) (by norm_num)
          convert this using 2
          field_simp

/-- Without rounding the code with rounding is the code of `Verif.Deposition.Model`. -/
theorem exact_writes (sh : Shape) (ruyten : Bool) (g : Grid ℝ) (p : Part) :
    writesOf id sh (exactCoef sh ruyten g) g p = Deposition.writes sh ruyten g ⟨p.z, √(p.x ^ 2 + p.y ^ 2), p.w⟩ := by
  have hi : Inside id g p ↔ g.Inside ⟨p.z, √(p.x ^ 2 + p.y ^ 2), p.w⟩ := by
    simp [Inside, Grid.Inside, zMax, rMax, radius]
  have er : rCell id g p = g.rCell ⟨p.z, √(p.x ^ 2 + p.y ^ 2), p.w⟩ := by simp [rCell, Grid.rCell, radius]
  have ez : zCell id g p = g.zCell ⟨p.z, √(p.x ^ 2 + p.y ^ 2), p.w⟩ := by simp [zCell, Grid.zCell]
  have eur : uR id g p = Deposition.uR g ⟨p.z, √(p.x ^ 2 + p.y ^ 2), p.w⟩ := by simp [uR, Deposition.uR, frac, er]
  have euz : uZ id g p = Deposition.uZ g ⟨p.z, √(p.x ^ 2 + p.y ^ 2), p.w⟩ := by simp [uZ, Deposition.uZ, frac, er, ez]
  have ew : (⟨p.z, √(p.x ^ 2 + p.y ^ 2), p.w⟩ : Deposition.Part ℝ).w = p.w := rfl
  generalize (⟨p.z, √(p.x ^ 2 + p.y ^ 2), p.w⟩ : Deposition.Part ℝ) = q at *
  cases sh with
  | linear =>
    unfold writesOf Deposition.writes writesLinear Deposition.writesLinear
    by_cases h : g.Inside q
    · simp only [if_pos h, if_pos (hi.mpr h), er, ez, eur, euz]
      cases ruyten
      · simp [writes, exactCoef, zLinear, rLinear, List.zipIdx, ew]
      · simp [writes, exactCoef, zLinear, rLinear, List.zipIdx, ew, ruytenIndex]
    · simp only [if_neg h, if_neg (fun h' => h (hi.mp h'))]
  | cubic =>
    have ec : ∀ u : ℝ, cubic id u = cubicShape u := by
      intro u
      simp only [cubic, cubicShape, outer, inner, id_eq]
      congr 1 <;> ring
    have ef : ∀ c n s, fold id c n s = foldShape c n s := by
      intro c n s
      unfold fold foldShape
      split_ifs <;> simp
    unfold writesOf Deposition.writes writesCubic Deposition.writesCubic
    by_cases h : g.Inside q
    · simp only [if_pos h, if_pos (hi.mpr h), er, ez, ec, ef, frac, id_eq]
      cases ruyten
      · simp [writes, exactCoef, toList, correct, List.zipIdx, ew]
      · simp [writes, exactCoef, toList, correct, List.zipIdx, ew, ruytenIndex]
    · simp only [if_neg h, if_neg (fun h' => h (hi.mp h'))]

/-- Numbers of 64 bits, ten million particles: the charge is right to eight digits.  (The rounding of the example makes every result too
large; `Rounds` leaves open which rounding it is.) -/
example (sh : Shape) (ruyten : Bool) (ps : List Part) (hN : ps.length = 10 ^ 7) :
    let ε : ℝ := 1 / 2 ^ 53
    let g : Grid ℝ := ⟨-100, 1 / 20, 1000, 200, 1 / 10, 1 / 10⟩
    |(∑ c ∈ cells g, deposit (fun x => (1 + ε) * x) sh (exactCoef sh ruyten g) g ps (fun _ _ => 0) c.1 c.2) -
        charge (fun x => (1 + ε) * x) g ps| ≤ 1 / 10 ^ 7 * (ps.map fun p => |p.w|).sum := by
  intro ε g
  have h0 : 0 ≤ ε := by positivity
  have hr : Rounds ε (fun x => (1 + ε) * x) := by
    intro x
    have e : (1 + ε) * x - x = ε * x := by ring
    rw [e, abs_mul, abs_of_nonneg h0]
  have hg : Resolved ε g := ⟨by norm_num [g], by norm_num [g], by norm_num [g], by norm_num [g], by norm_num [g, ε], by norm_num [g, ε]⟩
  refine (rounded_charge_error hr h0 (by norm_num [ε]) sh (exactCoef_small sh ruyten g hg.dr) hg ps (by rw [hN]; norm_num [ε])).trans ?_
  refine mul_le_mul_of_nonneg_right ?_ (List.sum_nonneg (by simp))
  rw [hN]
  norm_num [ε]

/-- A particle in the grid, with rounding. -/
example : Inside (fun x => (1 + 1 / 1000) * x) ⟨-1, 1 / 20, 10, 20, 1 / 10, 1 / 10⟩ ⟨3 / 10, 4 / 10, -1 / 2, 1⟩ := by
  refine ⟨by norm_num, by norm_num [zMax], ?_⟩
  have : √((1 + 1 / 1000) * ((1 + 1 / 1000) * (3 / 10 : ℝ) ^ 2 + (1 + 1 / 1000) * (4 / 10 : ℝ) ^ 2)) ≤ 1 := by
    refine Real.sqrt_le_iff.mpr ⟨by norm_num, by norm_num⟩
  simp only [radius, rMax]
  norm_num at this ⊢
  linarith

end WakeT.Deposition.Rounded
