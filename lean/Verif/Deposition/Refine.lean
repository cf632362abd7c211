import Verif.Deposition.Lemmas

/-! # The writes of one particle as products of shape functions -/

set_option linter.unusedSectionVars false

namespace WakeT.Deposition

variable {K : Type*} [Field K] [LinearOrder K] [IsStrictOrderedRing K] [FloorRing K]

/-- Radial cell coordinate to which the linear shape is deposited: particles
within half a cell of the axis or of the outer boundary are moved to the nearest
cell centre. -/
def rClamp (g : Grid K) (p : Part K) : K := max 0 (min (g.rCell p) ((g.nr : K) - 1))

theorem effect_outside (sh : Shape) (b : Bool) (g : Grid K) (p : Part K) (h : ¬ g.Inside p)
    (i j : ℤ) : effect (writes sh b g p) i j = 0 := by
  cases sh <;> simp [writes, writesLinear, writesCubic, h, effect]

theorem effect_linear {g : Grid K} (hg : g.Regular) (hn : 1 ≤ g.nr) {p : Part K}
    (hp : g.Inside p) (hr : 0 ≤ p.r) (hbug : g.rCell p ≤ (g.nz : K) - 1) (i j : ℤ) :
    effect (writesLinear false g p) i j =
      p.w * hat ((i : K) - 2 - g.zCell p) * hat ((j : K) - 2 - rClamp g p) := by
  obtain ⟨hz1, hz2⟩ := zCell_mem hg hp
  obtain ⟨hr1, hr2⟩ := rCell_mem hg hp hr
  have hnK : (1 : K) ≤ g.nr := by exact_mod_cast hn
  -- longitudinal part
  have hz : hat ((i : K) - 2 - g.zCell p) =
      (if i = ⌈g.zCell p⌉ + 1 then 1 - uZ g p else 0) +
      (if i = ⌈g.zCell p⌉ + 1 + 1 then uZ g p else 0) := by
    have hu : uZ g p = g.zCell p - ⌈g.zCell p⌉ + 1 := by
      unfold uZ; rw [if_neg (not_lt.mpr hz1), if_neg (not_lt.mpr hbug)]
    have := hat_stencil (g.zCell p) ⌈g.zCell p⌉ (by linarith [Int.ceil_lt_add_one (g.zCell p)])
      (Int.le_ceil _) (i - 2)
    push_cast at this
    rw [this, hu]
    congr 1
    · exact if_congr (by omega) rfl rfl
    · exact if_congr (by omega) rfl rfl
  -- radial part
  have hrr : hat ((j : K) - 2 - rClamp g p) =
      (if j = min (⌈g.rCell p⌉ + 1) ((g.nr : ℤ) + 2) then 1 - uR g p else 0) +
      (if j = min (⌈g.rCell p⌉ + 1) ((g.nr : ℤ) + 2) + 1 then uR g p else 0) := by
    obtain ⟨hc1, hc2⟩ := ceil_rCell hg hp hr
    rw [min_eq_left (by omega : ⌈g.rCell p⌉ + 1 ≤ (g.nr : ℤ) + 2)]
    by_cases h1 : g.rCell p < 0
    · have hc : ⌈g.rCell p⌉ = 0 := by
        have : ⌈g.rCell p⌉ ≤ 0 := Int.ceil_le.mpr (by push_cast; exact h1.le)
        omega
      have hx : rClamp g p = 0 := by
        unfold rClamp; exact max_eq_left (le_trans (min_le_left _ _) h1.le)
      have hu : uR g p = 1 := by unfold uR; rw [if_pos h1]
      have := hat_stencil (0 : K) 0 (by norm_num) (by norm_num) (j - 2)
      push_cast at this
      rw [hx, hu, hc, this]
      congr 1
      · rw [show (1 : K) - (0 - 0 + 1) = 0 by ring]; simp
      · rw [show (0 : K) - 0 + 1 = 1 by ring]; exact if_congr (by omega) rfl rfl
    · rw [not_lt] at h1
      by_cases h2 : g.rCell p > (g.nr : K) - 1
      · have hc : ⌈g.rCell p⌉ = g.nr := by
          have : (g.nr : ℤ) - 1 < ⌈g.rCell p⌉ := Int.lt_ceil.mpr (by push_cast; exact h2)
          omega
        have hx : rClamp g p = (g.nr : K) - 1 := by
          unfold rClamp; rw [min_eq_right h2.le, max_eq_right (by linarith)]
        have hu : uR g p = 0 := by unfold uR; rw [if_neg (not_lt.mpr h1), if_pos h2]
        have := hat_stencil ((g.nr : K) - 1) ((g.nr : ℤ) - 1) (by push_cast; linarith)
          (by push_cast; exact le_rfl) (j - 2)
        push_cast at this
        rw [hx, hu, hc, this]
        rw [show (g.nr : K) - 1 - ((g.nr : K) - 1) + 1 = 1 by ring]
        simp only [sub_self, ite_self, zero_add, sub_zero, add_zero]
        exact if_congr (by omega) rfl rfl
      · rw [gt_iff_lt, not_lt] at h2
        have hx : rClamp g p = g.rCell p := by
          unfold rClamp; rw [min_eq_left h2, max_eq_right h1]
        have hu : uR g p = g.rCell p - ⌈g.rCell p⌉ + 1 := by
          unfold uR; rw [if_neg (not_lt.mpr h1), if_neg (not_lt.mpr h2)]
        have := hat_stencil (g.rCell p) ⌈g.rCell p⌉
          (by linarith [Int.ceil_lt_add_one (g.rCell p)]) (Int.le_ceil _) (j - 2)
        push_cast at this
        rw [hx, hu, this]
        congr 1
        · exact if_congr (by omega) rfl rfl
        · exact if_congr (by omega) rfl rfl
  rw [hz, hrr]
  simp only [writesLinear, hp, if_true, effect, List.map_cons, List.map_nil, List.sum_cons,
    List.sum_nil, Bool.false_eq_true, if_false, and_ite]
  rw [ite_mul_one _ (1 - uZ g p), ite_mul_one _ (uZ g p), ite_mul_one _ (1 - uR g p),
    ite_mul_one _ (uR g p)]
  ring

set_option maxHeartbeats 2000000 in
/-- Folded coefficients as reflected B-splines. -/
theorem foldShape_stencil {x : K} {n : ℕ} (hn : 3 ≤ n) (h1 : -(1 / 2) ≤ x)
    (h2 : x ≤ (n : K) - 1 / 2) (i : ℤ) :
    bsplineFolded n (i - 2) x =
      (if i = ⌈x⌉ then (foldShape x n (cubicShape (x - ⌈x⌉ + 1))).s0 else 0) +
      (if i = ⌈x⌉ + 1 then (foldShape x n (cubicShape (x - ⌈x⌉ + 1))).s1 else 0) +
      (if i = ⌈x⌉ + 2 then (foldShape x n (cubicShape (x - ⌈x⌉ + 1))).s2 else 0) +
      (if i = ⌈x⌉ + 3 then (foldShape x n (cubicShape (x - ⌈x⌉ + 1))).s3 else 0) := by
  have ha : (⌈x⌉ : K) - 1 < x := by linarith [Int.ceil_lt_add_one x]
  have hb : x ≤ ⌈x⌉ := Int.le_ceil x
  have hm0 : 0 ≤ ⌈x⌉ := by
    have : (-1 : ℤ) < ⌈x⌉ := Int.lt_ceil.mpr (by push_cast; linarith)
    omega
  have hmn : ⌈x⌉ ≤ n := Int.ceil_le.mpr (by push_cast; linarith)
  have e1 := bspline_stencil x ⌈x⌉ ha hb (i - 2)
  have e2 := bspline_stencil x ⌈x⌉ ha hb (-1 - (i - 2))
  have e3 := bspline_stencil x ⌈x⌉ ha hb (2 * n - 1 - (i - 2))
  set s := cubicShape (x - ⌈x⌉ + 1) with hs
  clear_value s
  unfold bsplineFolded
  push_cast at e1 e2 e3 ⊢
  rw [e1, e2, e3]
  -- each branch is determined by the position of the cell
  have hx0 : x ≤ 0 ↔ ⌈x⌉ ≤ 0 := by rw [Int.ceil_le]; simp
  have hx1 : x ≤ 1 ↔ ⌈x⌉ ≤ 1 := by rw [Int.ceil_le]; simp
  have hxn1 : x > (n : K) - 1 ↔ (n : ℤ) - 1 < ⌈x⌉ := by rw [Int.lt_ceil]; simp
  have hxn2 : x > (n : K) - 2 ↔ (n : ℤ) - 2 < ⌈x⌉ := by rw [Int.lt_ceil]; simp
  simp only [foldShape, hx0, hx1, hxn1, hxn2]
  clear hx0 hx1 hxn1 hxn2 e1 e2 e3 hs ha hb h1 h2
  generalize ⌈x⌉ = m at *
  have hn' : (3 : ℤ) ≤ n := by exact_mod_cast hn
  generalize (n : ℤ) = N at *
  by_cases hin : 0 ≤ i - 2 ∧ i - 2 < N
  · rw [if_pos hin]
    rcases (by omega : m = 0 ∨ m = 1 ∨ (2 ≤ m ∧ m = N) ∨ (2 ≤ m ∧ m = N - 1) ∨
      (2 ≤ m ∧ m ≤ N - 2)) with hm | hm | hm | hm | hm <;>
    rcases (by omega : i = m ∨ i = m + 1 ∨ i = m + 2 ∨ i = m + 3 ∨ i < m ∨ m + 3 < i) with
      hi | hi | hi | hi | hi | hi <;>
    (repeat first | rw [if_neg (by omega)] | rw [if_pos (by omega)]) <;> try ring
  · rw [if_neg hin]
    rcases (by omega : m = 0 ∨ m = 1 ∨ (2 ≤ m ∧ m = N) ∨ (2 ≤ m ∧ m = N - 1) ∨
      (2 ≤ m ∧ m ≤ N - 2)) with hm | hm | hm | hm | hm <;>
    rcases (by omega : i = m ∨ i = m + 1 ∨ i = m + 2 ∨ i = m + 3 ∨ i < m ∨ m + 3 < i) with
      hi | hi | hi | hi | hi | hi <;>
    (repeat first | rw [if_neg (by omega)] | rw [if_pos (by omega)]) <;> try ring

theorem effect_cubic {g : Grid K} (hg : g.Regular) (hnz : 3 ≤ g.nz) (hnr : 3 ≤ g.nr) {p : Part K}
    (hp : g.Inside p) (hr : 0 ≤ p.r) (i j : ℤ) :
    effect (writesCubic false g p) i j =
      p.w * bsplineFolded g.nz (i - 2) (g.zCell p) * bsplineFolded g.nr (j - 2) (g.rCell p) := by
  obtain ⟨hz1, hz2⟩ := zCell_mem hg hp
  obtain ⟨hr1, hr2⟩ := rCell_mem hg hp hr
  obtain ⟨hc1, hc2⟩ := ceil_rCell hg hp hr
  rw [foldShape_stencil hnz (by linarith) (by linarith), foldShape_stencil hnr hr1 hr2]
  have hmin : min ⌈g.rCell p⌉ ((g.nr : ℤ) + 2) = ⌈g.rCell p⌉ := min_eq_left (by omega)
  simp only [writesCubic, hp, if_true, hmin, effect, List.map_cons, List.map_nil, List.sum_cons,
    List.sum_nil, Bool.false_eq_true, if_false, and_ite, zero_mul, add_zero, sub_zero]
  generalize foldShape (g.zCell p) g.nz _ = zs
  generalize foldShape (g.rCell p) g.nr _ = rs
  rw [ite_mul_one _ zs.s0, ite_mul_one _ zs.s1, ite_mul_one _ zs.s2, ite_mul_one _ zs.s3,
    ite_mul_one _ rs.s0, ite_mul_one _ rs.s1, ite_mul_one _ rs.s2, ite_mul_one _ rs.s3]
  ring

end WakeT.Deposition
