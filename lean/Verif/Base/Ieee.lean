import Verif.Base.Rounding
import Mathlib.Data.Int.Log
import Mathlib.Algebra.Order.Floor.Ring
import Mathlib.Algebra.Order.Archimedean.Basic
import Mathlib.Algebra.Order.Archimedean.Real.Basic

/-!
# The rounding of IEEE 754

Rounding to `p` binary digits, to the nearest number and to the even one of two, without limits on the exponent (`p = 53` for numbers of 64
bits, `p = 24` for numbers of 32 bits).  It satisfies the assumptions of the theorems about rounding.
-/

namespace WakeT.Base

/-! ### Specification -/

/-- The integer next to `x`; the even one if there are two. -/
noncomputable def nearestEven (x : ℝ) : ℤ :=
  if x - ⌊x⌋ < 1 / 2 then ⌊x⌋ else if 1 / 2 < x - ⌊x⌋ then ⌊x⌋ + 1 else if ⌊x⌋ % 2 = 0 then ⌊x⌋ else ⌊x⌋ + 1

/-- Distance of the numbers with `p` digits next to `x`. -/
noncomputable def ulp (p : ℕ) (x : ℝ) : ℝ := (2 : ℝ) ^ (Int.log 2 x + 1 - p)

/-- Rounding of the modulus. -/
noncomputable def mag (p : ℕ) (x : ℝ) : ℝ := nearestEven (x / ulp p x) * ulp p x

/-- Rounding to `p` digits. -/
noncomputable def ieee (p : ℕ) (x : ℝ) : ℝ := if x < 0 then -mag p (-x) else mag p x

/-! ### Properties -/

private theorem nearest_bounds (x : ℝ) : |(nearestEven x : ℝ) - x| ≤ 1 / 2 := by
  have h1 := Int.floor_le x
  have h2 := Int.lt_floor_add_one x
  unfold nearestEven
  rw [abs_le]
  split_ifs <;> push_cast <;> constructor <;> linarith

private theorem nearest_floor (x : ℝ) : ⌊x⌋ ≤ nearestEven x ∧ nearestEven x ≤ ⌊x⌋ + 1 := by
  unfold nearestEven
  split_ifs <;> constructor <;> omega

private theorem nearest_mono {x y : ℝ} (h : x ≤ y) : nearestEven x ≤ nearestEven y := by
  rcases (Int.floor_le_floor h).lt_or_eq with hl | he
  · have := (nearest_floor x).2
    have := (nearest_floor y).1
    omega
  · unfold nearestEven
    rw [he]
    split_ifs <;> first | omega | (exfalso; linarith)

private theorem nearest_int (n : ℤ) : nearestEven n = n := by
  unfold nearestEven
  rw [Int.floor_intCast, sub_self, if_pos (by norm_num)]

private theorem ulp_pos (p : ℕ) (x : ℝ) : 0 < ulp p x := zpow_pos (by norm_num) _

private theorem mag_zero (p : ℕ) : mag p 0 = 0 := by
  have := nearest_int 0
  unfold mag
  rw [zero_div]
  rw [Int.cast_zero] at this
  rw [this, Int.cast_zero, zero_mul]

private theorem log_lo {x : ℝ} (h : 0 < x) : (2 : ℝ) ^ Int.log 2 x ≤ x := by
  have := Int.zpow_log_le_self (b := 2) (by norm_num) h
  exact_mod_cast this

private theorem log_hi (x : ℝ) : x < (2 : ℝ) ^ (Int.log 2 x + 1) := by
  have := Int.lt_zpow_succ_log_self (b := 2) (by norm_num) x
  exact_mod_cast this

private theorem mag_error (p : ℕ) {x : ℝ} (h : 0 < x) : |mag p x - x| ≤ 1 / 2 ^ p * x := by
  have u0 := ulp_pos p x
  have e : mag p x - x = (nearestEven (x / ulp p x) - x / ulp p x) * ulp p x := by
    unfold mag
    field_simp
  have hu : ulp p x = 2 / 2 ^ p * (2 : ℝ) ^ Int.log 2 x := by
    unfold ulp
    rw [zpow_sub₀ (by norm_num), zpow_add₀ (by norm_num), zpow_one, zpow_natCast]
    ring
  rw [e, abs_mul, abs_of_pos u0]
  have h1 := mul_le_mul_of_nonneg_right (nearest_bounds (x / ulp p x)) u0.le
  have h2 : (1 : ℝ) / 2 ^ p * (2 : ℝ) ^ Int.log 2 x ≤ 1 / 2 ^ p * x := mul_le_mul_of_nonneg_left (log_lo h) (by positivity)
  refine h1.trans (le_trans (le_of_eq ?_) h2)
  rw [hu]
  ring

/-- The relative error is at most half a unit of the last of the `p` digits. -/
theorem ieee_rounds (p : ℕ) : Rounds (1 / 2 ^ p) (ieee p) := by
  intro x
  unfold ieee
  split_ifs with h
  · have := mag_error p (x := -x) (by linarith)
    rw [abs_of_neg h]
    refine le_trans (le_of_eq ?_) this
    rw [show -mag p (-x) - x = -(mag p (-x) - -x) by ring, abs_neg]
  · rcases (not_lt.mp h).lt_or_eq with h | h
    · have := mag_error p h
      rwa [abs_of_pos h]
    · rw [← h, mag_zero]
      simp

/-- The result is a number with at most `p` digits. -/
theorem ieee_digits (p : ℕ) (x : ℝ) : ∃ m e : ℤ, |m| ≤ 2 ^ p ∧ ieee p x = m * (2 : ℝ) ^ e := by
  have pos : ∀ y : ℝ, 0 ≤ y → ∃ m e : ℤ, |m| ≤ 2 ^ p ∧ mag p y = m * (2 : ℝ) ^ e := by
    intro y hy
    refine ⟨nearestEven (y / ulp p y), Int.log 2 y + 1 - p, ?_, rfl⟩
    have u0 := ulp_pos p y
    have h0 : 0 ≤ nearestEven (y / ulp p y) := by
      have := nearest_mono (x := ((0 : ℤ) : ℝ)) (y := y / ulp p y) (by rw [Int.cast_zero]; positivity)
      rwa [nearest_int] at this
    have h1 : y / ulp p y ≤ ((2 ^ p : ℤ) : ℝ) := by
      rw [div_le_iff₀ u0]
      refine (log_hi y).le.trans (le_of_eq ?_)
      unfold ulp
      push_cast
      rw [← zpow_natCast, ← zpow_add₀ (by norm_num)]
      congr 1
      ring
    have h2 := nearest_mono h1
    rw [nearest_int] at h2
    rwa [abs_of_nonneg h0]
  unfold ieee
  split_ifs with h
  · obtain ⟨m, e, h1, h2⟩ := pos (-x) (by linarith)
    refine ⟨-m, e, by rwa [abs_neg], ?_⟩
    rw [h2]
    push_cast
    ring
  · exact pos x (not_lt.mp h)

private theorem mag_mono {p : ℕ} (hp : 1 ≤ p) {x y : ℝ} (hx : 0 < x) (h : x ≤ y) : mag p x ≤ mag p y := by
  have hy : 0 < y := hx.trans_le h
  rcases (Int.log_mono_right (b := 2) hx h).lt_or_eq with hl | he
  · have ux := ulp_pos p x
    have uy := ulp_pos p y
    have h1 : mag p x ≤ (2 : ℝ) ^ (Int.log 2 x + 1) := by
      have a : x / ulp p x ≤ ((2 ^ p : ℤ) : ℝ) := by
        rw [div_le_iff₀ ux]
        refine (log_hi x).le.trans (le_of_eq ?_)
        unfold ulp
        push_cast
        rw [← zpow_natCast, ← zpow_add₀ (by norm_num)]
        congr 1
        ring
      have b := nearest_mono a
      rw [nearest_int] at b
      have c : (nearestEven (x / ulp p x) : ℝ) ≤ ((2 ^ p : ℤ) : ℝ) := by exact_mod_cast b
      refine (mul_le_mul_of_nonneg_right c ux.le).trans (le_of_eq ?_)
      unfold ulp
      push_cast
      rw [← zpow_natCast, ← zpow_add₀ (by norm_num)]
      congr 1
      ring
    have h2 : (2 : ℝ) ^ Int.log 2 y ≤ mag p y := by
      have r : ((2 ^ (p - 1) : ℤ) : ℝ) * ulp p y = (2 : ℝ) ^ Int.log 2 y := by
        unfold ulp
        push_cast
        rw [← zpow_natCast, ← zpow_add₀ (by norm_num)]
        congr 1
        push_cast [Nat.cast_sub hp]
        ring
      have a : ((2 ^ (p - 1) : ℤ) : ℝ) ≤ y / ulp p y := by
        rw [le_div_iff₀ uy, r]
        exact log_lo hy
      have b := nearest_mono a
      rw [nearest_int] at b
      have c : ((2 ^ (p - 1) : ℤ) : ℝ) ≤ (nearestEven (y / ulp p y) : ℝ) := by exact_mod_cast b
      rw [← r]
      exact mul_le_mul_of_nonneg_right c uy.le
    exact h1.trans ((zpow_le_zpow_right₀ (by norm_num) (by omega)).trans h2)
  · have u0 := ulp_pos p x
    have e : ulp p y = ulp p x := by
      unfold ulp
      rw [he]
    unfold mag
    rw [e]
    refine mul_le_mul_of_nonneg_right ?_ u0.le
    exact_mod_cast nearest_mono (div_le_div_of_nonneg_right h u0.le)

private theorem mag_nonneg (p : ℕ) {x : ℝ} (h : 0 ≤ x) : 0 ≤ mag p x := by
  have u0 := ulp_pos p x
  have := nearest_mono (x := ((0 : ℤ) : ℝ)) (y := x / ulp p x) (by rw [Int.cast_zero]; positivity)
  rw [nearest_int] at this
  have : (0 : ℝ) ≤ nearestEven (x / ulp p x) := by exact_mod_cast this
  exact mul_nonneg this u0.le

/-- Rounding keeps the order. -/
theorem ieee_mono {p : ℕ} (hp : 1 ≤ p) : Monotone (ieee p) := by
  intro x y h
  unfold ieee
  split_ifs with h1 h2 h2
  · exact neg_le_neg (mag_mono hp (by linarith) (by linarith))
  · have := mag_nonneg p (x := -x) (by linarith)
    have := mag_nonneg p (not_lt.mp h2)
    linarith
  · linarith
  · rcases (not_lt.mp h1).lt_or_eq with h3 | h3
    · exact mag_mono hp h3 h
    · rw [← h3, mag_zero]
      exact mag_nonneg p (not_lt.mp h2)

private theorem mag_exact {p : ℕ} {m : ℕ} (hm : 0 < m) (h : m < 2 ^ p) (e : ℤ) : mag p (m * (2 : ℝ) ^ e) = m * (2 : ℝ) ^ e := by
  have m0 : (0 : ℝ) < m := by exact_mod_cast hm
  have x0 : 0 < (m : ℝ) * (2 : ℝ) ^ e := mul_pos m0 (zpow_pos (by norm_num) _)
  have l : Int.log 2 ((m : ℝ) * (2 : ℝ) ^ e) < e + p := by
    refine (Int.lt_zpow_iff_log_lt (b := 2) (by norm_num) x0).mp ?_
    have hm' : (m : ℝ) < 2 ^ p := by exact_mod_cast h
    have := mul_lt_mul_of_pos_right hm' (zpow_pos (by norm_num : (0 : ℝ) < 2) e)
    rw [add_comm, Nat.cast_ofNat, zpow_add₀ (by norm_num), zpow_natCast]
    exact this
  obtain ⟨q, hq⟩ : ∃ q : ℕ, e = q + (Int.log 2 ((m : ℝ) * (2 : ℝ) ^ e) + 1 - p) :=
    ⟨(e - (Int.log 2 ((m : ℝ) * (2 : ℝ) ^ e) + 1 - p)).toNat, by omega⟩
  have u0 := ulp_pos p ((m : ℝ) * (2 : ℝ) ^ e)
  have d : (m : ℝ) * (2 : ℝ) ^ e = ((m * 2 ^ q : ℤ) : ℝ) * ulp p ((m : ℝ) * (2 : ℝ) ^ e) := by
    unfold ulp
    push_cast
    rw [mul_assoc, ← zpow_natCast, ← zpow_add₀ (by norm_num), ← hq]
  unfold mag
  rw [show (m : ℝ) * (2 : ℝ) ^ e / ulp p ((m : ℝ) * (2 : ℝ) ^ e) = ((m * 2 ^ q : ℤ) : ℝ) from (div_eq_iff u0.ne').mpr d, nearest_int]
  exact d.symm

/-- Numbers with `p` digits are not changed. -/
theorem ieee_exact {p : ℕ} {m : ℤ} (h : |m| < 2 ^ p) (e : ℤ) : ieee p (m * (2 : ℝ) ^ e) = m * (2 : ℝ) ^ e := by
  have q0 : (0 : ℝ) < (2 : ℝ) ^ e := zpow_pos (by norm_num) _
  unfold ieee
  rcases lt_trichotomy m 0 with hm | rfl | hm
  · have m0 : (m : ℝ) < 0 := by exact_mod_cast hm
    obtain ⟨n, rfl⟩ : ∃ n : ℕ, m = -n := ⟨m.natAbs, by omega⟩
    rw [if_pos (mul_neg_of_neg_of_pos m0 q0)]
    have := mag_exact (p := p) (m := n) (by omega) (by rw [abs_of_neg hm, neg_neg] at h; exact_mod_cast h) e
    push_cast
    rw [neg_mul, neg_neg, this]
  · simp [mag_zero]
  · have m0 : (0 : ℝ) < m := by exact_mod_cast hm
    obtain ⟨n, rfl⟩ : ∃ n : ℕ, m = n := ⟨m.natAbs, by omega⟩
    rw [if_neg (not_lt.mpr (mul_pos m0 q0).le)]
    have := mag_exact (p := p) (m := n) (by omega) (by rw [abs_of_pos hm] at h; exact_mod_cast h) e
    push_cast
    rw [this]

/-- A number between `2 ^ e` and `2 ^ (e + 1)` goes to the multiple of `2 ^ (e + 1 - p)` that is closer than half of this. -/
theorem ieee_eq {p : ℕ} {x : ℝ} {e n : ℤ} (h1 : (2 : ℝ) ^ e ≤ x) (h2 : x < (2 : ℝ) ^ (e + 1))
    (h : |x - n * (2 : ℝ) ^ (e + 1 - p)| < (2 : ℝ) ^ (e + 1 - p) / 2) : ieee p x = n * (2 : ℝ) ^ (e + 1 - p) := by
  have x0 : 0 < x := (zpow_pos (by norm_num) _).trans_le h1
  have l : Int.log 2 x = e := by
    have a := (Int.zpow_le_iff_le_log (b := 2) (by norm_num) x0).mp (by exact_mod_cast h1)
    have b := (Int.lt_zpow_iff_log_lt (b := 2) (by norm_num) x0).mp (by exact_mod_cast h2)
    omega
  have u0 : (0 : ℝ) < (2 : ℝ) ^ (e + 1 - p) := zpow_pos (by norm_num) _
  have u : ulp p x = (2 : ℝ) ^ (e + 1 - p) := by
    unfold ulp
    rw [l]
  obtain ⟨v, hv⟩ : ∃ v, v = (2 : ℝ) ^ (e + 1 - p) := ⟨_, rfl⟩
  rw [← hv] at h u u0 ⊢
  unfold ieee mag
  rw [if_neg (not_lt.mpr x0.le), u]
  congr 2
  have d : |x / v - n| < 1 / 2 := by
    rw [show x / v - n = (x - n * v) / v by field_simp, abs_div, abs_of_pos u0, div_lt_iff₀ u0]
    linarith
  have b := nearest_bounds (x / v)
  have : |(nearestEven (x / v) : ℝ) - n| < 1 := by
    have := abs_sub_le (nearestEven (x / v) : ℝ) (x / v) n
    linarith
  have : |nearestEven (x / v) - n| < 1 := by exact_mod_cast this
  rw [Int.abs_lt_one_iff] at this
  omega

/-- A number in the middle between two multiples goes to the even one. -/
theorem ieee_tie {p : ℕ} {e n : ℤ} (h1 : (2 : ℝ) ^ e ≤ (n + 1 / 2) * (2 : ℝ) ^ (e + 1 - p)) (h2 : (n + 1 / 2) * (2 : ℝ) ^ (e + 1 - p) < (2 : ℝ) ^ (e + 1)) :
    ieee p ((n + 1 / 2) * (2 : ℝ) ^ (e + 1 - p)) = ((if n % 2 = 0 then n else n + 1 : ℤ) : ℝ) * (2 : ℝ) ^ (e + 1 - p) := by
  have x0 : 0 < ((n : ℝ) + 1 / 2) * (2 : ℝ) ^ (e + 1 - p) := (zpow_pos (by norm_num) _).trans_le h1
  have l : Int.log 2 (((n : ℝ) + 1 / 2) * (2 : ℝ) ^ (e + 1 - p)) = e := by
    have a := (Int.zpow_le_iff_le_log (b := 2) (by norm_num) x0).mp (by exact_mod_cast h1)
    have b := (Int.lt_zpow_iff_log_lt (b := 2) (by norm_num) x0).mp (by exact_mod_cast h2)
    omega
  have u0 : (0 : ℝ) < (2 : ℝ) ^ (e + 1 - p) := zpow_pos (by norm_num) _
  have u : ulp p (((n : ℝ) + 1 / 2) * (2 : ℝ) ^ (e + 1 - p)) = (2 : ℝ) ^ (e + 1 - p) := by
    unfold ulp
    rw [l]
  unfold ieee mag
  rw [if_neg (not_lt.mpr x0.le), u, mul_div_cancel_right₀ _ u0.ne']
  have f : ⌊(n : ℝ) + 1 / 2⌋ = n := by
    rw [Int.floor_eq_iff]
    constructor <;> linarith
  unfold nearestEven
  rw [f, add_sub_cancel_left, if_neg (lt_irrefl _), if_neg (lt_irrefl _)]

/-- The number of 64 bits next to `1/10`. -/
example : ieee 53 (1 / 10) = 3602879701896397 / 36028797018963968 := by
  have l : Int.log 2 (1 / 10 : ℝ) = -4 := by
    refine le_antisymm ?_ ?_
    · have h := (Int.lt_zpow_iff_log_lt (b := 2) (by norm_num) (x := -3) (r := (1 / 10 : ℝ)) (by norm_num)).mp (by norm_num)
      omega
    · exact (Int.zpow_le_iff_le_log (b := 2) (by norm_num) (x := -4) (r := (1 / 10 : ℝ)) (by norm_num)).mp (by norm_num)
  have u : ulp 53 (1 / 10) = 1 / 2 ^ 56 := by
    unfold ulp
    rw [l]
    norm_num
  have f : ⌊(1 / 10 : ℝ) / (1 / 2 ^ 56)⌋ = 7205759403792793 := by
    rw [Int.floor_eq_iff]
    constructor <;> norm_num
  unfold ieee mag nearestEven
  rw [if_neg (by norm_num), u, f, if_neg (by norm_num), if_pos (by norm_num)]
  norm_num

end WakeT.Base
