import Verif.Base.Tactics
import Mathlib.Algebra.Field.Basic

/-! # The tridiagonal solver of the laser envelope (C48)

`wake_t/physics_models/laser/tdma.py`. -/

set_option linter.unusedSectionVars false

namespace WakeT.Laser

variable {K : Type} [Field K]

/-! ### Model -/

/-- The array `w` (tdma.py 36, 39-43); every entry is written once. -/
def tdmaW (a b c : ℕ → K) : ℕ → K
  | 0 => c 0 / b 0
  | i + 1 => c (i + 1) * (1 / (b (i + 1) - a i * tdmaW a b c i))

/-- The entries of the array `g` but the last (tdma.py 37, 39-42). -/
def tdmaG (a b c d : ℕ → K) : ℕ → K
  | 0 => d 0 / b 0
  | i + 1 => (d (i + 1) - a i * tdmaG a b c d i) * (1 / (b (i + 1) - a i * tdmaW a b c i))

/-- The last entry of `g` (tdma.py 45).  `a` and `w` have `n - 1` entries, `g` has `n`: the
index `-2` is `n - 3` in the former and `n - 2` in the latter. -/
def tdmaLast (n : ℕ) (a b c d : ℕ → K) : K :=
  (d (n - 1) - a (n - 3) * tdmaG a b c d (n - 2)) / (b (n - 1) - a (n - 3) * tdmaW a b c (n - 3))

/-- Back substitution (tdma.py 48-50): `p[n - 1 - k]`. -/
def tdmaBack (n : ℕ) (a b c d : ℕ → K) : ℕ → K
  | 0 => tdmaLast n a b c d
  | k + 1 => tdmaG a b c d (n - 2 - k) - tdmaW a b c (n - 2 - k) * tdmaBack n a b c d k

/-- `TDMA` (tdma.py 15-50): the array `p`, for `n = len(d) >= 3`.  For `n = 2` the index
`a[-2]` does not exist. -/
def tdma (n : ℕ) (a b c d : ℕ → K) (i : ℕ) : K := tdmaBack n a b c d (n - 1 - i)

/-! ### Specification -/

/-- The tridiagonal system with lower, main and upper diagonal `a`, `b`, `c`: equation `i`. -/
def Row (n : ℕ) (a b c d p : ℕ → K) (i : ℕ) : Prop :=
  (if i = 0 then 0 else a (i - 1) * p (i - 1)) + b i * p i + (if i + 1 = n then 0 else c i * p (i + 1)) = d i

/-- The elimination does not divide by zero. -/
structure Pivots (n : ℕ) (a b c : ℕ → K) : Prop where
  first : b 0 ≠ 0
  next : ∀ i, i + 1 < n - 1 → b (i + 1) - a i * tdmaW a b c i ≠ 0
  last : b (n - 1) - a (n - 3) * tdmaW a b c (n - 3) ≠ 0

/-! ### Properties -/

theorem tdma_step {n : ℕ} (a b c d : ℕ → K) {i : ℕ} (hi : i + 1 < n) :
    tdma n a b c d i = tdmaG a b c d i - tdmaW a b c i * tdma n a b c d (i + 1) := by
  unfold tdma
  obtain ⟨k, hk⟩ : ∃ k, n - 1 - i = k + 1 := ⟨n - 2 - i, by omega⟩
  rw [hk, tdmaBack, show n - 2 - k = i by omega, show n - 1 - (i + 1) = k by omega]

/-- Partial: all equations but the last are satisfied.  Missing: the last one, which is
satisfied only if another equation happens to agree with it (`tdma_last`,
`tdma_violated`). -/
theorem tdma_partial {n : ℕ} {a b c : ℕ → K} (d : ℕ → K) (hp : Pivots n a b c) {i : ℕ} (hi : i + 1 < n) :
    Row n a b c d (tdma n a b c d) i := by
  have hne : ¬ i + 1 = n := by omega
  unfold Row
  rw [if_neg hne]
  have h1 := tdma_step a b c d hi
  rcases i with _ | i
  · rw [if_pos rfl, h1]
    have := hp.first
    simp only [tdmaG, tdmaW]
    field_simp
    ring
  · rw [if_neg (by omega), Nat.add_sub_cancel]
    have h2 := tdma_step (n := n) a b c d (i := i) (by omega)
    rw [h2, h1]
    have := hp.next i (by omega)
    simp only [tdmaG, tdmaW]
    generalize tdma n a b c d (i + 1 + 1) = p
    generalize tdmaG a b c d i = g
    generalize tdmaW a b c i = w at *
    field_simp
    ring

/-- The equation that the last entry satisfies instead of the last one of the system: it
uses the lower diagonal and the eliminated upper diagonal of the row before. -/
theorem tdma_last {n : ℕ} (hn : 3 ≤ n) {a b c : ℕ → K} (d : ℕ → K) (hp : Pivots n a b c) :
    a (n - 3) * (tdma n a b c d (n - 2) +
        (tdmaW a b c (n - 2) - tdmaW a b c (n - 3)) * tdma n a b c d (n - 1)) +
      b (n - 1) * tdma n a b c d (n - 1) = d (n - 1) := by
  have h1 := tdma_step (n := n) a b c d (i := n - 2) (by omega)
  have hl : tdma n a b c d (n - 1) = tdmaLast n a b c d := by
    unfold tdma
    rw [Nat.sub_self, tdmaBack]
  rw [show n - 2 + 1 = n - 1 by omega] at h1
  rw [h1, hl]
  unfold tdmaLast
  have := hp.last
  generalize tdmaG a b c d (n - 2) = g
  generalize tdmaW a b c (n - 3) = w at *
  generalize tdmaW a b c (n - 2) = w'
  field_simp
  ring

/-- The result solves the system exactly if the last equation is the one that the code
solves; and it is the only candidate. -/
theorem tdma_exact_iff {n : ℕ} (hn : 3 ≤ n) {a b c : ℕ → K} (d : ℕ → K) (hp : Pivots n a b c) :
    (∀ i < n, Row n a b c d (tdma n a b c d) i) ↔
      a (n - 2) * tdma n a b c d (n - 2) = a (n - 3) * (tdma n a b c d (n - 2) +
        (tdmaW a b c (n - 2) - tdmaW a b c (n - 3)) * tdma n a b c d (n - 1)) := by
  have hl := tdma_last hn d hp
  have hrow : Row n a b c d (tdma n a b c d) (n - 1) ↔
      a (n - 2) * tdma n a b c d (n - 2) + b (n - 1) * tdma n a b c d (n - 1) = d (n - 1) := by
    unfold Row
    rw [if_neg (by omega), if_pos (by omega), add_zero, show n - 1 - 1 = n - 2 by omega]
  constructor
  · intro h
    have h1 := hrow.mp (h (n - 1) (by omega))
    exact add_right_cancel (h1.trans hl.symm)
  · intro h i hi
    by_cases h2 : i + 1 < n
    · exact tdma_partial d hp h2
    · have : i = n - 1 := by omega
      rw [this, hrow, h, hl]

/-- The system `2 p₀ + p₁ = 0`, `p₀ + 2 p₁ + p₂ = 0`, `p₁ + 2 p₂ = 1`: the pivots are
non-zero, but the last equation does not hold. -/
theorem tdma_violated : ∃ (a b c d : ℕ → ℚ), Pivots 3 a b c ∧ ¬ Row 3 a b c d (tdma 3 a b c d) 2 := by
  refine ⟨fun _ => 1, fun _ => 2, fun _ => 1, fun i => if i = 2 then 1 else 0, ⟨by norm_num, ?_, ?_⟩, ?_⟩
  · intro i hi
    have : i = 0 := by omega
    subst this
    norm_num [tdmaW]
  · norm_num [tdmaW]
  · unfold Row
    norm_num [tdma, tdmaBack, tdmaLast, tdmaW, tdmaG]

/-- A solution, if the pivots are non-zero (also those the code does not use), is unique. -/
theorem row_unique {n : ℕ} {a b c d p q : ℕ → K} (h0 : b 0 ≠ 0)
    (hn : ∀ i, i + 1 < n → b (i + 1) - a i * tdmaW a b c i ≠ 0)
    (hp : ∀ i < n, Row n a b c d p i) (hq : ∀ i < n, Row n a b c d q i) : ∀ i < n, p i = q i := by
  have elim : ∀ r : ℕ → K, (∀ i < n, Row n a b c d r i) → ∀ i < n,
      r i = tdmaG a b c d i - if i + 1 = n then 0 else tdmaW a b c i * r (i + 1) := by
    intro r hr i
    induction i with
    | zero =>
      intro hi
      have := hr 0 hi
      unfold Row at this
      rw [if_pos rfl] at this
      split_ifs at this ⊢ with h
      · simp only [tdmaG]
        field_simp
        linear_combination this
      · simp only [tdmaG, tdmaW]
        field_simp
        linear_combination this
    | succ i ih =>
      intro hi
      have h1 := ih (by omega)
      rw [if_neg (by omega)] at h1
      have h2 := hr (i + 1) hi
      unfold Row at h2
      rw [if_neg (by omega), Nat.add_sub_cancel, h1] at h2
      have h3 := hn i hi
      split_ifs at h2 ⊢ with h
      · simp only [tdmaG]
        field_simp
        linear_combination h2
      · simp only [tdmaG, tdmaW]
        field_simp
        linear_combination h2
  have key : ∀ k, k < n → p (n - 1 - k) = q (n - 1 - k) := by
    intro k
    induction k with
    | zero =>
      intro hk
      rw [elim p hp _ (by omega), elim q hq _ (by omega), if_pos (by omega), if_pos (by omega)]
    | succ k ih =>
      intro hk
      rw [elim p hp _ (by omega), elim q hq _ (by omega), if_neg (by omega), if_neg (by omega),
        show n - 1 - (k + 1) + 1 = n - 1 - k by omega, ih (by omega)]
  intro i hi
  have := key (n - 1 - i) (by omega)
  rwa [show n - 1 - (n - 1 - i) = i by omega] at this

end WakeT.Laser
