import Verif.Deposition.Props
import Mathlib.Data.Real.Archimedean
import Mathlib.MeasureTheory.Integral.IntervalIntegral.FundThmCalculus
import Mathlib.Analysis.SpecialFunctions.Pow.Deriv
import Mathlib.Topology.Algebra.Polynomial

/-!
# Helper lemmas for C18 and C73: integrals of the deposition of a uniform density
-/

set_option linter.unusedSectionVars false

namespace WakeT.Deposition

open MeasureTheory intervalIntegral

/-! ### Integrals of piecewise polynomials -/

/-- A cubic polynomial. -/
structure Cub where
  p0 : ℝ
  p1 : ℝ
  p2 : ℝ
  p3 : ℝ

/-- Value of the polynomial. -/
def Cub.eval (p : Cub) (u : ℝ) : ℝ := p.p0 + p.p1 * u + p.p2 * u ^ 2 + p.p3 * u ^ 3

/-- Antiderivative of `p.eval u * (u + M)`. -/
noncomputable def Cub.prim (p : Cub) (M u : ℝ) : ℝ :=
  p.p0 * M * u + (p.p0 + p.p1 * M) * u ^ 2 / 2 + (p.p1 + p.p2 * M) * u ^ 3 / 3 +
    (p.p2 + p.p3 * M) * u ^ 4 / 4 + p.p3 * u ^ 5 / 5

theorem Cub.continuous (p : Cub) : Continuous p.eval := by
  unfold Cub.eval; fun_prop

theorem Cub.integral (p : Cub) (M s l h : ℝ) :
    ∫ x in l..h, p.eval (x - s) * (x - s + M) = p.prim M (h - s) - p.prim M (l - s) := by
  have hd : ∀ x : ℝ, HasDerivAt (fun x => p.prim M (x - s)) (p.eval (x - s) * (x - s + M)) x := by
    intro x
    have h1 : HasDerivAt (fun x : ℝ => x - s) 1 x := (hasDerivAt_id x).sub_const s
    have h2 := (h1.const_mul (p.p0 * M)).add ((((h1.pow 2).const_mul (p.p0 + p.p1 * M)).div_const 2).add
      ((((h1.pow 3).const_mul (p.p1 + p.p2 * M)).div_const 3).add
      ((((h1.pow 4).const_mul (p.p2 + p.p3 * M)).div_const 4).add
      (((h1.pow 5).const_mul p.p3).div_const 5))))
    refine (h2.congr_deriv ?_).congr_of_eventuallyEq (Filter.Eventually.of_forall fun y => ?_)
    · unfold Cub.eval; push_cast; ring
    · simp only [Cub.prim, Pi.add_apply, Pi.pow_apply]; ring
  exact integral_eq_sub_of_hasDerivAt (fun x _ => hd x)
    (Continuous.intervalIntegrable (by
      have := p.continuous
      exact (this.comp (continuous_id.sub continuous_const)).mul
        ((continuous_id.sub continuous_const).add continuous_const)) _ _)

/-- End points of the intervals of constant `ceil(r_cell)` in the box. -/
noncomputable def edge (nr m : ℕ) : ℝ :=
  if m = 0 then -(1 / 2) else if m ≤ nr then (m : ℝ) - 1 else (nr : ℝ) - 1 / 2

theorem edge_zero (nr : ℕ) : edge nr 0 = -(1 / 2) := by simp [edge]

theorem edge_mid {nr m : ℕ} (h1 : 1 ≤ m) (h2 : m ≤ nr) : edge nr m = (m : ℝ) - 1 := by
  unfold edge; rw [if_neg (by omega), if_pos h2]

theorem edge_last (nr : ℕ) : edge nr (nr + 1) = (nr : ℝ) - 1 / 2 := by simp [edge]

theorem edge_le (nr m : ℕ) (hn : 1 ≤ nr) (hm : m ≤ nr) : edge nr m ≤ edge nr (m + 1) := by
  rcases (by omega : m = 0 ∨ (1 ≤ m ∧ m < nr) ∨ m = nr) with h | ⟨h1, h2⟩ | h
  · subst h; rw [edge_zero, edge_mid (by omega) (by omega)]; norm_num
  · rw [edge_mid h1 hm, edge_mid (by omega) (by omega)]; push_cast; linarith
  · subst h; rw [edge_mid hn le_rfl, edge_last]; linarith

theorem ceil_of_edge {nr m : ℕ} (hn : 1 ≤ nr) (hm : m ≤ nr) {x : ℝ} (h1 : edge nr m < x)
    (h2 : x ≤ edge nr (m + 1)) : ⌈x⌉ = m := by
  rw [Int.ceil_eq_iff]
  push_cast
  rcases (by omega : m = 0 ∨ (1 ≤ m ∧ m < nr) ∨ m = nr) with h | ⟨h3, h4⟩ | h
  · subst h; rw [edge_zero] at h1; rw [edge_mid (by omega) (by omega)] at h2
    push_cast at *; constructor <;> linarith
  · rw [edge_mid h3 hm] at h1; rw [edge_mid (by omega) (by omega)] at h2
    push_cast at *; constructor <;> linarith
  · subst h; rw [edge_mid hn le_rfl] at h1; rw [edge_last] at h2
    constructor <;> linarith

theorem integral_pieces {nr : ℕ} (hn : 1 ≤ nr) (f : ℝ → ℝ) (P : ℕ → ℝ → ℝ)
    (hP : ∀ m, Continuous (P m))
    (h : ∀ m ≤ nr, ∀ x, edge nr m < x → x ≤ edge nr (m + 1) → f x = P m x) :
    ∫ x in (-(1 / 2))..((nr : ℝ) - 1 / 2), f x =
      ∑ m ∈ Finset.range (nr + 1), ∫ x in edge nr m..edge nr (m + 1), P m x := by
  have e0 : edge nr 0 = -(1 / 2) := by simp [edge]
  have e1 : edge nr (nr + 1) = (nr : ℝ) - 1 / 2 := by simp [edge]
  have hint : ∀ m ≤ nr, IntervalIntegrable f volume (edge nr m) (edge nr (m + 1)) := by
    intro m hm
    rw [intervalIntegrable_iff_integrableOn_Ioc_of_le (edge_le nr m hn hm)]
    have h1 := ((hP m).intervalIntegrable (μ := volume) (edge nr m) (edge nr (m + 1)))
    rw [intervalIntegrable_iff_integrableOn_Ioc_of_le (edge_le nr m hn hm)] at h1
    exact h1.congr_fun (fun x hx => (h m hm x hx.1 hx.2).symm) measurableSet_Ioc
  rw [← e0, ← e1, ← sum_integral_adjacent_intervals (fun k hk => hint k (by omega))]
  apply Finset.sum_congr rfl
  intro m hm
  have hm : m ≤ nr := by rw [Finset.mem_range] at hm; omega
  rw [integral_of_le (edge_le nr m hn hm), integral_of_le (edge_le nr m hn hm)]
  exact setIntegral_congr_fun measurableSet_Ioc (fun x hx => h m hm x hx.1 hx.2)

/-! ### Ruyten coefficients in closed form -/

theorem cellVolumeNorm_eq (g : Grid ℝ) (hd : 0 < g.dr) (k : ℕ) :
    cellVolumeNorm g k = (k : ℝ) + 1 / 2 := by
  unfold cellVolumeNorm
  have := hd.ne'
  field_simp
  ring

theorem sum_cellVolumeNorm (g : Grid ℝ) (hd : 0 < g.dr) (n : ℕ) :
    ∑ k ∈ Finset.range n, cellVolumeNorm g k = (n : ℝ) ^ 2 / 2 := by
  induction n with
  | zero => simp
  | succ n ih => rw [Finset.sum_range_succ, ih, cellVolumeNorm_eq g hd]; push_cast; ring

theorem ruytenLinear_eq (g : Grid ℝ) (hd : 0 < g.dr) {n : ℕ} (hn : n ≠ 0) :
    ruytenLinear g n = -(1 / (4 * (n : ℝ))) := by
  have : (n : ℝ) ≠ 0 := by exact_mod_cast hn
  unfold ruytenLinear
  rw [if_neg hn, sum_cellVolumeNorm g hd]
  field_simp; ring

theorem ruytenCubic_one (g : Grid ℝ) (hd : 0 < g.dr) : ruytenCubic g 1 = -(239 / 320) := by
  unfold ruytenCubic
  rw [if_neg (by decide), if_pos rfl, cellVolumeNorm_eq g hd]
  norm_num

theorem ruytenCubic_eq (g : Grid ℝ) (hd : 0 < g.dr) {n : ℕ} (hn : 2 ≤ n) :
    ruytenCubic g n = -(3 / (4 * (n : ℝ))) := by
  have : (n : ℝ) ≠ 0 := by
    have : n ≠ 0 := by omega
    exact_mod_cast this
  unfold ruytenCubic
  rw [if_neg (by omega), if_neg (by omega), sum_cellVolumeNorm g hd]
  field_simp; ring

/-! ### Column totals -/

/-- Total deposited in column `j` by one particle. -/
theorem column_total {g : Grid ℝ} (hg : g.Regular) (sh : Shape) (b : Bool) {p : Part ℝ}
    (hr : 0 ≤ p.r) (j : ℤ) :
    weighted g (fun _ j' => if j' = j then 1 else 0) (depositShape sh b g [p] (fun _ _ => 0)) =
      ((writes sh b g p).map fun wr => if wr.j = j then wr.v else 0).sum := by
  rw [weighted_deposit _ _ _ _ _ _ (by
    intro q hq; simp at hq; subst hq; exact inBounds hg _ _ hr), weighted_zero]
  simp

/-- Change of variables from the radius to cell units. -/
theorem integral_cell_units {g : Grid ℝ} (hg : g.Regular) (F : ℝ → ℝ) :
    ∫ r in (0 : ℝ)..(g.nr * g.dr), F ((r - g.rMin) / g.dr) * r =
      g.dr ^ 2 * ∫ x in (-(1 / 2))..((g.nr : ℝ) - 1 / 2), F x * (x + 1 / 2) := by
  have hd := hg.dr
  have h1 : ∀ r : ℝ, F ((r - g.rMin) / g.dr) * r =
      (fun x => F x * (g.dr * (x + 1 / 2))) (r / g.dr + -(1 / 2)) := by
    intro r
    have : (r - g.rMin) / g.dr = r / g.dr + -(1 / 2) := by
      rw [hg.rMin]; field_simp; ring
    simp only [this]
    congr 1
    field_simp; ring
  rw [show (fun r => F ((r - g.rMin) / g.dr) * r) =
    fun r => (fun x => F x * (g.dr * (x + 1 / 2))) (r / g.dr + -(1 / 2)) from funext h1,
    integral_comp_div_add (fun x => F x * (g.dr * (x + 1 / 2))) hd.ne' (-(1 / 2))]
  have h2 : g.nr * g.dr / g.dr + -(1 / 2) = (g.nr : ℝ) - 1 / 2 := by field_simp; ring
  rw [h2, zero_div, zero_add, smul_eq_mul]
  have h3 : ∀ x, F x * (g.dr * (x + 1 / 2)) = g.dr * (F x * (x + 1 / 2)) := by intro x; ring
  simp_rw [h3]
  rw [intervalIntegral.integral_const_mul]; ring

/-! ### Linear shape -/

/-- Column total of a unit particle at cell coordinate `x`, linear shape. -/
noncomputable def colLinear (g : Grid ℝ) (j : ℤ) (x : ℝ) : ℝ :=
  let ir := min (⌈x⌉ + 1) ((g.nr : ℤ) + 2)
  let u := if x < 0 then 1 else if x > (g.nr : ℝ) - 1 then 0 else x - ⌈x⌉ + 1
  let rc := ruytenLinear g (min ⌈x⌉ (g.nr : ℤ)).toNat
  (if ir = j then 1 - u + rc * (1 - u) * u else 0) + (if ir + 1 = j then u - rc * (1 - u) * u else 0)

theorem colLinear_eq {g : Grid ℝ} (hg : g.Regular) {p : Part ℝ} (hp : g.Inside p)
    (hr : 0 ≤ p.r) (hw : p.w = 1) (j : ℤ) :
    weighted g (fun _ j' => if j' = j then 1 else 0)
      (depositShape .linear true g [p] (fun _ _ => 0)) = colLinear g j ((p.r - g.rMin) / g.dr) := by
  rw [column_total hg _ _ hr]
  show _ = (if min (⌈g.rCell p⌉ + 1) ((g.nr : ℤ) + 2) = j then
      1 - uR g p + ruytenLinear g (ruytenIndex g p).toNat * (1 - uR g p) * uR g p else 0) +
    (if min (⌈g.rCell p⌉ + 1) ((g.nr : ℤ) + 2) + 1 = j then
      uR g p - ruytenLinear g (ruytenIndex g p).toNat * (1 - uR g p) * uR g p else 0)
  simp only [writes, writesLinear, hp, if_true, List.map_cons, List.map_nil, List.sum_cons,
    List.sum_nil, hw, mul_one]
  generalize uR g p = u
  generalize uZ g p = v
  generalize ruytenLinear g _ = rc
  generalize min (⌈g.rCell p⌉ + 1) ((g.nr : ℤ) + 2) = ir
  split_ifs <;> ring

/-- Coefficients of the pieces of `colLinear`, as polynomials in `x - (m - 1)`. -/
noncomputable def pieceLinear (nr : ℕ) (m : ℕ) (j : ℤ) : Cub :=
  if m = 0 then if j = 2 then ⟨1, 0, 0, 0⟩ else ⟨0, 0, 0, 0⟩
  else if m = nr then if j = nr + 1 then ⟨1, 0, 0, 0⟩ else ⟨0, 0, 0, 0⟩
  else if j = m + 1 then ⟨1, -1 - 1 / (4 * m), 1 / (4 * m), 0⟩
  else if j = m + 2 then ⟨0, 1 + 1 / (4 * m), -(1 / (4 * m)), 0⟩
  else ⟨0, 0, 0, 0⟩

theorem colLinear_piece {g : Grid ℝ} (hg : g.Regular) (hn : 1 ≤ g.nr) (j : ℤ) (m : ℕ)
    (hm : m ≤ g.nr) (x : ℝ) (h1 : edge g.nr m < x) (h2 : x ≤ edge g.nr (m + 1)) :
    colLinear g j x = (pieceLinear g.nr m j).eval (x - ((m : ℝ) - 1)) := by
  have hc := ceil_of_edge hn hm h1 h2
  have hnR : (1 : ℝ) ≤ g.nr := by exact_mod_cast hn
  unfold colLinear
  rw [hc]
  have e1 : min ((m : ℤ) + 1) ((g.nr : ℤ) + 2) = m + 1 := min_eq_left (by omega)
  have e2 : (min (m : ℤ) (g.nr : ℤ)).toNat = m := by rw [min_eq_left (by omega)]; simp
  simp only [e1, e2]
  rcases (by omega : m = 0 ∨ (1 ≤ m ∧ m < g.nr) ∨ (1 ≤ m ∧ m = g.nr)) with h | ⟨h3, h4⟩ | ⟨h3, h⟩
  · -- first half cell
    subst h
    rw [edge_zero] at h1; rw [edge_mid (by omega) (by omega)] at h2
    push_cast at h2
    have hu : (if x < 0 then (1 : ℝ) else if x > (g.nr : ℝ) - 1 then 0 else x - ((0 : ℕ) : ℤ) + 1)
        = 1 := by
      split_ifs with a b
      · rfl
      · linarith
      · have : x = 0 := by linarith
        subst this; simp
    rw [hu]
    by_cases hj : j = 2
    · subst hj; simp [pieceLinear, Cub.eval]
    · have hj' : ¬ ((2 : ℤ) = j) := fun h => hj h.symm
      simp [pieceLinear, Cub.eval, hj, hj']
  · -- interior
    rw [edge_mid h3 hm] at h1; rw [edge_mid (by omega) (by omega)] at h2
    push_cast at h2
    have hmR : (1 : ℝ) ≤ m := by exact_mod_cast h3
    have hmR' : (m : ℝ) + 1 ≤ g.nr := by exact_mod_cast h4
    simp only [if_neg (show ¬ x < 0 by linarith), if_neg (show ¬ x > (g.nr : ℝ) - 1 by linarith),
      ruytenLinear_eq g hg.dr (show m ≠ 0 by omega)]
    have hp : pieceLinear g.nr m j = if j = m + 1 then ⟨1, -1 - 1 / (4 * m), 1 / (4 * m), 0⟩
        else if j = m + 2 then ⟨0, 1 + 1 / (4 * m), -(1 / (4 * m)), 0⟩ else ⟨0, 0, 0, 0⟩ := by
      unfold pieceLinear
      rw [if_neg (by omega), if_neg (by omega)]
    rw [hp]
    push_cast
    split_ifs <;> first | (exfalso; omega) | (simp only [Cub.eval]; ring)
  · -- last half cell
    rw [h, edge_mid hn le_rfl] at h1; rw [h, edge_last] at h2
    simp only [if_neg (show ¬ x < 0 by linarith), if_pos (show x > (g.nr : ℝ) - 1 by linarith)]
    have hp : pieceLinear g.nr m j = if j = g.nr + 1 then ⟨1, 0, 0, 0⟩ else ⟨0, 0, 0, 0⟩ := by
      unfold pieceLinear
      rw [if_neg (by omega), if_pos h]
    rw [hp]
    split_ifs <;> first | (exfalso; omega) | (simp only [Cub.eval]; ring)

/-- Integral of a piece. -/
theorem integral_piece (nr : ℕ) (p : Cub) (m : ℕ) :
    ∫ x in edge nr m..edge nr (m + 1), p.eval (x - ((m : ℝ) - 1)) * (x + 1 / 2) =
      p.prim (m - 1 / 2) (edge nr (m + 1) - (m - 1)) - p.prim (m - 1 / 2) (edge nr m - (m - 1)) := by
  rw [← Cub.integral]
  congr 1
  funext x
  ring_nf

/-! ### Cubic shape -/

/-- Corrected and folded radial coefficients at cell coordinate `x`. -/
noncomputable def rCubic (g : Grid ℝ) (x : ℝ) : S4 ℝ :=
  let u := x - ⌈x⌉ + 1
  let s := cubicShape u
  let rc := ruytenCubic g (min ⌈x⌉ (g.nr : ℤ)).toNat
  foldShape x g.nr { s with s1 := s.s1 + rc * (1 - u) * u, s2 := s.s2 - rc * (1 - u) * u }

/-- Column total of a unit particle at cell coordinate `x`, cubic shape. -/
noncomputable def colCubic (g : Grid ℝ) (j : ℤ) (x : ℝ) : ℝ :=
  let ir := min ⌈x⌉ ((g.nr : ℤ) + 2)
  (if ir = j then (rCubic g x).s0 else 0) + (if ir + 1 = j then (rCubic g x).s1 else 0) +
  (if ir + 2 = j then (rCubic g x).s2 else 0) + (if ir + 3 = j then (rCubic g x).s3 else 0)

theorem colCubic_eq {g : Grid ℝ} (hg : g.Regular) {p : Part ℝ} (hp : g.Inside p)
    (hr : 0 ≤ p.r) (hw : p.w = 1) (j : ℤ) :
    weighted g (fun _ j' => if j' = j then 1 else 0)
      (depositShape .cubic true g [p] (fun _ _ => 0)) = colCubic g j ((p.r - g.rMin) / g.dr) := by
  rw [column_total hg _ _ hr]
  show _ = (if min ⌈g.rCell p⌉ ((g.nr : ℤ) + 2) = j then (rCubic g (g.rCell p)).s0 else 0) +
    (if min ⌈g.rCell p⌉ ((g.nr : ℤ) + 2) + 1 = j then (rCubic g (g.rCell p)).s1 else 0) +
    (if min ⌈g.rCell p⌉ ((g.nr : ℤ) + 2) + 2 = j then (rCubic g (g.rCell p)).s2 else 0) +
    (if min ⌈g.rCell p⌉ ((g.nr : ℤ) + 2) + 3 = j then (rCubic g (g.rCell p)).s3 else 0)
  have hz := (foldShape_sum (g.zCell p) g.nz _).trans
    (cubicShape_sum (g.zCell p - ⌈g.zCell p⌉ + 1))
  have hrc : foldShape (g.rCell p) g.nr
      { cubicShape (g.rCell p - ⌈g.rCell p⌉ + 1) with
        s1 := (cubicShape (g.rCell p - ⌈g.rCell p⌉ + 1)).s1 +
          ruytenCubic g (ruytenIndex g p).toNat * (1 - (g.rCell p - ⌈g.rCell p⌉ + 1)) *
            (g.rCell p - ⌈g.rCell p⌉ + 1),
        s2 := (cubicShape (g.rCell p - ⌈g.rCell p⌉ + 1)).s2 -
          ruytenCubic g (ruytenIndex g p).toNat * (1 - (g.rCell p - ⌈g.rCell p⌉ + 1)) *
            (g.rCell p - ⌈g.rCell p⌉ + 1) } = rCubic g (g.rCell p) := rfl
  simp only [writes, writesCubic, hp, if_true, List.map_cons, List.map_nil, List.sum_cons,
    List.sum_nil, hw, mul_one]
  simp only [hrc]
  generalize foldShape (g.zCell p) g.nz _ = zs at hz ⊢
  generalize rCubic g (g.rCell p) = rs
  generalize min ⌈g.rCell p⌉ ((g.nr : ℤ) + 2) = ir
  rcases (by omega : ir = j ∨ ir + 1 = j ∨ ir + 2 = j ∨ ir + 3 = j ∨
    (ir ≠ j ∧ ir + 1 ≠ j ∧ ir + 2 ≠ j ∧ ir + 3 ≠ j)) with h | h | h | h | ⟨h1, h2, h3, h4⟩
  · simp only [if_pos h, if_neg (show ¬ ir + 1 = j by omega), if_neg (show ¬ ir + 2 = j by omega),
      if_neg (show ¬ ir + 3 = j by omega)]
    linear_combination rs.s0 * hz
  · simp only [if_pos h, if_neg (show ¬ ir = j by omega), if_neg (show ¬ ir + 2 = j by omega),
      if_neg (show ¬ ir + 3 = j by omega)]
    linear_combination rs.s1 * hz
  · simp only [if_pos h, if_neg (show ¬ ir = j by omega), if_neg (show ¬ ir + 1 = j by omega),
      if_neg (show ¬ ir + 3 = j by omega)]
    linear_combination rs.s2 * hz
  · simp only [if_pos h, if_neg (show ¬ ir = j by omega), if_neg (show ¬ ir + 1 = j by omega),
      if_neg (show ¬ ir + 2 = j by omega)]
    linear_combination rs.s3 * hz
  · simp [h1, h2, h3, h4]

/-- The Ruyten coefficient of interval `m` in closed form. -/
noncomputable def ruyC (m : ℕ) : ℝ := if m = 1 then -(239 / 320) else -(3 / (4 * (m : ℝ)))

/-- Coefficients of the pieces of `colCubic` in column `m + k`. -/
noncomputable def pieceCubic (nr m : ℕ) (k : ℤ) : Cub :=
  if m = 0 then
    if k = 2 then ⟨5 / 6, 1 / 2, -(1 / 2), 0⟩
    else if k = 3 then ⟨1 / 6, -(1 / 2), 1 / 2, 0⟩ else ⟨0, 0, 0, 0⟩
  else if m = 1 then
    if k = 1 then ⟨5 / 6, ruyC m - 1 / 2, -(1 / 2) - ruyC m, 1 / 3⟩
    else if k = 2 then ⟨1 / 6, 1 / 2 - ruyC m, 1 / 2 + ruyC m, -(1 / 2)⟩
    else if k = 3 then ⟨0, 0, 0, 1 / 6⟩ else ⟨0, 0, 0, 0⟩
  else if m = nr then
    if k = 0 then ⟨1 / 6, -(1 / 2), 1 / 2, 0⟩
    else if k = 1 then ⟨5 / 6, 1 / 2, -(1 / 2), 0⟩ else ⟨0, 0, 0, 0⟩
  else if m + 1 = nr then
    if k = 0 then ⟨1 / 6, -(1 / 2), 1 / 2, -(1 / 6)⟩
    else if k = 1 then ⟨2 / 3, ruyC m, -1 - ruyC m, 1 / 2⟩
    else if k = 2 then ⟨1 / 6, 1 / 2 - ruyC m, 1 / 2 + ruyC m, -(1 / 3)⟩ else ⟨0, 0, 0, 0⟩
  else
    if k = 0 then ⟨1 / 6, -(1 / 2), 1 / 2, -(1 / 6)⟩
    else if k = 1 then ⟨2 / 3, ruyC m, -1 - ruyC m, 1 / 2⟩
    else if k = 2 then ⟨1 / 6, 1 / 2 - ruyC m, 1 / 2 + ruyC m, -(1 / 2)⟩
    else if k = 3 then ⟨0, 0, 0, 1 / 6⟩ else ⟨0, 0, 0, 0⟩

theorem ruyC_eq (g : Grid ℝ) (hd : 0 < g.dr) {m : ℕ} (hm : 1 ≤ m) : ruytenCubic g m = ruyC m := by
  unfold ruyC
  split_ifs with h
  · subst h; exact ruytenCubic_one g hd
  · exact ruytenCubic_eq g hd (by omega)

set_option maxHeartbeats 2000000 in
theorem colCubic_piece {g : Grid ℝ} (hg : g.Regular) (hn : 3 ≤ g.nr) (k : ℤ) (m : ℕ)
    (hm : m ≤ g.nr) (x : ℝ) (h1 : edge g.nr m < x) (h2 : x ≤ edge g.nr (m + 1)) :
    colCubic g (m + k) x = (pieceCubic g.nr m k).eval (x - ((m : ℝ) - 1)) := by
  have hc := ceil_of_edge (by omega) hm h1 h2
  have hnR : (3 : ℝ) ≤ g.nr := by exact_mod_cast hn
  have e1 : min (m : ℤ) ((g.nr : ℤ) + 2) = m := min_eq_left (by omega)
  have e2 : (min (m : ℤ) (g.nr : ℤ)).toNat = m := by rw [min_eq_left (by omega)]; simp
  have key : colCubic g (m + k) x = (if k = 0 then (rCubic g x).s0 else 0) +
      (if k = 1 then (rCubic g x).s1 else 0) + (if k = 2 then (rCubic g x).s2 else 0) +
      (if k = 3 then (rCubic g x).s3 else 0) := by
    unfold colCubic
    rw [hc, e1]
    have a0 : ((m : ℤ) = m + k) = (k = 0) := propext ⟨by omega, by omega⟩
    have a1 : ((m : ℤ) + 1 = m + k) = (k = 1) := propext ⟨by omega, by omega⟩
    have a2 : ((m : ℤ) + 2 = m + k) = (k = 2) := propext ⟨by omega, by omega⟩
    have a3 : ((m : ℤ) + 3 = m + k) = (k = 3) := propext ⟨by omega, by omega⟩
    simp only [a0, a1, a2, a3]
  rw [key]
  have hrc : rCubic g x = foldShape x g.nr
      { cubicShape (x - (m : ℝ) + 1) with
        s1 := (cubicShape (x - (m : ℝ) + 1)).s1 +
          ruytenCubic g m * (1 - (x - (m : ℝ) + 1)) * (x - (m : ℝ) + 1),
        s2 := (cubicShape (x - (m : ℝ) + 1)).s2 -
          ruytenCubic g m * (1 - (x - (m : ℝ) + 1)) * (x - (m : ℝ) + 1) } := by
    unfold rCubic; simp only [hc, e2, Int.cast_natCast]
  rcases (by omega : m = 0 ∨ m = 1 ∨ (2 ≤ m ∧ m = g.nr) ∨ (2 ≤ m ∧ m + 1 = g.nr) ∨
    (2 ≤ m ∧ m + 2 ≤ g.nr)) with h | h | ⟨h3, h⟩ | ⟨h3, h⟩ | ⟨h3, h⟩
  · subst h
    rw [edge_mid (by omega) (by omega)] at h2
    push_cast at h2
    have : rCubic g x = ⟨0, 0, (cubicShape (x + 1)).s2 + (cubicShape (x + 1)).s1,
        (cubicShape (x + 1)).s3 + (cubicShape (x + 1)).s0⟩ := by
      rw [hrc]; unfold foldShape; rw [if_pos (by linarith)]; simp [ruytenCubic]
    rw [this]
    generalize hq : pieceCubic g.nr _ k = q
    unfold pieceCubic at hq
    rw [if_pos rfl] at hq
    subst hq
    split_ifs <;> first | (exfalso; omega) | (simp only [cubicShape, Cub.eval]; push_cast; ring)
  · subst h
    rw [edge_mid (by omega) (by omega)] at h1
    rw [edge_mid (by omega) (by omega)] at h2
    push_cast at h1 h2
    unfold foldShape at hrc
    rw [if_neg (by linarith), if_pos (by linarith), ruyC_eq g hg.dr le_rfl] at hrc
    rw [hrc]
    generalize hq : pieceCubic g.nr _ k = q
    unfold pieceCubic at hq
    rw [if_neg (by omega), if_pos rfl] at hq
    subst hq
    generalize ruyC 1 = R
    split_ifs <;> first | (exfalso; omega) | (simp only [cubicShape, Cub.eval]; push_cast; ring)
  · have h' : (m : ℝ) = g.nr := by exact_mod_cast h
    rw [edge_mid (by omega) (by omega)] at h1
    unfold foldShape at hrc
    rw [if_neg (by linarith), if_neg (by linarith), if_pos (by linarith),
      ruyC_eq g hg.dr (by omega)] at hrc
    rw [hrc]
    generalize hq : pieceCubic g.nr _ k = q
    unfold pieceCubic at hq
    rw [if_neg (by omega), if_neg (by omega), if_pos h] at hq
    subst hq
    generalize ruyC m = R
    split_ifs <;> first | (exfalso; omega) | (simp only [cubicShape, Cub.eval]; ring)
  · have h' : (m : ℝ) + 1 = g.nr := by exact_mod_cast h
    rw [edge_mid (by omega) (by omega)] at h1
    rw [edge_mid (by omega) (by omega)] at h2
    have h3' : (2 : ℝ) ≤ m := by exact_mod_cast h3
    push_cast at h2
    unfold foldShape at hrc
    rw [if_neg (by linarith), if_neg (by linarith), if_neg (by linarith), if_pos (by linarith),
      ruyC_eq g hg.dr (by omega)] at hrc
    rw [hrc]
    generalize hq : pieceCubic g.nr _ k = q
    unfold pieceCubic at hq
    rw [if_neg (by omega), if_neg (by omega), if_neg (by omega), if_pos h] at hq
    subst hq
    generalize ruyC m = R
    split_ifs <;> first | (exfalso; omega) | (simp only [cubicShape, Cub.eval]; ring)
  · have h' : (m : ℝ) + 2 ≤ g.nr := by exact_mod_cast h
    rw [edge_mid (by omega) (by omega)] at h1
    rw [edge_mid (by omega) (by omega)] at h2
    have h3' : (2 : ℝ) ≤ m := by exact_mod_cast h3
    push_cast at h2
    unfold foldShape at hrc
    rw [if_neg (by linarith), if_neg (by linarith), if_neg (by linarith), if_neg (by linarith),
      ruyC_eq g hg.dr (by omega)] at hrc
    rw [hrc]
    generalize hq : pieceCubic g.nr _ k = q
    unfold pieceCubic at hq
    rw [if_neg (by omega), if_neg (by omega), if_neg (by omega), if_neg (by omega)] at hq
    subst hq
    generalize ruyC m = R
    split_ifs <;> first | (exfalso; omega) | (simp only [cubicShape, Cub.eval]; ring)

/-- Charge that the particles with `ceil(r_cell) = m` leave in column `m + k`. -/
noncomputable def shareCubic (nr m : ℕ) (k : ℤ) : ℝ :=
  (pieceCubic nr m k).prim (m - 1 / 2) (edge nr (m + 1) - (m - 1)) -
    (pieceCubic nr m k).prim (m - 1 / 2) (edge nr m - (m - 1))

theorem share_zero {nr : ℕ} (hn : 3 ≤ nr) :
    shareCubic nr 0 2 = 43 / 384 ∧ shareCubic nr 0 3 = 5 / 384 := by
  unfold shareCubic
  rw [edge_zero, edge_mid (by omega) (by omega)]
  constructor <;> (simp [pieceCubic, Cub.prim]; norm_num)

theorem share_one {nr : ℕ} (hn : 3 ≤ nr) :
    shareCubic nr 1 1 = 203 / 640 ∧ shareCubic nr 1 2 = 1207 / 1920 ∧
      shareCubic nr 1 3 = 13 / 240 := by
  unfold shareCubic
  rw [edge_mid (m := 1) (by omega) (by omega), edge_mid (by omega) (by omega)]
  refine ⟨?_, ?_, ?_⟩ <;> (simp [pieceCubic, Cub.prim, ruyC]; try norm_num)

theorem share_last {nr : ℕ} (hn : 3 ≤ nr) :
    shareCubic nr nr 0 = nr / 24 - 5 / 384 ∧ shareCubic nr nr 1 = 11 * nr / 24 - 43 / 384 := by
  unfold shareCubic
  rw [edge_last, edge_mid (by omega) (by omega)]
  have hp : ∀ k, pieceCubic nr nr k = if k = 0 then ⟨1 / 6, -(1 / 2), 1 / 2, 0⟩
      else if k = 1 then ⟨5 / 6, 1 / 2, -(1 / 2), 0⟩ else ⟨0, 0, 0, 0⟩ := by
    intro k
    unfold pieceCubic
    rw [if_neg (by omega), if_neg (by omega), if_pos rfl]
  constructor
  · rw [hp, if_pos rfl]; simp only [Cub.prim]; ring
  · rw [hp, if_neg (by decide), if_pos rfl]; simp only [Cub.prim]; ring

theorem share_before_last {nr m : ℕ} (hm : 2 ≤ m) (h : m + 1 = nr) :
    shareCubic nr m 0 = m / 24 - 1 / 80 ∧ shareCubic nr m 1 = 11 * m / 24 - 41 / 240 ∧
      shareCubic nr m 2 = m / 2 + 11 / 60 := by
  have h0 : (m : ℝ) ≠ 0 := by
    have : m ≠ 0 := by omega
    exact_mod_cast this
  have hR : ruyC m = -(3 / (4 * (m : ℝ))) := by unfold ruyC; rw [if_neg (by omega)]
  unfold shareCubic
  rw [edge_mid (m := m) (by omega) (by omega), edge_mid (by omega) (by omega)]
  have hp : ∀ k, pieceCubic nr m k = if k = 0 then ⟨1 / 6, -(1 / 2), 1 / 2, -(1 / 6)⟩
      else if k = 1 then ⟨2 / 3, ruyC m, -1 - ruyC m, 1 / 2⟩
      else if k = 2 then ⟨1 / 6, 1 / 2 - ruyC m, 1 / 2 + ruyC m, -(1 / 3)⟩ else ⟨0, 0, 0, 0⟩ := by
    intro k
    unfold pieceCubic
    rw [if_neg (by omega), if_neg (by omega), if_neg (by omega), if_pos h]
  refine ⟨?_, ?_, ?_⟩
  · rw [hp, if_pos rfl]; simp only [Cub.prim]; push_cast; field_simp; ring
  · rw [hp, if_neg (by decide), if_pos rfl, hR]; simp only [Cub.prim]; push_cast; field_simp; ring
  · rw [hp, if_neg (by decide), if_neg (by decide), if_pos rfl, hR]
    simp only [Cub.prim]; push_cast; field_simp; ring

theorem share_mid {nr m : ℕ} (hm : 2 ≤ m) (h : m + 2 ≤ nr) :
    shareCubic nr m 0 = m / 24 - 1 / 80 ∧ shareCubic nr m 1 = 11 * m / 24 - 41 / 240 ∧
      shareCubic nr m 2 = 11 * m / 24 + 41 / 240 ∧ shareCubic nr m 3 = m / 24 + 1 / 80 := by
  have h0 : (m : ℝ) ≠ 0 := by
    have : m ≠ 0 := by omega
    exact_mod_cast this
  have hR : ruyC m = -(3 / (4 * (m : ℝ))) := by unfold ruyC; rw [if_neg (by omega)]
  unfold shareCubic
  rw [edge_mid (m := m) (by omega) (by omega), edge_mid (by omega) (by omega)]
  have hp : ∀ k, pieceCubic nr m k =
    if k = 0 then ⟨1 / 6, -(1 / 2), 1 / 2, -(1 / 6)⟩
    else if k = 1 then ⟨2 / 3, ruyC m, -1 - ruyC m, 1 / 2⟩
    else if k = 2 then ⟨1 / 6, 1 / 2 - ruyC m, 1 / 2 + ruyC m, -(1 / 2)⟩
    else if k = 3 then ⟨0, 0, 0, 1 / 6⟩ else ⟨0, 0, 0, 0⟩ := by
    intro k
    unfold pieceCubic
    rw [if_neg (by omega), if_neg (by omega), if_neg (by omega), if_neg (by omega)]
  refine ⟨?_, ?_, ?_, ?_⟩
  · rw [hp, if_pos rfl]; simp only [Cub.prim]; push_cast; field_simp; ring
  · rw [hp, if_neg (by decide), if_pos rfl, hR]; simp only [Cub.prim]; push_cast; field_simp; ring
  · rw [hp, if_neg (by decide), if_neg (by decide), if_pos rfl, hR]
    simp only [Cub.prim]; push_cast; field_simp; ring
  · rw [hp, if_neg (by decide), if_neg (by decide), if_neg (by decide), if_pos rfl]
    simp only [Cub.prim]; push_cast; field_simp; ring

theorem share_none (nr m : ℕ) (k : ℤ) (hk : k < 0 ∨ 3 < k) : shareCubic nr m k = 0 := by
  have : pieceCubic nr m k = ⟨0, 0, 0, 0⟩ := by
    unfold pieceCubic
    split_ifs <;> first | rfl | (exfalso; omega)
  unfold shareCubic
  rw [this]; simp [Cub.prim]

theorem sum_window (f : ℕ → ℝ) (n a l : ℕ) (hl : a + l ≤ n)
    (h : ∀ m < n, m < a ∨ a + l ≤ m → f m = 0) :
    ∑ m ∈ Finset.range n, f m = ∑ i ∈ Finset.range l, f (a + i) := by
  rw [← Finset.sum_subset (s₁ := (Finset.range l).image (a + ·))]
  · rw [Finset.sum_image (by intro x _ y _ hxy; simpa using hxy)]
  · intro m hm
    simp only [Finset.mem_image, Finset.mem_range] at hm ⊢
    obtain ⟨i, hi, rfl⟩ := hm; omega
  · intro m hm hm'
    simp only [Finset.mem_image, Finset.mem_range, not_exists, not_and] at hm hm'
    apply h m hm
    by_contra hcon
    exact hm' (m - a) (by omega) (by omega)

set_option maxHeartbeats 1000000 in
/-- Sum of the shares of a column. -/
theorem share_sum {nr c : ℕ} (hn : 3 ≤ nr) (hc : c < nr) :
    ∑ m ∈ Finset.range (nr + 1), shareCubic nr m ((c : ℤ) + 2 - m) =
      (c : ℝ) + 1 / 2 + (if c + 2 = nr then -(1 / 1920) else if c + 1 = nr then 1 / 1920 else 0) := by
  obtain ⟨s02, s03⟩ := share_zero hn
  obtain ⟨s11, s12, s13⟩ := share_one hn
  obtain ⟨sl0, sl1⟩ := share_last hn
  have sb := fun {m} (hm : 2 ≤ m) (h : m + 1 = nr) => share_before_last hm h
  have sm := fun {m} (hm : 2 ≤ m) (h : m + 2 ≤ nr) => share_mid hm h
  rcases Nat.eq_zero_or_pos c with h0 | h0
  · subst h0
    rw [sum_window _ _ 0 3 (by omega) (fun m hm hm' => share_none _ _ _ (by omega))]
    simp only [Finset.sum_range_succ, Finset.sum_range_zero]
    have h2 : shareCubic nr 2 0 = 2 / 24 - 1 / 80 := by
      rcases (by omega : 2 + 1 = nr ∨ 2 + 2 ≤ nr) with h | h
      · have := (sb (m := 2) le_rfl h).1; push_cast at this; exact this
      · have := (sm (m := 2) le_rfl h).1; push_cast at this; exact this
    norm_num
    rw [s02, s11, h2, if_neg (by omega), if_neg (by omega)]
    norm_num
  by_cases hl : c + 1 = nr
  · obtain ⟨a, rfl⟩ : ∃ a, c = a + 1 := ⟨c - 1, by omega⟩
    rw [sum_window _ _ a 3 (by omega) (fun m hm hm' => share_none _ _ _ (by push_cast; omega)),
      if_neg (by omega), if_pos hl]
    simp only [Finset.sum_range_succ, Finset.sum_range_zero]
    have k3 : ((a + 1 : ℕ) : ℤ) + 2 - ((a + 0 : ℕ) : ℤ) = 3 := by push_cast; ring
    have k2 : ((a + 1 : ℕ) : ℤ) + 2 - ((a + 1 : ℕ) : ℤ) = 2 := by push_cast; ring
    have k1 : ((a + 1 : ℕ) : ℤ) + 2 - ((a + 2 : ℕ) : ℤ) = 1 := by push_cast; ring
    rw [k3, k2, k1]
    have v1 : shareCubic nr (a + 2) 1 = 11 * (a + 2) / 24 - 43 / 384 := by
      have : a + 2 = nr := by omega
      subst this; push_cast at sl1; exact sl1
    have v2 : shareCubic nr (a + 1) 2 = (a + 1) / 2 + 11 / 60 := by
      have := (sb (m := a + 1) (by omega) (by omega)).2.2; push_cast at this; exact this
    have v3 : shareCubic nr (a + 0) 3 = a / 24 + 1 / 80 := by
      rcases (by omega : a = 1 ∨ 2 ≤ a) with h | h
      · subst h; rw [s13]; norm_num
      · exact (sm (m := a) h (by omega)).2.2.2
    rw [v1, v2, v3]; push_cast; ring
  · obtain ⟨a, rfl⟩ : ∃ a, c = a + 1 := ⟨c - 1, by omega⟩
    rw [sum_window _ _ a 4 (by omega) (fun m hm hm' => share_none _ _ _ (by push_cast; omega)),
      if_neg hl]
    simp only [Finset.sum_range_succ, Finset.sum_range_zero]
    have k3 : ((a + 1 : ℕ) : ℤ) + 2 - ((a + 0 : ℕ) : ℤ) = 3 := by push_cast; ring
    have k2 : ((a + 1 : ℕ) : ℤ) + 2 - ((a + 1 : ℕ) : ℤ) = 2 := by push_cast; ring
    have k1 : ((a + 1 : ℕ) : ℤ) + 2 - ((a + 2 : ℕ) : ℤ) = 1 := by push_cast; ring
    have k0 : ((a + 1 : ℕ) : ℤ) + 2 - ((a + 3 : ℕ) : ℤ) = 0 := by push_cast; ring
    rw [k3, k2, k1, k0]
    have v1 : shareCubic nr (a + 2) 1 = 11 * (a + 2) / 24 - 41 / 240 := by
      rcases (by omega : a + 2 + 1 = nr ∨ a + 2 + 2 ≤ nr) with h | h
      · have := (sb (m := a + 2) (by omega) h).2.1; push_cast at this; exact this
      · have := (sm (m := a + 2) (by omega) h).2.1; push_cast at this; exact this
    have v0 : shareCubic nr (a + 3) 0 = if a + 3 = nr then ((a : ℝ) + 3) / 24 - 5 / 384
        else ((a : ℝ) + 3) / 24 - 1 / 80 := by
      split_ifs with h
      · subst h; push_cast at sl0; exact sl0
      · rcases (by omega : a + 3 + 1 = nr ∨ a + 3 + 2 ≤ nr) with h | h
        · have := (sb (m := a + 3) (by omega) h).1; push_cast at this; exact this
        · have := (sm (m := a + 3) (by omega) h).1; push_cast at this; exact this
    have v23 : shareCubic nr (a + 0) 3 + shareCubic nr (a + 1) 2 =
        a / 24 + 1 / 80 + (11 * (a + 1) / 24 + 41 / 240) := by
      rcases (by omega : a = 0 ∨ a = 1 ∨ 2 ≤ a) with h | h | h
      · subst h; rw [show 0 + 1 = 1 from rfl, s03, s12]; norm_num
      · subst h
        have := (sm (m := 2) le_rfl (by omega)).2.2.1
        rw [show 1 + 1 = 2 from rfl, s13, this]; norm_num
      · have e1 := (sm (m := a) h (by omega)).2.2.2
        have e2 := (sm (m := a + 1) (by omega) (by omega)).2.2.1
        push_cast at e2
        rw [e2]; simp only [add_zero]; rw [e1]
    rw [zero_add, v23, v1, v0]
    by_cases h : a + 3 = nr
    · rw [if_pos h, if_pos (by omega)]; push_cast; ring
    · rw [if_neg h, if_neg (by omega)]; push_cast; ring

end WakeT.Deposition
