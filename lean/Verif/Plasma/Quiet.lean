import Verif.Plasma.SolverProps
import Mathlib.Analysis.Calculus.MeanValue
import Mathlib.Analysis.SpecialFunctions.Log.Deriv
import Mathlib.Analysis.Complex.ExponentialBounds

/-! # The plasma in front of all drivers (C148) -/

set_option linter.unusedSectionVars false

namespace WakeT.Plasma

open WakeT.Base WakeT.Deposition

/-! ### The potential of the column at rest -/

section Rest
variable (n : ℕ) (h : ℝ)

/-- Radii and charges of the uniform column at rest. -/
noncomputable def restR (i : ℕ) : ℝ := ((i : ℝ) + 1 / 2) * h
noncomputable def restQ (i : ℕ) : ℝ := h * restR h i

/-- Its potential, with each sheet as a continuous function of the radius. -/
theorem potential_max (hh : 0 < h) (x : ℝ) (hx : 0 < x) :
    potential n (restR h) (restQ h) (n * h) 0 x =
      ∑ i ∈ Finset.range n, restQ h i * max 0 (Real.log (x / restR h i)) -
      (if x ≤ n * h then x ^ 2 / 4 else (n * h) ^ 2 / 4 + (n * h) ^ 2 / 2 * Real.log (x / (n * h))) := by
  unfold potential
  congr 1
  · rw [Finset.sum_filter]
    apply Finset.sum_congr rfl
    intro i _
    have hp : 0 < restR h i := by unfold restR; positivity
    by_cases hi : restR h i < x
    · rw [if_pos hi, max_eq_right (Real.log_nonneg ((one_le_div hp).mpr hi.le))]
    · rw [if_neg hi, max_eq_left, mul_zero]
      exact Real.log_nonpos (by positivity) ((div_le_one hp).mpr (not_lt.mp hi))
  · split_ifs <;> ring

/-- The derivative to the right. -/
noncomputable def restSlope (x : ℝ) : ℝ :=
  (∑ i ∈ Finset.range n, if restR h i ≤ x then restQ h i else 0) / x -
    if x < n * h then x / 2 else (n * h) ^ 2 / 2 / x

theorem sheet_deriv {r x q : ℝ} (hr : 0 < r) (hx : 0 < x) :
    HasDerivWithinAt (fun y => q * max 0 (Real.log (y / r))) (if r ≤ x then q / x else 0) (Set.Ici x) x := by
  have hl : HasDerivWithinAt (fun y => Real.log (y / r)) (1 / x) (Set.Ici x) x := by
    have := ((hasDerivAt_id x).div_const r).log (by simp [hx.ne', hr.ne'])
    refine this.hasDerivWithinAt.congr_deriv ?_
    simp only [id]
    field_simp
  by_cases h : r ≤ x
  · rw [if_pos h]
    have h1 := hl.const_mul q
    refine (h1.congr (fun y hy => ?_) ?_).congr_deriv (by ring)
    · rw [max_eq_right (Real.log_nonneg ((one_le_div hr).mpr (h.trans hy)))]
    · rw [max_eq_right (Real.log_nonneg ((one_le_div hr).mpr h))]
  · rw [if_neg h]
    have hlt := not_le.mp h
    refine (hasDerivAt_const x (0 : ℝ)).congr_of_eventuallyEq ?_ |>.hasDerivWithinAt
    filter_upwards [eventually_lt_nhds hlt, eventually_gt_nhds hx] with y hy hy0
    rw [max_eq_left, mul_zero]
    exact Real.log_nonpos (by positivity) ((div_le_one hr).mpr hy.le)

theorem ion_deriv {R x : ℝ} (hR : 0 < R) (hx : 0 < x) :
    HasDerivWithinAt (fun y => if y ≤ R then y ^ 2 / 4 else R ^ 2 / 4 + R ^ 2 / 2 * Real.log (y / R))
      (if x < R then x / 2 else R ^ 2 / 2 / x) (Set.Ici x) x := by
  by_cases h : x < R
  · rw [if_pos h]
    have h1 : HasDerivAt (fun y : ℝ => y ^ 2 / 4) (x / 2) x := by
      refine ((hasDerivAt_pow 2 x).div_const 4).congr_deriv ?_
      push_cast; ring
    refine (h1.congr_of_eventuallyEq ?_).hasDerivWithinAt
    filter_upwards [eventually_lt_nhds h] with y hy
    rw [if_pos hy.le]
  · rw [if_neg h]
    have hge := not_lt.mp h
    have h1 : HasDerivAt (fun y : ℝ => R ^ 2 / 4 + R ^ 2 / 2 * Real.log (y / R)) (R ^ 2 / 2 / x) x := by
      have := ((((hasDerivAt_id x).div_const R).log (by simp [hx.ne', hR.ne'])).const_mul (R ^ 2 / 2)).const_add (R ^ 2 / 4)
      refine this.congr_deriv ?_
      simp only [id]
      field_simp
    have e : ∀ y, R ≤ y → (if y ≤ R then y ^ 2 / 4 else R ^ 2 / 4 + R ^ 2 / 2 * Real.log (y / R)) =
        R ^ 2 / 4 + R ^ 2 / 2 * Real.log (y / R) := by
      intro y hy
      by_cases hy' : y ≤ R
      · rw [if_pos hy', le_antisymm hy' hy, div_self hR.ne', Real.log_one]; ring
      · rw [if_neg hy']
    exact h1.hasDerivWithinAt.congr (fun y hy => e y (hge.trans hy)) (e x hge)

theorem rest_deriv (hn : 0 < n) (hh : 0 < h) {x : ℝ} (hx : 0 < x) :
    HasDerivWithinAt (fun y => ∑ i ∈ Finset.range n, restQ h i * max 0 (Real.log (y / restR h i)) -
      (if y ≤ n * h then y ^ 2 / 4 else (n * h) ^ 2 / 4 + (n * h) ^ 2 / 2 * Real.log (y / (n * h))))
      (restSlope n h x) (Set.Ici x) x := by
  have hR : 0 < (n : ℝ) * h := by have : (0 : ℝ) < n := by exact_mod_cast hn
                                  positivity
  have h1 := HasDerivWithinAt.fun_sum (u := Finset.range n) (fun i _ =>
    sheet_deriv (q := restQ h i) (show 0 < restR h i by unfold restR; positivity) hx)
  refine (h1.sub (ion_deriv hR hx)).congr_deriv ?_
  unfold restSlope
  congr 1
  rw [div_eq_mul_inv, Finset.sum_mul]
  apply Finset.sum_congr rfl
  intro i _
  split_ifs <;> simp [div_eq_mul_inv]

/-- The charge inside of a radius. -/
theorem rest_charge (hh : 0 < h) (x : ℝ) (m : ℕ) (hm : m ≤ n) (h1 : ∀ i < m, restR h i ≤ x)
    (h2 : m < n → x < restR h m) :
    (∑ i ∈ Finset.range n, if restR h i ≤ x then restQ h i else 0) = (m * h) ^ 2 / 2 := by
  have key : ∀ k, (∑ i ∈ Finset.range k, restQ h i) = ((k : ℝ) * h) ^ 2 / 2 := by
    intro k
    induction k with
    | zero => simp
    | succ k ih => rw [Finset.sum_range_succ, ih]; unfold restQ restR; push_cast; ring
  rw [← key m, ← Finset.sum_filter]
  congr 1
  ext i
  rw [Finset.mem_filter, Finset.mem_range, Finset.mem_range]
  constructor
  · rintro ⟨hi, hx⟩
    by_contra hmi
    have := h2 (by omega)
    have hle : restR h m ≤ restR h i := by
      unfold restR
      have : (m : ℝ) ≤ i := by exact_mod_cast not_lt.mp hmi
      exact mul_le_mul_of_nonneg_right (by linarith) hh.le
    linarith
  · exact fun hi => ⟨by omega, h1 i hi⟩

/-- The slope of the potential is never more than three quarters of the distance of the particles. -/
theorem restSlope_bound (hn : 0 < n) (hh : 0 < h) {x : ℝ} (hx : 0 < x) : |restSlope n h x| ≤ 3 / 4 * h := by
  have hn' : (0 : ℝ) < n := by exact_mod_cast hn
  unfold restSlope
  by_cases hR : x < n * h
  · rw [if_pos hR]
    set m := ⌊x / h + 1 / 2⌋₊ with hm
    have hm1 : (m : ℝ) ≤ x / h + 1 / 2 := Nat.floor_le (by positivity)
    have hm2 : x / h + 1 / 2 < m + 1 := Nat.lt_floor_add_one _
    have e1 : (m : ℝ) * h ≤ x + h / 2 := by
      have := mul_le_mul_of_nonneg_right hm1 hh.le
      rw [show (x / h + 1 / 2) * h = x + h / 2 by field_simp] at this
      exact this
    have e2 : x < m * h + h / 2 := by
      have := mul_lt_mul_of_pos_right hm2 hh
      rw [show (x / h + 1 / 2) * h = x + h / 2 by field_simp] at this
      linarith
    have hmn : m ≤ n := by
      by_contra hc
      have : (n : ℝ) + 1 ≤ m := by exact_mod_cast not_le.mp hc
      have := mul_le_mul_of_nonneg_right this hh.le
      linarith
    rw [rest_charge n h hh x m hmn ?_ ?_]
    · have hs : (m * h) ^ 2 / 2 / x - x / 2 = (m * h - x) * (m * h + x) / (2 * x) := by
        field_simp
        ring
      rw [hs, abs_div, abs_mul, abs_of_pos (show (0 : ℝ) < 2 * x by positivity),
        abs_of_nonneg (show (0 : ℝ) ≤ m * h + x by positivity), div_le_iff₀ (by positivity)]
      by_cases h0 : m = 0
      · rw [h0] at e2 ⊢
        simp only [Nat.cast_zero, zero_mul, zero_sub, zero_add, abs_neg, abs_of_pos hx] at e2 ⊢
        have := mul_le_mul_of_nonneg_right e2.le hx.le
        nlinarith [mul_pos hh hx]
      · have h1 : (1 : ℝ) ≤ m := by exact_mod_cast Nat.one_le_iff_ne_zero.mpr h0
        have h2 := mul_le_mul_of_nonneg_right h1 hh.le
        have a1 : |m * h - x| ≤ h / 2 := by rw [abs_le]; constructor <;> linarith
        have a2 : m * h + x ≤ 3 * x := by linarith
        calc |m * h - x| * (m * h + x) ≤ h / 2 * (3 * x) := mul_le_mul a1 a2 (by positivity) (by positivity)
          _ = 3 / 4 * h * (2 * x) := by ring
    · intro i hi
      unfold restR
      have : (i : ℝ) + 1 ≤ m := by exact_mod_cast hi
      have := mul_le_mul_of_nonneg_right this hh.le
      nlinarith
    · intro _
      unfold restR
      linarith
  · rw [if_neg hR]
    have hge := not_lt.mp hR
    rw [rest_charge n h hh x n le_rfl ?_ (fun h => absurd h (lt_irrefl _)), sub_self, abs_zero]
    · positivity
    · intro i hi
      unfold restR
      have : (i : ℝ) + 1 ≤ n := by exact_mod_cast hi
      have := mul_le_mul_of_nonneg_right this hh.le
      linarith

/-- Potential differences in the column at rest. -/
theorem rest_lipschitz (hn : 0 < n) (hh : 0 < h) {x y : ℝ} (hx : 0 < x) (hxy : x ≤ y) :
    |potential n (restR h) (restQ h) (n * h) 0 y - potential n (restR h) (restQ h) (n * h) 0 x| ≤
      3 / 4 * h * (y - x) := by
  rw [potential_max n h hh x hx, potential_max n h hh y (hx.trans_le hxy)]
  have hn' : (0 : ℝ) < n := by exact_mod_cast hn
  have hR : 0 < (n : ℝ) * h := by positivity
  have := norm_image_sub_le_of_norm_deriv_right_le_segment (a := x) (b := y) (C := 3 / 4 * h)
    (f := fun y => ∑ i ∈ Finset.range n, restQ h i * max 0 (Real.log (y / restR h i)) -
      (if y ≤ n * h then y ^ 2 / 4 else (n * h) ^ 2 / 4 + (n * h) ^ 2 / 2 * Real.log (y / (n * h))))
    (f' := restSlope n h) ?_ (fun z hz => rest_deriv n h hn hh (hx.trans_le hz.1))
    (fun z hz => restSlope_bound n h hn hh (hx.trans_le hz.1)) y ⟨hxy, le_rfl⟩
  · exact this
  · intro z hz
    have hz0 : 0 < z := hx.trans_le hz.1
    apply ContinuousAt.continuousWithinAt
    refine ContinuousAt.sub ?_ ?_
    · refine tendsto_finsetSum _ fun i _ => ?_
      have hp : 0 < restR h i := by unfold restR; positivity
      exact continuousAt_const.mul (continuousAt_const.max
        ((continuousAt_id.div_const _).log (by simp [hz0.ne', hp.ne'])))
    · have key : ContinuousAt (fun y => if y ≤ n * h then y ^ 2 / 4 else
          ((n : ℝ) * h) ^ 2 / 4 + (n * h) ^ 2 / 2 * Real.log (y / (n * h))) z := by
        have e : ∀ y, 0 < y → (if y ≤ n * h then y ^ 2 / 4 else
          ((n : ℝ) * h) ^ 2 / 4 + (n * h) ^ 2 / 2 * Real.log (y / (n * h))) =
            (min y (n * h)) ^ 2 / 4 + (n * h) ^ 2 / 2 * max 0 (Real.log (y / (n * h))) := by
          intro y hy
          by_cases hy' : y ≤ n * h
          · rw [if_pos hy', min_eq_left hy', max_eq_left]
            · ring
            · exact Real.log_nonpos (by positivity) ((div_le_one hR).mpr hy')
          · have := not_le.mp hy'
            rw [if_neg hy', min_eq_right this.le, max_eq_right]
            exact Real.log_nonneg ((one_le_div hR).mpr this.le)
        refine ContinuousAt.congr (f := fun y => (min y (n * h)) ^ 2 / 4 + (n * h) ^ 2 / 2 *
          max 0 (Real.log (y / (n * h)))) ?_ ?_
        · refine ContinuousAt.add (((continuousAt_id.min continuousAt_const).pow 2).div_const _) ?_
          exact continuousAt_const.mul (continuousAt_const.max
            ((continuousAt_id.div_const _).log (by simp [hz0.ne', hR.ne'])))
        · filter_upwards [eventually_gt_nhds hz0] with y hy
          exact (e y hy).symm
      exact key

end Rest

/-- Differences on an equidistant grid limit `np.gradient`. -/
theorem gradient_bound (n : ℕ) (d M : ℝ) (hd : 0 < d) (f : ℕ → ℝ) (hn : 3 ≤ n)
    (hf : ∀ j, j + 1 < n → |f (j + 1) - f j| ≤ M * d) (j : ℕ) (hj : j < n) : |gradient n d f j| ≤ 2 * M := by
  have hM : 0 ≤ M * d := (abs_nonneg _).trans (hf 0 (by omega))
  have key : ∀ a b : ℝ, |a| ≤ M * d → |b| ≤ M * d → ∀ e : ℝ, (e = a + b ∨ e = 3 * a - b) → |e / (2 * d)| ≤ 2 * M := by
    intro a b ha hb e he
    rw [abs_div, abs_of_pos (show 0 < 2 * d by linarith), div_le_iff₀ (by linarith)]
    obtain ⟨a1, a2⟩ := abs_le.mp ha
    obtain ⟨b1, b2⟩ := abs_le.mp hb
    rw [abs_le]
    rcases he with rfl | rfl <;> constructor <;> linarith
  unfold gradient
  by_cases h0 : j = 0
  · rw [if_pos h0]
    exact key (f (0 + 1) - f 0) (f (1 + 1) - f 1) (hf 0 (by omega)) (hf 1 (by omega)) _ (.inr (by ring_nf))
  · rw [if_neg h0]
    by_cases h1 : j + 1 = n
    · rw [if_pos h1]
      obtain ⟨l, rfl⟩ : ∃ l, j = l + 2 := ⟨j - 2, by omega⟩
      rw [show l + 2 - 1 = l + 1 by omega, show l + 2 - 2 = l by omega]
      exact key (f (l + 1 + 1) - f (l + 1)) (f (l + 1) - f l) (hf (l + 1) (by omega)) (hf l (by omega)) _ (.inr (by ring_nf))
    · rw [if_neg h1]
      obtain ⟨l, rfl⟩ : ∃ l, j = l + 1 := ⟨j - 1, by omega⟩
      rw [show l + 1 - 1 = l by omega]
      exact key (f (l + 1 + 1) - f (l + 1)) (f (l + 1) - f l) (hf (l + 1) (by omega)) (hf l (by omega)) _ (.inl (by ring_nf))

namespace QS
variable {c : QS}

/-- The transverse wakefield in the first slice is minus the gradient of the potential of the initial column. -/
theorem head_wr (hX : 0 < c.nXi) {pusher : String} {L : ℕ → ℕ → ℝ} {B : List (List (Deposition.Part ℝ))}
    {e0 cc : ℝ} {f r : Fld} (h : c.calculateField pusher L B e0 cc f = .ok r) (j : ℕ) (hj : j < c.nR) :
    r.er ((c.nXi - 1 : ℕ) + 2) (j + 2) - r.bt ((c.nXi - 1 : ℕ) + 2) (j + 2) * cc =
      -gradient c.nR c.dr (fun j' => (calculatePsi c.rFld c.n c.r0 c.q (c.argsort c.r0) c.rMaxP c.pc).getD j' 0) j * e0 := by
  obtain ⟨b, g, -, hg, rfl⟩ := calculate_ok h
  obtain ⟨p, st, hl, rfl, -⟩ := evolve_ok hg
  have hl' := hl
  rw [show c.nXi = 1 + (c.nXi - 1) by omega] at hl'
  obtain ⟨st1, h1, h2, -⟩ := loop_keeps (c := c) 1 (c.nXi - 1) (by omega) hl'
  have h3 := (h2 (c.nXi - 1) (by omega)).1
  have hpsi : st1.2.psi (c.nXi - 1) = calculatePsi c.rFld c.n c.r0 c.q (c.argsort c.r0) c.rMaxP c.pc := by
    simp only [loop, Option.bind_eq_bind, Option.bind_some] at h1
    obtain ⟨x, fx, hc⟩ := slice_grids h1
    unfold column at hc
    simp only [Option.bind_eq_bind, Option.bind_eq_some_iff] at hc
    obtain ⟨src, -, f0, -, row, -, hc⟩ := hc
    have h' := congrArg (fun t => t.2.2.psi) (Option.some.inj hc)
    dsimp only at h'
    rw [← h', show c.nXi - 0 - 1 = c.nXi - 1 by omega, Function.update_self]
    rfl
  dsimp only
  rw [padded_node _ _ _ _ _ (by omega) hj, h3, hpsi]
  ring

/-- The potential on the grid in the first slice, up to a constant. -/
theorem head_potential (rMax xiMin xiMax : ℝ) (nR nXi ppc : ℕ) (rMaxPlasma : Option ℝ) (pShape : String)
    (maxGamma : ℝ) (argsort : (ℕ → ℝ) → ℕ → ℕ) (hr : 0 < rMax) (hR : 0 < nR) (hp : 0 < ppc) (n : ℕ) (hn : 0 < n)
    (hcol : (Column.init (rMaxPlasma.getD rMax) 0 (rMax / nR) ppc).nPart = n)
    (hsort : Sorts n (Column.init (rMaxPlasma.getD rMax) 0 (rMax / nR) ppc).r
      (argsort (Column.init (rMaxPlasma.getD rMax) 0 (rMax / nR) ppc).r)) :
    let c := ofArgs rMax xiMin xiMax nR nXi ppc rMaxPlasma 0 pShape maxGamma argsort
    let h := rMax / nR / ppc
    ∀ j < nR, (calculatePsi c.rFld c.n c.r0 c.q (c.argsort c.r0) c.rMaxP c.pc).getD j 0 =
      potential n (restR h) (restQ h) (n * h) 0 (((j : ℝ) + 1 / 2) * (rMax / nR)) -
        (∑ i ∈ Finset.range n, restQ h i * Real.log (n * h / restR h i) - (n * h) ^ 2 / 4) := by
  intro c h j hj
  have hR' : (0 : ℝ) < nR := by exact_mod_cast hR
  have hp' : (0 : ℝ) < ppc := by exact_mod_cast hp
  have hn' : (0 : ℝ) < n := by exact_mod_cast hn
  have hh : 0 < h := by positivity
  have hd : 0 < rMax / nR := by positivity
  have en : c.n = n := by
    show (Column.init (rMaxPlasma.getD rMax) 0 (rMax / nR) ppc).nPart.toNat = n
    rw [hcol]; rfl
  have er : ∀ i < n, c.r0 i = restR h i := by
    intro i hi
    exact column_r (rMaxPlasma.getD rMax) 0 (rMax / nR) ppc i (by rw [hcol]; exact_mod_cast hi)
  have eq : ∀ i < n, c.q i = restQ h i := by
    intro i hi
    show h * c.r0 i + h * 0 * c.r0 i ^ 3 = h * restR h i
    rw [er i hi]; ring
  have eR : c.rMaxP = n * h := (column_charge (rMaxPlasma.getD rMax) 0 (rMax / nR) ppc n hcol).1
  have hlast : restR h (n - 1) ≤ n * h := by
    unfold restR
    rw [Nat.cast_sub hn]
    push_cast
    nlinarith
  rw [en, psi_direct_sum c.rFld ?_ ?_ n hn c.r0 c.q ?_ (c.argsort c.r0) hsort c.rMaxP c.pc ?_ (restR h (n - 1))
    ⟨n - 1, by omega, er _ (by omega)⟩ ?_]
  · have e1 : c.rFld = (List.range nR).map fun j : ℕ => ((j : ℝ) + 1 / 2) * (rMax / nR) := rfl
    rw [e1, List.map_map, List.getD_eq_getElem?_getD, List.getElem?_map, List.getElem?_range hj, Option.map_some, Option.getD_some]
    show potential n c.r0 c.q c.rMaxP 0 _ - (_ - _) = _
    rw [eR]
    congr 1
    · unfold potential
      congr 1
      rw [Finset.filter_congr (q := fun i => restR h i < ((j : ℝ) + 1 / 2) * (rMax / nR))]
      · apply Finset.sum_congr rfl
        intro i hi
        have hi' := Finset.mem_range.mp (Finset.mem_filter.mp hi).1
        rw [er i hi', eq i hi']
      · intro i hi
        rw [er i (Finset.mem_range.mp hi)]
    · rw [max_eq_right hlast, div_self (by positivity), Real.log_one]
      congr 1
      · apply Finset.sum_congr rfl
        intro i hi
        rw [er i (Finset.mem_range.mp hi), eq i (Finset.mem_range.mp hi)]
      · rw [show c.pc = 0 from rfl]; ring
  · have e1 : c.rFld = (List.range nR).map fun j : ℕ => ((j : ℝ) + 1 / 2) * (rMax / nR) := rfl
    rw [e1, List.pairwise_map]
    refine List.pairwise_le_range.imp ?_
    intro a b hab
    have : (a : ℝ) ≤ b := by exact_mod_cast hab
    exact mul_le_mul_of_nonneg_right (by linarith) hd.le
  · intro x hx
    obtain ⟨a, -, rfl⟩ := List.mem_map.mp hx
    have : 0 < ((a : ℝ) + 1 / 2) * (rMax / nR) := by positivity
    exact this
  · intro i hi
    rw [er i hi]; unfold restR; positivity
  · rw [eR]; positivity
  · intro i hi
    rw [er i hi]
    unfold restR
    have : (i : ℝ) ≤ ((n - 1 : ℕ) : ℝ) := by exact_mod_cast (show i ≤ n - 1 by omega)
    exact mul_le_mul_of_nonneg_right (by linarith) hh.le

/-- **C148, partial.** In the first slice, in front of every driver, the transverse wakefield `E_r - c B_θ` of a
uniform column is limited by the distance of the plasma particles: at every node it is at most `3/2 dr/ppc` (in
units of the skin depth) of the wave-breaking field, whatever the laser and the bunches.

Missing: it is not zero (`head_quiet_violated`). -/
theorem head_quiet_partial (rMax xiMin xiMax : ℝ) (nR nXi ppc : ℕ) (rMaxPlasma : Option ℝ) (pShape pusher : String)
    (maxGamma : ℝ) (argsort : (ℕ → ℝ) → ℕ → ℕ) (hr : 0 < rMax) (hR : 3 ≤ nR) (hX : 0 < nXi) (hp : 0 < ppc)
    (n : ℕ) (hn : 0 < n) (hcol : (Column.init (rMaxPlasma.getD rMax) 0 (rMax / nR) ppc).nPart = n)
    (hsort : Sorts n (Column.init (rMaxPlasma.getD rMax) 0 (rMax / nR) ppc).r
      (argsort (Column.init (rMaxPlasma.getD rMax) 0 (rMax / nR) ppc).r))
    (L : ℕ → ℕ → ℝ) (B : List (List (Deposition.Part ℝ))) (e0 cc : ℝ) (f r : Fld)
    (h : (ofArgs rMax xiMin xiMax nR nXi ppc rMaxPlasma 0 pShape maxGamma argsort).calculateField pusher L B e0 cc f = .ok r)
    (j : ℕ) (hj : j < nR) :
    |r.er ((nXi - 1 : ℕ) + 2) (j + 2) - r.bt ((nXi - 1 : ℕ) + 2) (j + 2) * cc| ≤ 3 / 2 * (rMax / nR / ppc) * |e0| := by
  have hR' : (0 : ℝ) < nR := by exact_mod_cast (show 0 < nR by omega)
  have hp' : (0 : ℝ) < ppc := by exact_mod_cast hp
  have hd : 0 < rMax / nR := by positivity
  have hw := head_wr hX h j hj
  have hψ := head_potential rMax xiMin xiMax nR nXi ppc rMaxPlasma pShape maxGamma argsort hr (by omega) hp n hn hcol hsort
  dsimp only at hψ
  set c := ofArgs rMax xiMin xiMax nR nXi ppc rMaxPlasma 0 pShape maxGamma argsort with hc
  have e1 : c.nXi = nXi := rfl
  have e2 : c.nR = nR := rfl
  have e3 : c.dr = rMax / nR := rfl
  rw [e1] at hw
  rw [hw, abs_mul, abs_neg, e2, e3]
  refine mul_le_mul_of_nonneg_right ?_ (abs_nonneg _)
  refine (gradient_bound nR (rMax / nR) (3 / 4 * (rMax / nR / ppc)) hd _ hR ?_ j hj).trans (le_of_eq (by ring))
  intro l hl
  rw [hψ l (by omega), hψ (l + 1) hl]
  have := rest_lipschitz n (rMax / nR / ppc) hn (by positivity) (x := ((l : ℝ) + 1 / 2) * (rMax / nR))
    (y := (((l + 1 : ℕ) : ℝ) + 1 / 2) * (rMax / nR)) (by positivity) (by
      push_cast
      exact mul_le_mul_of_nonneg_right (by linarith) hd.le)
  rw [show (((l + 1 : ℕ) : ℝ) + 1 / 2) * (rMax / nR) - ((l : ℝ) + 1 / 2) * (rMax / nR) = rMax / nR by push_cast; ring] at this
  rw [sub_sub_sub_cancel_right]
  exact this

/-- **C148, violated.** A uniform plasma of radius 1 (in units of the skin depth), one particle per cell, cells of size 1,
without laser and without bunches: the calculation succeeds and in the first slice, next to the axis, the transverse
wakefield is more than a fifth of the wave-breaking field. -/
theorem head_quiet_violated : ∃ (rMax : ℝ) (nR nXi ppc : ℕ) (rMaxPlasma : ℝ) (argsort : (ℕ → ℝ) → ℕ → ℕ) (r : Fld),
    (∀ n g, argsort g n = n) ∧
    (ofArgs rMax 0 1 nR nXi ppc (some rMaxPlasma) 0 "linear" 10 argsort).calculateField "ab5" (fun _ _ => 0) [] 1 1
      ⟨fun _ _ => 0, fun _ _ => 0, fun _ _ => 0, fun _ _ => 0, fun _ _ => 0⟩ = .ok r ∧
    r.er ((nXi - 1 : ℕ) + 2) (0 + 2) - r.bt ((nXi - 1 : ℕ) + 2) (0 + 2) * 1 < -(1 / 5) := by
  have hcol : (Column.init 1 0 ((3 : ℝ) / (3 : ℕ)) 1).nPart = ((1 : ℕ) : ℤ) := by
    show npRound (1 / ((3 : ℝ) / (3 : ℕ)) * (1 : ℕ)) = 1
    have e : (1 / ((3 : ℝ) / (3 : ℕ)) * ((1 : ℕ) : ℝ) : ℝ) = 1 := by norm_num
    rw [e]
    unfold npRound
    norm_num
  obtain ⟨r, h⟩ := total_args 3 0 1 3 4 1 (some 1) 0 "linear" "ab5" 10 (fun _ i => i) (by norm_num) (by norm_num)
    (by norm_num) (by norm_num) (.inl rfl) (.inl rfl) (fun _ _ => 0) [] 1 1
    ⟨fun _ _ => 0, fun _ _ => 0, fun _ _ => 0, fun _ _ => 0, fun _ _ => 0⟩
  refine ⟨3, 3, 4, 1, 1, fun _ i => i, r, fun _ _ => rfl, h, ?_⟩
  have hs : Sorts 1 (Column.init ((some (1 : ℝ)).getD 3) 0 ((3 : ℝ) / (3 : ℕ)) 1).r (fun i => i) :=
    ⟨fun k hk => hk, fun _ _ _ _ e => e, fun k l hkl hl => by
      obtain rfl : k = 0 := by omega
      obtain rfl : l = 0 := by omega
      exact le_rfl⟩
  have hψ := head_potential 3 0 1 3 4 1 (some 1) "linear" 10 (fun _ i => i) (by norm_num) (by norm_num) (by norm_num) 1
    (by norm_num) hcol hs
  dsimp only at hψ
  have hw := head_wr (by show 0 < 4; norm_num) h 0 (by show 0 < 3; norm_num)
  have hc : ∀ c : QS, c = ofArgs 3 0 1 3 4 1 (some 1) 0 "linear" 10 (fun _ i => i) → c.nXi = 4 ∧ c.nR = 3 ∧
      c.dr = (3 : ℝ) / (3 : ℕ) := by
    rintro c rfl; exact ⟨rfl, rfl, rfl⟩
  obtain ⟨e1, e2, e3⟩ := hc _ rfl
  rw [e1, e2, e3] at hw
  have hl := Real.log_two_gt_d9
  have h0 := hψ 0 (by norm_num)
  have h1 := hψ 1 (by norm_num)
  have h2 := hψ 2 (by norm_num)
  have p0 : potential 1 (restR ((3 : ℝ) / (3 : ℕ) / (1 : ℕ))) (restQ ((3 : ℝ) / (3 : ℕ) / (1 : ℕ)))
      ((1 : ℕ) * ((3 : ℝ) / (3 : ℕ) / (1 : ℕ))) 0 ((((0 : ℕ) : ℝ) + 1 / 2) * (3 / (3 : ℕ))) = -(1 / 16) := by
    unfold potential restR restQ restR
    norm_num [Finset.sum_filter]
  have p1 : potential 1 (restR ((3 : ℝ) / (3 : ℕ) / (1 : ℕ))) (restQ ((3 : ℝ) / (3 : ℕ) / (1 : ℕ)))
      ((1 : ℕ) * ((3 : ℝ) / (3 : ℕ) / (1 : ℕ))) 0 ((((1 : ℕ) : ℝ) + 1 / 2) * (3 / (3 : ℕ))) = Real.log 2 / 2 - 1 / 4 := by
    unfold potential restR restQ restR
    have : Real.log (3 / 2) = Real.log 3 - Real.log 2 := Real.log_div (by norm_num) (by norm_num)
    norm_num [Finset.sum_filter]
    linarith
  have p2 : potential 1 (restR ((3 : ℝ) / (3 : ℕ) / (1 : ℕ))) (restQ ((3 : ℝ) / (3 : ℕ) / (1 : ℕ)))
      ((1 : ℕ) * ((3 : ℝ) / (3 : ℕ) / (1 : ℕ))) 0 ((((2 : ℕ) : ℝ) + 1 / 2) * (3 / (3 : ℕ))) = Real.log 2 / 2 - 1 / 4 := by
    unfold potential restR restQ restR
    have : Real.log (5 / 2) = Real.log 5 - Real.log 2 := Real.log_div (by norm_num) (by norm_num)
    norm_num [Finset.sum_filter]
    linarith
  have pc : (∑ i ∈ Finset.range 1, restQ ((3 : ℝ) / (3 : ℕ) / (1 : ℕ)) i *
      Real.log ((1 : ℕ) * ((3 : ℝ) / (3 : ℕ) / (1 : ℕ)) / restR ((3 : ℝ) / (3 : ℕ) / (1 : ℕ)) i) -
        ((1 : ℕ) * ((3 : ℝ) / (3 : ℕ) / (1 : ℕ))) ^ 2 / 4) = Real.log 2 / 2 - 1 / 4 := by
    have : Real.log (1 / 2) = -Real.log 2 := by rw [one_div, Real.log_inv]
    unfold restQ restR
    norm_num
    linarith
  rw [p0, pc] at h0
  rw [p1, pc] at h1
  rw [p2, pc] at h2
  refine lt_of_eq_of_lt hw ?_
  unfold gradient
  rw [if_pos rfl]
  dsimp only
  rw [h0, h1, h2]
  norm_num
  linarith

/-- The hypotheses of `head_quiet_partial` are met by a plasma of radius 3 in 3 cells with 2 particles per cell. -/
example : ∃ n : ℕ, 0 < n ∧ (Column.init ((none : Option ℝ).getD 3) 0 (3 / (3 : ℕ)) 2).nPart = n ∧
    Sorts n (Column.init ((none : Option ℝ).getD 3) 0 (3 / (3 : ℕ)) 2).r (fun i => i) ∧
    ∀ (L : ℕ → ℕ → ℝ) (B : List (List (Deposition.Part ℝ))) (f : Fld), ∃ r : Fld,
      (ofArgs 3 0 1 3 4 2 none 0 "cubic" 10 fun _ i => i).calculateField "rk4" L B 1 1 f = .ok r := by
  have hcol : (Column.init ((none : Option ℝ).getD 3) 0 ((3 : ℝ) / (3 : ℕ)) 2).nPart = ((6 : ℕ) : ℤ) := by
    show npRound (3 / ((3 : ℝ) / (3 : ℕ)) * (2 : ℕ)) = 6
    have e : (3 / ((3 : ℝ) / (3 : ℕ)) * ((2 : ℕ) : ℝ) : ℝ) = 6 := by norm_num
    rw [e]
    unfold npRound
    norm_num
  refine ⟨6, by norm_num, hcol, ⟨fun k hk => hk, fun _ _ _ _ e => e, fun k l hkl hl => ?_⟩, fun L B f =>
    total_args 3 0 1 3 4 2 none 0 "cubic" "rk4" 10 (fun _ i => i) (by norm_num) (by norm_num)
      (by norm_num) (by norm_num) (.inr rfl) (.inr rfl) L B 1 1 f⟩
  rw [column_r _ _ _ _ k (by rw [hcol]; exact_mod_cast (show k < 6 by omega)),
    column_r _ _ _ _ l (by rw [hcol]; exact_mod_cast hl)]
  have : (k : ℝ) ≤ l := by exact_mod_cast hkl
  norm_num
  linarith

end QS

end WakeT.Plasma
