import Verif.Plasma.Model
import Mathlib.Analysis.SpecialFunctions.Log.Deriv
import Mathlib.Analysis.Calculus.Deriv.Pow
import Mathlib.Analysis.Calculus.Deriv.Add
import Mathlib.Analysis.Calculus.Deriv.Mul
import Mathlib.Algebra.BigOperators.Group.Finset.Sigma
import Mathlib.Analysis.Calculus.FDeriv.Congr

/-! # Properties of the plasma column and the wake potential (C56, C57, C58) -/

set_option linter.unusedSectionVars false

namespace WakeT.Plasma

/-! ### C56: the initial column -/

/-- The particles sit at the centres of equal cells of width `dr / ppc`. -/
theorem column_r (rMaxPlasma pc dr : ℝ) (ppc i : ℕ) :
    let c := Column.init rMaxPlasma pc dr ppc
    (i : ℤ) < c.nPart → c.r i = ((i : ℝ) + 1 / 2) * (dr / ppc) := by
  intro c hi
  show linspace (dr / ppc / 2) (c.nPart * (dr / ppc) - dr / ppc / 2) c.nPart i = _
  unfold linspace
  by_cases h1 : c.nPart = 1
  · rw [if_pos h1]
    have : i = 0 := by omega
    subst this; push_cast; ring
  · rw [if_neg h1]
    have : (c.nPart : ℝ) - 1 ≠ 0 := by
      intro h; apply h1; have : (c.nPart : ℝ) = 1 := by linarith
      exact_mod_cast this
    have e : (c.nPart : ℝ) * (dr / ppc) - dr / ppc / 2 - dr / ppc / 2 =
        ((c.nPart : ℝ) - 1) * (dr / ppc) := by ring
    rw [e, mul_div_right_comm, div_self this]; ring

theorem sum_half (n : ℕ) : ∑ i ∈ Finset.range n, ((i : ℝ) + 1 / 2) = (n : ℝ) ^ 2 / 2 := by
  induction n with
  | zero => simp
  | succ n ih => rw [Finset.sum_range_succ, ih]; push_cast; ring

theorem sum_half3 (n : ℕ) :
    ∑ i ∈ Finset.range n, ((i : ℝ) + 1 / 2) ^ 3 = (n : ℝ) ^ 4 / 4 - (n : ℝ) ^ 2 / 8 := by
  induction n with
  | zero => simp
  | succ n ih => rw [Finset.sum_range_succ, ih]; push_cast; ring

/-- The number of particles is the nearest integer to the number of cells of width
`dr / ppc` in the requested radius. -/
theorem column_count (rMaxPlasma pc dr : ℝ) (ppc : ℕ) :
    |((Column.init rMaxPlasma pc dr ppc).nPart : ℝ) - rMaxPlasma / dr * ppc| ≤ 1 / 2 := by
  show |((npRound (rMaxPlasma / dr * ppc) : ℤ) : ℝ) - rMaxPlasma / dr * ppc| ≤ 1 / 2
  generalize rMaxPlasma / dr * ppc = x
  have h1 := Int.floor_le x
  have h2 := Int.lt_floor_add_one x
  unfold npRound
  rw [abs_le]
  split_ifs <;> push_cast <;> constructor <;> linarith

/-- **C56.** Total charge of the initial column: exactly the ion charge
`r_max²/2` of the (readjusted) column for a uniform plasma.  With a parabolic
coefficient the ion charge is `r_max²/2 + pc r_max⁴/4`, and the column lacks exactly
`pc r_max² dr_p² / 8`. -/
theorem column_charge (rMaxPlasma pc dr : ℝ) (ppc : ℕ) (n : ℕ) :
    let c := Column.init rMaxPlasma pc dr ppc
    c.nPart = n →
    c.rMaxPlasma = n * (dr / ppc) ∧
    ∑ i ∈ Finset.range n, c.q i =
      c.rMaxPlasma ^ 2 / 2 + pc * c.rMaxPlasma ^ 4 / 4 -
        pc * c.rMaxPlasma ^ 2 * (dr / ppc) ^ 2 / 8 := by
  intro c hn
  have hR : c.rMaxPlasma = n * (dr / ppc) := by
    show (c.nPart : ℝ) * (dr / ppc) = _
    rw [hn]; push_cast; rfl
  refine ⟨hR, ?_⟩
  have hq : ∀ i ∈ Finset.range n, c.q i =
      (dr / ppc) ^ 2 * ((i : ℝ) + 1 / 2) + pc * (dr / ppc) ^ 4 * ((i : ℝ) + 1 / 2) ^ 3 := by
    intro i hi
    have hr := column_r rMaxPlasma pc dr ppc i (by
      show (i : ℤ) < c.nPart
      rw [hn]; exact_mod_cast Finset.mem_range.mp hi)
    show (dr / ppc) * c.r i + (dr / ppc) * pc * c.r i ^ 3 = _
    rw [show c.r i = ((i : ℝ) + 1 / 2) * (dr / ppc) from hr]; ring
  rw [Finset.sum_congr rfl hq, Finset.sum_add_distrib, ← Finset.mul_sum, ← Finset.mul_sum,
    sum_half, sum_half3, hR]
  ring

/-- **C56** for a uniform plasma. -/
theorem column_neutral (rMaxPlasma dr : ℝ) (ppc : ℕ) (n : ℕ) :
    let c := Column.init rMaxPlasma 0 dr ppc
    c.nPart = n → ∑ i ∈ Finset.range n, c.q i = c.rMaxPlasma ^ 2 / 2 := by
  intro c hn
  rw [(column_charge rMaxPlasma 0 dr ppc n hn).2]; ring

/-- Column of radius 1.1 with cells of 0.5 and two particles per cell: four
particles (1.1 is readjusted to 1). -/
example : (Column.init (11 / 10) 0 (1 / 2) 2).nPart = 4 := by
  show npRound (11 / 10 / (1 / 2) * (2 : ℕ)) = 4
  have e : (11 / 10 / (1 / 2) * ((2 : ℕ) : ℝ) : ℝ) = 22 / 5 := by norm_num
  rw [e]
  have hf : ⌊(22 / 5 : ℝ)⌋ = 4 := by rw [Int.floor_eq_iff]; norm_num
  unfold npRound; rw [hf]; norm_num

/-! ### C57: no self force in the initial column -/

/-- The initial column as a slice of the solver (it is already sorted). -/
noncomputable def Column.slice (c : Column) (n : ℕ) : Slice :=
  { n := n, r := c.r, pr := c.pr, q := c.q, rMax := c.rMaxPlasma, drP := c.drP, pc := c.pc }

/-- A column with the exact radii and charges. -/
theorem drPsi_regular (s : Slice) (h : ℝ) (hh : 0 < h) (hdr : s.drP = h)
    (hr : ∀ k < s.n, s.r k = ((k : ℝ) + 1 / 2) * h)
    (hq : ∀ k < s.n, s.q k = h * s.r k + h * s.pc * s.r k ^ 3)
    (hR : s.rMax = s.n * h) (k : ℕ) (hk : k < s.n) :
    s.drPsiAt k = -(s.pc * h ^ 2 / 8) * s.r k := by
  have hs1 : ∀ j ≤ s.n, s.sum1 j =
      h ^ 2 * ((j : ℝ) ^ 2 / 2) + s.pc * h ^ 4 * ((j : ℝ) ^ 4 / 4 - (j : ℝ) ^ 2 / 8) := by
    intro j hj
    unfold Slice.sum1
    rw [Finset.sum_congr rfl (fun i hi => by
      have hi' : i < s.n := lt_of_lt_of_le (Finset.mem_range.mp hi) hj
      rw [hq i hi', hr i hi',
        show h * (((i : ℝ) + 1 / 2) * h) + h * s.pc * (((i : ℝ) + 1 / 2) * h) ^ 3 =
          h ^ 2 * ((i : ℝ) + 1 / 2) + s.pc * h ^ 4 * ((i : ℝ) + 1 / 2) ^ 3 by ring]),
      Finset.sum_add_distrib, ← Finset.mul_sum, ← Finset.mul_sum, sum_half, sum_half3]
  have key : ∀ j : ℕ, 0 < j → j ≤ s.n →
      drPsi (j * h) (s.sum1 j) s.rMax s.pc = -(s.pc * h ^ 2 / 8) * (j * h) := by
    intro j hj hjn
    have hj' : (0 : ℝ) < j := by exact_mod_cast hj
    unfold drPsi
    have hle : (j : ℝ) * h ≤ s.rMax := by
      rw [hR]; exact mul_le_mul_of_nonneg_right (by exact_mod_cast hjn) hh.le
    simp only [if_pos hle]
    rw [hs1 j hjn]
    field_simp
    ring
  have hL : s.rLeft k = k * h := by
    unfold Slice.rLeft
    by_cases h0 : 0 < k
    · rw [if_pos h0, hr (k - 1) (by omega), hr k hk, Nat.cast_sub (by omega)]
      push_cast; ring
    · have : k = 0 := by omega
      subst this; simp
  have hRt : s.rRight k = ((k + 1 : ℕ) : ℝ) * h := by
    unfold Slice.rRight
    by_cases h1 : k + 1 < s.n
    · rw [if_pos h1, hr k hk, hr (k + 1) h1]; push_cast; ring
    · rw [if_neg h1, hr k hk, hdr]; push_cast; ring
  have hdl : s.drPsiLeft k = -(s.pc * h ^ 2 / 8) * (k * h) := by
    unfold Slice.drPsiLeft
    by_cases h0 : 0 < k
    · rw [if_pos h0, hL, key k h0 hk.le]
    · have : k = 0 := by omega
      subst this; simp
  have hdrt : s.drPsiRight k = -(s.pc * h ^ 2 / 8) * (((k + 1 : ℕ) : ℝ) * h) := by
    unfold Slice.drPsiRight
    rw [hRt, key (k + 1) (by omega) (by omega)]
  unfold Slice.drPsiAt Slice.interp
  rw [hdl, hdrt, hL, hRt, hr k hk]
  have : ((k + 1 : ℕ) : ℝ) * h - k * h = h := by push_cast; ring
  rw [this]
  push_cast
  field_simp
  ring

/-- **C57.** In the initial column with parabolic coefficient `pc` the computed
radial derivative of the potential at a particle of radius `r` is exactly
`-pc dr_p² r / 8`; it vanishes for every particle of a uniform column. -/
theorem column_self_force (rMaxPlasma pc dr : ℝ) (hdr : 0 < dr) (ppc : ℕ) (hppc : 0 < ppc)
    (n : ℕ) :
    let c := Column.init rMaxPlasma pc dr ppc
    c.nPart = n → ∀ k < n,
      (c.slice n).drPsiAt k = -(pc * (dr / ppc) ^ 2 / 8) * c.r k := by
  intro c hn k hk
  have hp : (0 : ℝ) < ppc := by exact_mod_cast hppc
  refine drPsi_regular (c.slice n) (dr / ppc) (by positivity) rfl ?_ ?_ ?_ k hk
  · intro j hj
    exact column_r rMaxPlasma pc dr ppc j (by
      show (j : ℤ) < c.nPart
      rw [hn]; exact_mod_cast hj)
  · intro j hj; rfl
  · exact (column_charge rMaxPlasma pc dr ppc n hn).1

/-- **C57.** No radial force on any particle of the uniform column. -/
theorem uniform_column_quiet (rMaxPlasma dr : ℝ) (hdr : 0 < dr) (ppc : ℕ) (hppc : 0 < ppc)
    (n : ℕ) :
    let c := Column.init rMaxPlasma 0 dr ppc
    c.nPart = n → ∀ k < n, (c.slice n).drPsiAt k = 0 := by
  intro c hn k hk
  rw [column_self_force rMaxPlasma 0 dr hdr ppc hppc n hn k hk]; ring

/-- A column at rest has no longitudinal derivative either (whatever the radii). -/
theorem rest_dxi (s : Slice) (hpr : ∀ k, s.pr k = 0) (k : ℕ) : s.dxiPsi k = 0 := by
  have h3 : ∀ j, s.sum3 j = 0 := by
    intro j; unfold Slice.sum3
    apply Finset.sum_eq_zero; intro i _; rw [hpr i]; simp
  unfold Slice.dxiPsi Slice.interp Slice.dxiLeft Slice.dxiRight Slice.dxiBoundary Slice.limit3
  simp only [h3, hpr]
  norm_num

/-! ### C58: potential on the grid -/

/-- Specification of `idx`: a permutation of `0 .. n-1` that sorts `r`. -/
structure Sorts (n : ℕ) (r : ℕ → ℝ) (idx : ℕ → ℕ) : Prop where
  maps : ∀ k < n, idx k < n
  inj : ∀ k < n, ∀ l < n, idx k = idx l → k = l
  mono : ∀ k l, k ≤ l → l < n → r (idx k) ≤ r (idx l)

/-- Every index occurs. -/
theorem Sorts.image {n : ℕ} {r : ℕ → ℝ} {idx : ℕ → ℕ} (h : Sorts n r idx) :
    (Finset.range n).image idx = Finset.range n := by
  apply Finset.eq_of_subset_of_card_le
  · intro i hi
    obtain ⟨k, hk, rfl⟩ := Finset.mem_image.mp hi
    exact Finset.mem_range.mpr (h.maps k (Finset.mem_range.mp hk))
  · rw [Finset.card_image_of_injOn]
    intro a ha b hb hab
    exact h.inj a (by simpa using ha) b (by simpa using hb) hab

/-- A sum in sorted order over the first `m` positions is a sum over a set of
particles, if this set consists of the first `m` positions. -/
theorem Sorts.sum_filter {n : ℕ} {r : ℕ → ℝ} {idx : ℕ → ℕ} (h : Sorts n r idx) (f : ℕ → ℝ)
    (p : ℕ → Prop) [DecidablePred p] (m : ℕ) (hm : m ≤ n)
    (hp : ∀ k < n, (p (idx k) ↔ k < m)) :
    ∑ i ∈ Finset.range m, f (idx i) = ∑ i ∈ (Finset.range n).filter p, f i := by
  have e : (Finset.range n).filter p = (Finset.range m).image idx := by
    ext i
    rw [Finset.mem_filter, Finset.mem_image]
    constructor
    · rintro ⟨hi, hpi⟩
      rw [← h.image] at hi
      obtain ⟨k, hk, rfl⟩ := Finset.mem_image.mp hi
      exact ⟨k, Finset.mem_range.mpr ((hp k (Finset.mem_range.mp hk)).mp hpi), rfl⟩
    · rintro ⟨k, hk, rfl⟩
      have hk' := Finset.mem_range.mp hk
      exact ⟨Finset.mem_range.mpr (h.maps k (by omega)), (hp k (by omega)).mpr hk'⟩
  rw [e, Finset.sum_image]
  intro a ha b hb hab
  have ha' := Finset.mem_range.mp (by simpa using ha : a ∈ Finset.range m)
  have hb' := Finset.mem_range.mp (by simpa using hb : b ∈ Finset.range m)
  exact h.inj a (by omega) b (by omega) hab

/-- What the search loop returns: all particles up to this position are inside of
`rj`, the next one is not. -/
theorem scan_spec (r : ℕ → ℝ) (rj : ℝ) (m i : ℕ) (hi : ∀ k < i, r k < rj) :
    ∃ c : ℕ, scan r rj m i = (c : ℤ) - 1 ∧ i ≤ c ∧ c ≤ i + m ∧ (∀ k < c, r k < rj) ∧
      (c < i + m → rj ≤ r c) := by
  induction m generalizing i with
  | zero => exact ⟨i, rfl, le_rfl, by omega, hi, by omega⟩
  | succ m ih =>
    by_cases h : rj ≤ r i
    · exact ⟨i, by simp [scan, h], le_rfl, by omega, hi, fun _ => h⟩
    · obtain ⟨c, h1, h2, h3, h4, h5⟩ := ih (i + 1) (by
        intro k hk
        rcases Nat.lt_succ_iff_lt_or_eq.mp hk with h' | h'
        · exact hi k h'
        · rw [h']; exact not_le.mp h)
      exact ⟨c, by simp [scan, h, h1], by omega, by omega, h4, fun hc => h5 (by omega)⟩

/-- The loop over the radii finds, for each of them, the number `c` of particles inside:
the value written is `out (c-1) rj`. -/
theorem gridLoop_spec (n : ℕ) (rs : ℕ → ℝ) (out : ℤ → ℝ → ℝ)
    (spec : ℝ → ℝ) (hspec : ∀ (rj : ℝ) (c : ℕ), c ≤ n → (∀ k < c, rs k < rj) →
      (c < n → rj ≤ rs c) → out ((c : ℤ) - 1) rj = spec rj)
    (rFld : List ℝ) (hs : rFld.Pairwise (· ≤ ·)) (iLast : ℕ) (hL : iLast ≤ n)
    (hin : ∀ rj ∈ rFld, ∀ k < iLast, rs k < rj) :
    gridLoop n rs out iLast rFld = rFld.map spec := by
  induction rFld generalizing iLast with
  | nil => rfl
  | cons rj rest ih =>
    rw [List.pairwise_cons] at hs
    obtain ⟨c, h1, h2, h3, h4, h5⟩ :=
      scan_spec rs rj (n - iLast) iLast (hin rj List.mem_cons_self)
    have hc : c ≤ n := by omega
    have hin' : ∀ r ∈ rest, ∀ k < c, rs k < r :=
      fun r hr k hk => lt_of_lt_of_le (h4 k hk) (hs.1 r hr)
    rw [gridLoop]
    simp only [h1, List.map_cons]
    congr 1
    · exact hspec rj c hc h4 (fun h => h5 (by omega))
    · by_cases h0 : c = 0
      · rw [if_pos (by omega)]
        exact ih hs.2 0 (by omega) (fun _ _ k hk => absurd hk (by omega))
      · rw [if_neg (by omega), show ((c : ℤ) - 1).toNat = c - 1 by omega]
        exact ih hs.2 (c - 1) (by omega) (fun r hr k hk => hin' r hr k (by omega))

/-- Specification: charge inside of radius `x`. -/
noncomputable def enclosed (n : ℕ) (r q : ℕ → ℝ) (x : ℝ) : ℝ :=
  ∑ i ∈ (Finset.range n).filter (fun i => r i < x), q i

/-- Specification: potential of the column at radius `x`, up to a constant: charge
sheets inside of `x` contribute `q ln(x / r)`, the ions of density `1 + pc r²` inside of
`rMax` the solution of `(1/r) d/dr (r dψ/dr) = -(1 + pc r²)`. -/
noncomputable def potential (n : ℕ) (r q : ℕ → ℝ) (rMax pc x : ℝ) : ℝ :=
  ∑ i ∈ (Finset.range n).filter (fun i => r i < x), q i * Real.log (x / r i) -
    if x ≤ rMax then x ^ 2 / 4 + pc * x ^ 4 / 16
    else rMax ^ 2 / 4 + pc * rMax ^ 4 / 16 +
      (rMax ^ 2 / 2 + pc * rMax ^ 4 / 4) * Real.log (x / rMax)

theorem deltaPsi_sums (n : ℕ) (r q : ℕ → ℝ) (hr : ∀ i < n, 0 < r i) (rMax pc x : ℝ) (hx : 0 < x)
    (hR : 0 < rMax) (p : ℕ → Prop) [DecidablePred p] :
    deltaPsi x (∑ i ∈ (Finset.range n).filter p, q i)
      (∑ i ∈ (Finset.range n).filter p, q i * Real.log (r i)) rMax pc =
    ∑ i ∈ (Finset.range n).filter p, q i * Real.log (x / r i) -
    if x ≤ rMax then x ^ 2 / 4 + pc * x ^ 4 / 16
    else rMax ^ 2 / 4 + pc * rMax ^ 4 / 16 +
      (rMax ^ 2 / 2 + pc * rMax ^ 4 / 4) * Real.log (x / rMax) := by
  have e : ∑ i ∈ (Finset.range n).filter p, q i * Real.log (x / r i) =
      (∑ i ∈ (Finset.range n).filter p, q i) * Real.log x -
        ∑ i ∈ (Finset.range n).filter p, q i * Real.log (r i) := by
    rw [Finset.sum_mul, ← Finset.sum_sub_distrib]
    apply Finset.sum_congr rfl
    intro i hi
    have hi' := Finset.mem_range.mp (Finset.mem_filter.mp hi).1
    rw [Real.log_div hx.ne' (hr i hi').ne']; ring
  unfold deltaPsi
  rw [e, Real.log_div hx.ne' hR.ne']
  simp only []
  congr 1
  split_ifs <;> ring

/-- **C58.** `calculate_psi` returns, at every radius, the direct sum over the
particles inside of this radius plus the ion term, minus the same expression for
all particles at the outer boundary (the outermost particle or the column edge,
whichever is further out).  The right hand side does not mention the order of the
particles. -/
theorem psi_direct_sum (rFld : List ℝ) (hs : rFld.Pairwise (· ≤ ·)) (hpos : ∀ x ∈ rFld, 0 < x)
    (n : ℕ) (hn : 0 < n) (r q : ℕ → ℝ) (hr : ∀ i < n, 0 < r i) (idx : ℕ → ℕ)
    (hidx : Sorts n r idx) (rMax pc : ℝ) (hR : 0 < rMax) (rOut : ℝ) (hin : ∃ i < n, r i = rOut)
    (hout : ∀ i < n, r i ≤ rOut) :
    calculatePsi rFld n r q idx rMax pc =
      rFld.map fun x => potential n r q rMax pc x -
        (∑ i ∈ Finset.range n, q i * Real.log (max rOut rMax / r i) -
          (rMax ^ 2 / 4 + pc * rMax ^ 4 / 16 +
            (rMax ^ 2 / 2 + pc * rMax ^ 4 / 4) * Real.log (max rOut rMax / rMax))) := by
  have hlast : r (idx (n - 1)) = rOut := by
    apply le_antisymm (hout _ (hidx.maps _ (by omega)))
    obtain ⟨i, hi, rfl⟩ := hin
    have : i ∈ (Finset.range n).image idx := by rw [hidx.image]; exact Finset.mem_range.mpr hi
    obtain ⟨k, hk, rfl⟩ := Finset.mem_image.mp this
    have := Finset.mem_range.mp hk
    exact hidx.mono k (n - 1) (by omega) (by omega)
  have hsum : ∀ f : ℕ → ℝ, ∑ i ∈ Finset.range n, f (idx i) = ∑ i ∈ Finset.range n, f i := by
    intro f
    rw [hidx.sum_filter f (fun _ => True) n le_rfl (fun k hk => by simp [hk])]
    rw [Finset.filter_true_of_mem (fun _ _ => trivial)]
  unfold calculatePsi
  simp only []
  rw [hlast, hsum (fun i => q i), hsum (fun i => q i * Real.log (r i))]
  have hloop : ∀ rFld' : List ℝ, rFld'.Pairwise (· ≤ ·) → (∀ x ∈ rFld', 0 < x) →
      gridLoop n (fun k => r (idx k)) (fun (k : ℤ) rj =>
        if k = -1 then deltaPsi rj 0 0 rMax pc
        else deltaPsi rj (∑ i ∈ Finset.range (k.toNat + 1), q (idx i))
          (∑ i ∈ Finset.range (k.toNat + 1), q (idx i) * Real.log (r (idx i))) rMax pc) 0 rFld' =
      rFld'.map fun x => deltaPsi x (∑ i ∈ (Finset.range n).filter (fun i => r i < x), q i)
        (∑ i ∈ (Finset.range n).filter (fun i => r i < x), q i * Real.log (r i)) rMax pc := by
    intro rFld' hs' _
    apply gridLoop_spec n _ _ _ ?_ rFld' hs' 0 (by omega) (fun _ _ k hk => absurd hk (by omega))
    intro rj c hc hlt hge
    have hp : ∀ k < n, (r (idx k) < rj ↔ k < c) := by
      intro k hk
      constructor
      · intro h
        by_contra hck
        have := hidx.mono c k (by omega) hk
        have := hge (by omega)
        linarith
      · exact hlt k
    rw [← hidx.sum_filter (fun i => q i) (fun i => r i < rj) c hc hp,
      ← hidx.sum_filter (fun i => q i * Real.log (r i)) (fun i => r i < rj) c hc hp]
    by_cases h0 : c = 0
    · subst h0; simp
    · rw [if_neg (by omega), show ((c : ℤ) - 1).toNat + 1 = c by omega]
  rw [hloop rFld hs hpos, List.map_map]
  apply List.map_congr_left
  intro x hx
  have hm : 0 < max rOut rMax := lt_of_lt_of_le hR (le_max_right _ _)
  have h2 := deltaPsi_sums n r q hr rMax pc (max rOut rMax) hm hR (fun _ => True)
  rw [Finset.filter_true_of_mem (fun _ _ => trivial)] at h2
  simp only [Function.comp]
  rw [deltaPsi_sums n r q hr rMax pc x (hpos x hx) hR (fun i => r i < x), h2]
  unfold potential
  congr 1
  congr 1
  by_cases hle : max rOut rMax ≤ rMax
  · rw [if_pos hle]
    have : max rOut rMax = rMax := le_antisymm hle (le_max_right _ _)
    rw [this, div_self hR.ne', Real.log_one]; ring
  · rw [if_neg hle]

/-- **C58.** The result does not depend on the numbering of the particles: any
renumbering `σ` (with any sorting permutation) gives the same potential. -/
theorem psi_order_irrelevant (rFld : List ℝ) (hs : rFld.Pairwise (· ≤ ·))
    (hpos : ∀ x ∈ rFld, 0 < x) (n : ℕ) (hn : 0 < n) (r q : ℕ → ℝ) (hr : ∀ i < n, 0 < r i)
    (idx idx' σ : ℕ → ℕ) (hidx : Sorts n r idx)
    (hidx' : Sorts n (r ∘ σ) idx') (hσ : ∀ i < n, σ i < n)
    (hσi : ∀ i < n, ∀ j < n, σ i = σ j → i = j) (rMax pc : ℝ) (hR : 0 < rMax) :
    calculatePsi rFld n (r ∘ σ) (q ∘ σ) idx' rMax pc = calculatePsi rFld n r q idx rMax pc := by
  have himg : (Finset.range n).image σ = Finset.range n := by
    apply Finset.eq_of_subset_of_card_le
    · intro i hi
      obtain ⟨k, hk, rfl⟩ := Finset.mem_image.mp hi
      exact Finset.mem_range.mpr (hσ k (Finset.mem_range.mp hk))
    · rw [Finset.card_image_of_injOn]
      intro a ha b hb hab
      exact hσi a (by simpa using ha) b (by simpa using hb) hab
  have hinj : Set.InjOn σ (Finset.range n : Finset ℕ) := by
    intro a ha b hb hab
    exact hσi a (by simpa using ha) b (by simpa using hb) hab
  have hsum : ∀ (f : ℕ → ℝ), ∑ i ∈ Finset.range n, f (σ i) = ∑ i ∈ Finset.range n, f i := by
    intro f
    rw [← Finset.sum_image (f := f) hinj, himg]
  set rOut := r (idx (n - 1)) with hrOut
  have h1 : ∃ i < n, r i = rOut := ⟨idx (n - 1), hidx.maps _ (by omega), rfl⟩
  have h2 : ∀ i < n, r i ≤ rOut := by
    intro i hi
    have : i ∈ (Finset.range n).image idx := by rw [hidx.image]; exact Finset.mem_range.mpr hi
    obtain ⟨k, hk, rfl⟩ := Finset.mem_image.mp this
    have := Finset.mem_range.mp hk
    exact hidx.mono k (n - 1) (by omega) (by omega)
  have h1' : ∃ i < n, (r ∘ σ) i = rOut := by
    obtain ⟨i, hi, hir⟩ := h1
    have : i ∈ (Finset.range n).image σ := by rw [himg]; exact Finset.mem_range.mpr hi
    obtain ⟨k, hk, hki⟩ := Finset.mem_image.mp this
    exact ⟨k, Finset.mem_range.mp hk, by simp [hki, hir]⟩
  rw [psi_direct_sum rFld hs hpos n hn (r ∘ σ) (q ∘ σ) (fun i hi => hr _ (hσ i hi)) idx' hidx'
      rMax pc hR rOut h1' (fun i hi => h2 _ (hσ i hi)),
    psi_direct_sum rFld hs hpos n hn r q hr idx hidx rMax pc hR rOut h1 h2]
  apply List.map_congr_left
  intro x _
  unfold potential
  simp only [Finset.sum_filter, Function.comp]
  rw [hsum (fun i => if r i < x then q i * Real.log (x / r i) else 0),
    hsum (fun i => q i * Real.log (max rOut rMax / r i))]

/-- Three particles in the order 3, 1, 2 with two of them at a grid radius. -/
example : Sorts 3 (fun i => if i = 0 then 3 else i) (fun k => if k = 0 then 1 else
    if k = 1 then 2 else 0) where
  maps := by intro k hk; interval_cases k <;> simp
  inj := by intro k hk l hl; interval_cases k <;> interval_cases l <;> simp
  mono := by
    intro k l hkl hl
    interval_cases l <;> interval_cases k <;> norm_num

example : ([1, 2, 2, 7 / 2] : List ℝ).Pairwise (· ≤ ·) ∧ ∀ x ∈ ([1, 2, 2, 7 / 2] : List ℝ), 0 < x := by
  constructor
  · simp; norm_num
  · intro x hx; simp at hx; rcases hx with h | h | h <;> rw [h] <;> norm_num

end WakeT.Plasma
