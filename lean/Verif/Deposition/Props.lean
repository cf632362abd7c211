import Verif.Deposition.Refine
import Mathlib.Data.Rat.Floor

/-! # Properties C14 - C17, C19: deposition of particles on the grid -/

set_option linter.unusedSectionVars false

namespace WakeT.Deposition

variable {K : Type*} [Field K] [LinearOrder K] [IsStrictOrderedRing K] [FloorRing K]

/-- A concrete grid used in examples: 6 x 4 cells of size 1/2 x 1/3. -/
def demoGrid : Grid ℚ := ⟨-1, 1 / 6, 6, 4, 1 / 2, 1 / 3⟩

theorem demoGrid_regular : demoGrid.Regular := ⟨by norm_num [demoGrid], by norm_num [demoGrid],
  by norm_num [demoGrid]⟩

/-- Particles used in examples: two inside (one in the first half cell), two
outside. -/
def demoParts : List (Part ℚ) :=
  [⟨-3 / 5, 3 / 10, 2⟩, ⟨0, 1 / 10, -3⟩, ⟨9 / 5, 0, 7⟩, ⟨0, 3 / 2, 11⟩]

theorem demoParts_nonneg : ∀ p ∈ demoParts, 0 ≤ p.r := by
  simp [demoParts]; norm_num

/-! ### C14 -/

/-- **C14**: the total of the array increases by exactly the total weight of the
particles inside the box, for both shapes, with and without Ruyten correction,
for every grid size, every array and every list of particles. -/
theorem charge_conserved (g : Grid K) (hg : g.Regular) (pShape : String) (ruyten : Bool)
    (ps : List (Part K)) (hr : ∀ p ∈ ps, 0 ≤ p.r) (a a' : ℤ → ℤ → K)
    (h : deposit pShape ruyten g ps a = some a') :
    total g a' = total g a + weight (g.inside ps) := by
  unfold deposit at h
  obtain ⟨sh, _, rfl⟩ := Option.map_eq_some_iff.mp h
  unfold total
  rw [weighted_deposit sh ruyten g _ ps a (fun p hp => inBounds hg sh ruyten (hr p hp))]
  congr 1
  unfold weight Grid.inside
  simp only [one_mul, sum_v]
  clear hr h
  induction ps with
  | nil => simp
  | cons p ps ih =>
    simp only [List.map_cons, List.sum_cons, List.filter_cons, ih]
    by_cases hp : g.Inside p
    · rw [if_pos hp, if_pos (by simpa [Grid.Inside] using hp)]; simp
    · rw [if_neg hp, if_neg (by simpa [Grid.Inside] using hp)]; simp

/-- **C14**: exactly the two documented shapes are accepted. -/
theorem deposit_accepts (pShape : String) (ruyten : Bool) (g : Grid K) (ps : List (Part K))
    (a : ℤ → ℤ → K) :
    (deposit pShape ruyten g ps a).isSome ↔ pShape = "linear" ∨ pShape = "cubic" := by
  unfold deposit parseShape
  by_cases h1 : pShape = "linear"
  · simp [h1]
  · by_cases h2 : pShape = "cubic"
    · simp [h2]
    · simp [h1, h2]

/-- **C14**: particles outside of the box have no effect at all. -/
theorem outside_no_effect (g : Grid K) (sh : Shape) (ruyten : Bool) (ps : List (Part K))
    (h : ∀ p ∈ ps, p.z < g.zMin ∨ g.zMin + ((g.nz : K) - 1) * g.dz < p.z ∨ g.nr * g.dr < p.r)
    (a : ℤ → ℤ → K) : depositShape sh ruyten g ps a = a := by
  funext i j
  rw [depositShape_apply]
  have : (ps.map fun p => effect (writes sh ruyten g p) i j) = ps.map fun _ => 0 := by
    apply List.map_congr_left
    intro p hp
    apply effect_outside
    intro hin
    rcases h p hp with h1 | h1 | h1
    · exact absurd hin.1 (not_le.mpr h1)
    · exact absurd hin.2.1 (not_le.mpr h1)
    · exact absurd hin.2.2 (not_le.mpr h1)
  rw [this]; simp

example : ∃ a', deposit "cubic" true demoGrid demoParts (fun _ _ => 1) = some a' ∧
    total demoGrid a' = 10 * 8 + (2 - 3) := by
  refine ⟨_, rfl, ?_⟩
  rw [charge_conserved demoGrid demoGrid_regular "cubic" true demoParts demoParts_nonneg
    (fun _ _ => 1) _ rfl]
  decide +kernel

/-! ### C16 -/

/-- **C16**: every array element accessed for a particle is inside the
allocated array, whatever the grid size, shape and correction. -/
theorem writes_in_bounds (g : Grid K) (hg : g.Regular) (sh : Shape) (ruyten : Bool) (p : Part K)
    (hr : 0 ≤ p.r) : ∀ wr ∈ writes sh ruyten g p,
      0 ≤ wr.i ∧ wr.i < g.nz + 4 ∧ 0 ≤ wr.j ∧ wr.j < g.nr + 4 :=
  inBounds hg sh ruyten hr

/-- **C16**: the index into the array of `nr + 1` Ruyten coefficients is valid
for every particle for which it is used. -/
theorem ruyten_index_in_bounds (g : Grid K) (hg : g.Regular) (p : Part K) (hp : g.Inside p)
    (hr : 0 ≤ p.r) : 0 ≤ ruytenIndex g p ∧ ruytenIndex g p < g.nr + 1 := by
  have := ceil_rCell hg hp hr
  unfold ruytenIndex
  omega

example : (writes .cubic false demoGrid ⟨-1, 4 / 3, 5⟩).map (fun w => (w.i, w.j)) =
    [(0, 4), (0, 5), (0, 6), (0, 7), (1, 4), (1, 5), (1, 6), (1, 7), (2, 4), (2, 5), (2, 6),
     (2, 7), (3, 4), (3, 5), (3, 6), (3, 7)] := by decide +kernel

/-! ### C15 -/

/-- **C15** for the cubic shape without correction: what is deposited is the
cubic B-spline of the particle in both directions, with the parts outside of the
physical cells reflected back.  In particular nothing is deposited in guard
cells. -/
theorem cubic_profile (g : Grid K) (hg : g.Regular) (hnz : 3 ≤ g.nz) (hnr : 3 ≤ g.nr)
    (ps : List (Part K)) (hr : ∀ p ∈ ps, 0 ≤ p.r) (a : ℤ → ℤ → K) (i j : ℤ) :
    depositShape .cubic false g ps a i j = a i j + ((g.inside ps).map fun p => p.w *
      bsplineFolded g.nz (i - 2) ((p.z - g.zMin) / g.dz) *
      bsplineFolded g.nr (j - 2) ((p.r - g.rMin) / g.dr)).sum := by
  rw [depositShape_apply]
  congr 1
  induction ps with
  | nil => simp [Grid.inside]
  | cons p ps ih =>
    have ih := ih (fun q hq => hr q (List.mem_cons_of_mem _ hq))
    simp only [Grid.inside] at ih
    simp only [List.map_cons, List.sum_cons, Grid.inside, List.filter_cons]
    by_cases hp : g.Inside p
    · rw [if_pos (by simpa [Grid.Inside] using hp), List.map_cons, List.sum_cons, ih]
      congr 1
      exact effect_cubic hg hnz hnr hp (hr p List.mem_cons_self) i j
    · rw [if_neg (by simpa [Grid.Inside] using hp), effect_outside _ _ _ _ hp, ih, zero_add]

/-- The values a cubic deposition writes, with or without correction, vanish
outside of the physical cells. -/
private theorem foldShape_physical {x : K} {n : ℕ} (hn : 3 ≤ n) (h1 : -(1 / 2) ≤ x)
    (h2 : x ≤ (n : K) - 1 / 2) (s : S4 K) :
    ((foldShape x n s).s0 ≠ 0 → 2 ≤ ⌈x⌉ ∧ ⌈x⌉ < n + 2) ∧
    ((foldShape x n s).s1 ≠ 0 → 2 ≤ ⌈x⌉ + 1 ∧ ⌈x⌉ + 1 < n + 2) ∧
    ((foldShape x n s).s2 ≠ 0 → 2 ≤ ⌈x⌉ + 2 ∧ ⌈x⌉ + 2 < n + 2) ∧
    ((foldShape x n s).s3 ≠ 0 → 2 ≤ ⌈x⌉ + 3 ∧ ⌈x⌉ + 3 < n + 2) := by
  have hm0 : 0 ≤ ⌈x⌉ := by
    have : (-1 : ℤ) < ⌈x⌉ := Int.lt_ceil.mpr (by push_cast; linarith)
    omega
  have hmn : ⌈x⌉ ≤ n := Int.ceil_le.mpr (by push_cast; linarith)
  have hx0 : x ≤ 0 ↔ ⌈x⌉ ≤ 0 := by rw [Int.ceil_le]; simp
  have hx1 : x ≤ 1 ↔ ⌈x⌉ ≤ 1 := by rw [Int.ceil_le]; simp
  have hxn1 : x > (n : K) - 1 ↔ (n : ℤ) - 1 < ⌈x⌉ := by rw [Int.lt_ceil]; simp
  have hxn2 : x > (n : K) - 2 ↔ (n : ℤ) - 2 < ⌈x⌉ := by rw [Int.lt_ceil]; simp
  simp only [foldShape, hx0, hx1, hxn1, hxn2]
  split_ifs <;> refine ⟨fun h => ?_, fun h => ?_, fun h => ?_, fun h => ?_⟩ <;>
    first
    | exact absurd rfl h
    | omega

/-- **C15** for the cubic shape, with or without correction: nothing non-zero is
written outside of the physical cells. -/
theorem cubic_physical (g : Grid K) (hg : g.Regular) (hnz : 3 ≤ g.nz) (hnr : 3 ≤ g.nr)
    (ruyten : Bool) (p : Part K) (hr : 0 ≤ p.r) :
    ∀ wr ∈ writes .cubic ruyten g p, wr.v ≠ 0 → g.Physical wr.i wr.j := by
  intro wr hwr hv
  simp only [writes, writesCubic] at hwr
  split at hwr
  · rename_i hp
    obtain ⟨hz1, hz2⟩ := zCell_mem hg hp
    obtain ⟨hr1, hr2⟩ := rCell_mem hg hp hr
    obtain ⟨hc1, hc2⟩ := ceil_rCell hg hp hr
    have hmin : min ⌈g.rCell p⌉ ((g.nr : ℤ) + 2) = ⌈g.rCell p⌉ := min_eq_left (by omega)
    simp only [hmin] at hwr
    obtain ⟨hz0, hz1, hz2, hz3⟩ := foldShape_physical hnz (x := g.zCell p) (by linarith)
      (by linarith) (cubicShape (g.zCell p - ⌈g.zCell p⌉ + 1))
    revert hwr
    generalize hrs : ({ cubicShape (g.rCell p - ⌈g.rCell p⌉ + 1) with s1 := _, s2 := _ } : S4 K)
      = rs
    intro hwr
    obtain ⟨hr0, hr1, hr2, hr3⟩ := foldShape_physical hnr hr1 hr2 rs
    unfold Grid.Physical
    simp only [List.mem_cons, List.not_mem_nil, or_false] at hwr
    rcases hwr with rfl | rfl | rfl | rfl | rfl | rfl | rfl | rfl | rfl | rfl | rfl | rfl | rfl |
      rfl | rfl | rfl <;>
    · simp only [ne_eq, mul_eq_zero, not_or] at hv
      obtain ⟨⟨hv1, hv2⟩, _⟩ := hv
      refine ⟨?_, ?_, ?_, ?_⟩ <;>
      first
      | exact (hz0 hv1).1 | exact (hz1 hv1).1 | exact (hz2 hv1).1 | exact (hz3 hv1).1
      | exact (hz0 hv1).2 | exact (hz1 hv1).2 | exact (hz2 hv1).2 | exact (hz3 hv1).2
      | exact (hr0 hv2).1 | exact (hr1 hv2).1 | exact (hr2 hv2).1 | exact (hr3 hv2).1
      | exact (hr0 hv2).2 | exact (hr1 hv2).2 | exact (hr2 hv2).2 | exact (hr3 hv2).2
  · simp at hwr

/-- **C15** (partial) for the linear shape without correction: what is deposited
is the triangular shape function of the particle in both directions; in `r` the
particles in the first and the last half cell go to the nearest cell.

Missing: particles with `r_cell > nz - 1`, for which the property is false; see
`linear_wrong_slice`. -/
theorem linear_profile_partial (g : Grid K) (hg : g.Regular) (hnr : 1 ≤ g.nr)
    (ps : List (Part K)) (hr : ∀ p ∈ ps, 0 ≤ p.r)
    (hz : ∀ p ∈ ps, (p.r - g.rMin) / g.dr ≤ (g.nz : K) - 1) (a : ℤ → ℤ → K) (i j : ℤ) :
    depositShape .linear false g ps a i j = a i j + ((g.inside ps).map fun p => p.w *
      hat ((i : K) - 2 - (p.z - g.zMin) / g.dz) *
      hat ((j : K) - 2 - max 0 (min ((p.r - g.rMin) / g.dr) ((g.nr : K) - 1)))).sum := by
  rw [depositShape_apply]
  congr 1
  induction ps with
  | nil => simp [Grid.inside]
  | cons p ps ih =>
    have ih := ih (fun q hq => hr q (List.mem_cons_of_mem _ hq))
      (fun q hq => hz q (List.mem_cons_of_mem _ hq))
    simp only [Grid.inside] at ih
    simp only [List.map_cons, List.sum_cons, Grid.inside, List.filter_cons]
    by_cases hp : g.Inside p
    · rw [if_pos (by simpa [Grid.Inside] using hp), List.map_cons, List.sum_cons, ih]
      congr 1
      exact effect_linear hg hnr hp (hr p List.mem_cons_self) (hz p List.mem_cons_self) i j
    · rw [if_neg (by simpa [Grid.Inside] using hp), effect_outside _ _ _ _ hp, ih, zero_add]

/-- **C15**: on grids with more longitudinal than radial cells the restriction of
`linear_profile_partial` is met by all particles inside the box. -/
theorem linear_profile_long_grid (g : Grid K) (hg : g.Regular) (hnr : 1 ≤ g.nr)
    (hlong : g.nr < g.nz) (ps : List (Part K)) (hr : ∀ p ∈ ps, 0 ≤ p.r) (a : ℤ → ℤ → K)
    (i j : ℤ) :
    depositShape .linear false g ps a i j = a i j + ((g.inside ps).map fun p => p.w *
      hat ((i : K) - 2 - (p.z - g.zMin) / g.dz) *
      hat ((j : K) - 2 - max 0 (min ((p.r - g.rMin) / g.dr) ((g.nr : K) - 1)))).sum := by
  have h1 : depositShape .linear false g ps a i j =
      depositShape .linear false g (g.inside ps) a i j := by
    rw [depositShape_apply, depositShape_apply]
    congr 1
    unfold Grid.inside
    induction ps with
    | nil => simp
    | cons p ps ih =>
      have ih := ih (fun q hq => hr q (List.mem_cons_of_mem _ hq))
      simp only [List.map_cons, List.sum_cons, List.filter_cons]
      by_cases hp : g.Inside p
      · rw [if_pos (by simpa [Grid.Inside] using hp), List.map_cons, List.sum_cons, ih]
      · rw [if_neg (by simpa [Grid.Inside] using hp), effect_outside _ _ _ _ hp, ih, zero_add]
  have hidem : g.inside (g.inside ps) = g.inside ps := by
    unfold Grid.inside; rw [List.filter_filter]; simp
  have hr' : ∀ p ∈ g.inside ps, 0 ≤ p.r := fun p hp => hr p (List.mem_of_mem_filter hp)
  rw [h1, linear_profile_partial g hg hnr _ hr' _ a i j, hidem]
  intro p hp
  have hin : g.Inside p := by
    have := List.of_mem_filter hp
    simpa [Grid.Inside] using this
  have h2 := (rCell_mem hg hin (hr' p hp)).2
  unfold Grid.rCell at h2
  have : (g.nr : K) + 1 ≤ g.nz := by exact_mod_cast hlong
  linarith

/-- **C15** violated by the linear shape: on a grid with 3 longitudinal and 8
radial cells, a particle at the first longitudinal node with radius 5.5 cells
deposits all of its charge in the guard row before the grid; a particle at
`z_cell = 1` deposits all of its charge in row 0 instead of row 1.  Cause:
deposition.py line 120 tests `r_cell` where `z_cell` is meant. -/
theorem linear_wrong_slice :
    let g : Grid ℚ := ⟨0, 1 / 2, 3, 8, 1, 1⟩
    g.Regular ∧
    depositShape .linear false g [⟨0, 11 / 2, 1⟩] (fun _ _ => 0) 1 7 = 1 ∧
    ¬ g.Physical 1 7 ∧
    depositShape .linear false g [⟨1, 11 / 2, 1⟩] (fun _ _ => 0) 2 7 = 1 := by
  refine ⟨⟨by norm_num, by norm_num, by norm_num⟩, by decide +kernel, ?_, by decide +kernel⟩
  unfold Grid.Physical; norm_num

/-- **C15** violated by the cubic shape on grids with two cells in a direction:
charge ends up in the guard cell behind the last row. -/
theorem cubic_small_grid_guard :
    let g : Grid ℚ := ⟨0, 1 / 2, 2, 4, 1, 1⟩
    depositShape .cubic false g [⟨1, 2, 1⟩] (fun _ _ => 0) 4 4 ≠ 0 ∧ ¬ g.Physical 4 4 := by
  refine ⟨by decide +kernel, ?_⟩
  unfold Grid.Physical; norm_num

/-! ### C17 -/

/-- **C17**, linear shape: the charge-weighted mean position is the position of
the particle, for particles between the first and last radial cell centre. -/
theorem linear_centroid (g : Grid K) (hg : g.Regular) (p : Part K) (hp : g.Inside p)
    (hr1 : g.rMin ≤ p.r) (hr2 : p.r ≤ g.rMin + ((g.nr : K) - 1) * g.dr)
    (hz : (p.r - g.rMin) / g.dr ≤ (g.nz : K) - 1) :
    weighted g (fun i _ => g.zNode i) (depositShape .linear false g [p] (fun _ _ => 0))
      = p.w * p.z ∧
    weighted g (fun _ j => g.rNode j) (depositShape .linear false g [p] (fun _ _ => 0))
      = p.w * p.r := by
  have hd := hg.dr
  have hdz := hg.dz
  have hr0 : 0 ≤ p.r := by have := hg.rMin; linarith
  have hb : ∀ q ∈ [p], InBounds g (writes .linear false g q) := by
    intro q hq; simp at hq; subst hq; exact inBounds hg _ _ hr0
  obtain ⟨hz1, _⟩ := zCell_mem hg hp
  obtain ⟨hc1, hc2⟩ := ceil_rCell hg hp hr0
  have hrc1 : ¬ g.rCell p < 0 := by
    unfold Grid.rCell; rw [not_lt]; exact div_nonneg (by linarith) hd.le
  have hrc2 : ¬ g.rCell p > (g.nr : K) - 1 := by
    unfold Grid.rCell; rw [gt_iff_lt, not_lt, div_le_iff₀ hd]; linarith
  have hur : uR g p = g.rCell p - ⌈g.rCell p⌉ + 1 := by
    unfold uR; rw [if_neg hrc1, if_neg hrc2]
  have huz : uZ g p = g.zCell p - ⌈g.zCell p⌉ + 1 := by
    unfold uZ; rw [if_neg (not_lt.mpr hz1), if_neg (show ¬ g.rCell p > _ from not_lt.mpr hz)]
  have hmin : min (⌈g.rCell p⌉ + 1) ((g.nr : ℤ) + 2) = ⌈g.rCell p⌉ + 1 := min_eq_left (by omega)
  have ez : g.zCell p * g.dz = p.z - g.zMin := div_mul_cancel₀ _ hdz.ne'
  have er : g.rCell p * g.dr = p.r - g.rMin := div_mul_cancel₀ _ hd.ne'
  constructor
  · rw [weighted_deposit _ _ _ _ _ _ hb]
    simp only [weighted_zero, List.map_cons, List.map_nil, List.sum_cons, List.sum_nil, writes,
      writesLinear, hp, if_true, Bool.false_eq_true, if_false, hur, huz, hmin, Grid.zNode]
    push_cast
    linear_combination p.w * ez
  · rw [weighted_deposit _ _ _ _ _ _ hb]
    simp only [weighted_zero, List.map_cons, List.map_nil, List.sum_cons, List.sum_nil, writes,
      writesLinear, hp, if_true, Bool.false_eq_true, if_false, hur, huz, hmin, Grid.rNode]
    push_cast
    linear_combination p.w * er

/-- **C17**, cubic shape: the same for particles at least one cell away from the
first and last cell centres. -/
theorem cubic_centroid (g : Grid K) (hg : g.Regular) (p : Part K) (hp : g.Inside p)
    (hr1 : g.rMin + g.dr < p.r) (hr2 : p.r ≤ g.rMin + ((g.nr : K) - 2) * g.dr)
    (hz1 : g.zMin + g.dz < p.z) (hz2 : p.z ≤ g.zMin + ((g.nz : K) - 2) * g.dz) :
    weighted g (fun i _ => g.zNode i) (depositShape .cubic false g [p] (fun _ _ => 0))
      = p.w * p.z ∧
    weighted g (fun _ j => g.rNode j) (depositShape .cubic false g [p] (fun _ _ => 0))
      = p.w * p.r := by
  have hd := hg.dr
  have hdz := hg.dz
  have hr0 : 0 ≤ p.r := by have := hg.rMin; linarith
  have hb : ∀ q ∈ [p], InBounds g (writes .cubic false g q) := by
    intro q hq; simp at hq; subst hq; exact inBounds hg _ _ hr0
  obtain ⟨hc1, hc2⟩ := ceil_rCell hg hp hr0
  have ha : 1 < g.rCell p := by unfold Grid.rCell; rw [lt_div_iff₀ hd]; linarith
  have hb' : g.rCell p ≤ (g.nr : K) - 2 := by unfold Grid.rCell; rw [div_le_iff₀ hd]; linarith
  have hc : 1 < g.zCell p := by unfold Grid.zCell; rw [lt_div_iff₀ hdz]; linarith
  have hd' : g.zCell p ≤ (g.nz : K) - 2 := by unfold Grid.zCell; rw [div_le_iff₀ hdz]; linarith
  have hfr : ∀ s, foldShape (g.rCell p) g.nr s = s := by
    intro s; unfold foldShape
    rw [if_neg (by linarith), if_neg (by linarith), if_neg (by linarith), if_neg (by linarith)]
  have hfz : ∀ s, foldShape (g.zCell p) g.nz s = s := by
    intro s; unfold foldShape
    rw [if_neg (by linarith), if_neg (by linarith), if_neg (by linarith), if_neg (by linarith)]
  have hmin : min ⌈g.rCell p⌉ ((g.nr : ℤ) + 2) = ⌈g.rCell p⌉ := min_eq_left (by omega)
  have ez : g.zCell p * g.dz = p.z - g.zMin := div_mul_cancel₀ _ hdz.ne'
  have er : g.rCell p * g.dr = p.r - g.rMin := div_mul_cancel₀ _ hd.ne'
  constructor
  · rw [weighted_deposit _ _ _ _ _ _ hb]
    simp only [weighted_zero, List.map_cons, List.map_nil, List.sum_cons, List.sum_nil, writes,
      writesCubic, hp, if_true, Bool.false_eq_true, if_false, hfr, hfz, hmin, Grid.zNode,
      cubicShape]
    push_cast
    linear_combination p.w * ez
  · rw [weighted_deposit _ _ _ _ _ _ hb]
    simp only [weighted_zero, List.map_cons, List.map_nil, List.sum_cons, List.sum_nil, writes,
      writesCubic, hp, if_true, Bool.false_eq_true, if_false, hfr, hfz, hmin, Grid.rNode,
      cubicShape]
    push_cast
    linear_combination p.w * er

private theorem cubicShape_nonneg {u : K} (h0 : 0 ≤ u) (h1 : u ≤ 1) :
    0 ≤ (cubicShape u).s0 ∧ 0 ≤ (cubicShape u).s1 ∧ 0 ≤ (cubicShape u).s2 ∧
      0 ≤ (cubicShape u).s3 := by
  have hv : 0 ≤ 1 - u := by linarith
  simp only [cubicShape]
  refine ⟨by positivity, ?_, ?_, by positivity⟩
  · have : 0 ≤ u ^ 3 := by positivity
    nlinarith [mul_nonneg h0 hv]
  · have : 0 ≤ (1 - u) ^ 3 := by positivity
    nlinarith [mul_nonneg h0 hv]

private theorem foldShape_nonneg (c : K) (n : ℕ) (s : S4 K)
    (h : 0 ≤ s.s0 ∧ 0 ≤ s.s1 ∧ 0 ≤ s.s2 ∧ 0 ≤ s.s3) :
    0 ≤ (foldShape c n s).s0 ∧ 0 ≤ (foldShape c n s).s1 ∧ 0 ≤ (foldShape c n s).s2 ∧
      0 ≤ (foldShape c n s).s3 := by
  obtain ⟨h0, h1, h2, h3⟩ := h
  unfold foldShape
  split_ifs <;> refine ⟨?_, ?_, ?_, ?_⟩ <;> (try simp only) <;>
    first
    | exact le_refl _ | assumption | exact add_nonneg (by assumption) (by assumption)

theorem ceil_frac (x : K) : 0 ≤ x - ⌈x⌉ + 1 ∧ x - ⌈x⌉ + 1 ≤ 1 := by
  constructor
  · linarith [Int.ceil_lt_add_one x]
  · linarith [Int.le_ceil x]

/-- **C17**: without correction, all writes are non-negative multiples of the
particle weight. -/
theorem writes_nonneg (g : Grid K) (sh : Shape) (p : Part K) :
    ∀ wr ∈ writes sh false g p, ∃ q : K, 0 ≤ q ∧ wr.v = q * p.w := by
  intro wr hwr
  cases sh
  · simp only [writes, writesLinear] at hwr
    split at hwr
    · rename_i hp
      have hur : 0 ≤ uR g p ∧ uR g p ≤ 1 := by
        unfold uR; split_ifs
        · norm_num
        · norm_num
        · exact ceil_frac _
      have huz : 0 ≤ uZ g p ∧ uZ g p ≤ 1 := by
        unfold uZ; split_ifs
        · norm_num
        · norm_num
        · exact ceil_frac _
      have h1 : 0 ≤ 1 - uR g p := by linarith
      have h2 : 0 ≤ 1 - uZ g p := by linarith
      simp only [Bool.false_eq_true, if_false, zero_mul, add_zero, sub_zero, List.mem_cons,
        List.not_mem_nil, or_false] at hwr
      rcases hwr with rfl | rfl | rfl | rfl
      · exact ⟨_, mul_nonneg h2 h1, rfl⟩
      · exact ⟨_, mul_nonneg h2 hur.1, rfl⟩
      · exact ⟨_, mul_nonneg huz.1 h1, rfl⟩
      · exact ⟨_, mul_nonneg huz.1 hur.1, rfl⟩
    · simp at hwr
  · simp only [writes, writesCubic] at hwr
    split at hwr
    · have hz := foldShape_nonneg (g.zCell p) g.nz _
        (cubicShape_nonneg (ceil_frac (g.zCell p)).1 (ceil_frac (g.zCell p)).2)
      have hr := foldShape_nonneg (g.rCell p) g.nr _
        (cubicShape_nonneg (ceil_frac (g.rCell p)).1 (ceil_frac (g.rCell p)).2)
      obtain ⟨hz0, hz1, hz2, hz3⟩ := hz
      obtain ⟨hr0, hr1, hr2, hr3⟩ := hr
      simp only [Bool.false_eq_true, if_false, zero_mul, add_zero, sub_zero, List.mem_cons,
        List.not_mem_nil, or_false] at hwr
      rcases hwr with rfl | rfl | rfl | rfl | rfl | rfl | rfl | rfl | rfl | rfl | rfl | rfl |
        rfl | rfl | rfl | rfl <;>
      exact ⟨_, mul_nonneg (by assumption) (by assumption), rfl⟩
    · simp at hwr

example : let p : Part ℚ := ⟨-3 / 10, 3 / 5, 2⟩
    demoGrid.Inside p ∧ demoGrid.rMin + demoGrid.dr < p.r ∧
    p.r ≤ demoGrid.rMin + ((demoGrid.nr : ℚ) - 2) * demoGrid.dr ∧
    demoGrid.zMin + demoGrid.dz < p.z ∧
    p.z ≤ demoGrid.zMin + ((demoGrid.nz : ℚ) - 2) * demoGrid.dz := by
  norm_num [demoGrid, Grid.Inside]

/-! ### C19 -/

/-- **C19**: the order of the particles is irrelevant. -/
theorem deposit_perm (g : Grid K) (sh : Shape) (ruyten : Bool) (ps ps' : List (Part K))
    (h : ps.Perm ps') (a : ℤ → ℤ → K) :
    depositShape sh ruyten g ps a = depositShape sh ruyten g ps' a := by
  funext i j
  rw [depositShape_apply, depositShape_apply, (h.map _).sum_eq]

/-- **C19**: a bunch can be deposited in several calls. -/
theorem deposit_split (g : Grid K) (sh : Shape) (ruyten : Bool) (ps ps' : List (Part K))
    (a : ℤ → ℤ → K) :
    depositShape sh ruyten g (ps ++ ps') a =
      depositShape sh ruyten g ps' (depositShape sh ruyten g ps a) := by
  unfold depositShape; rw [List.foldl_append]

/-- **C19**: superposition of two depositions on top of different arrays. -/
theorem deposit_superpose (g : Grid K) (sh : Shape) (ruyten : Bool) (ps ps' : List (Part K))
    (a : ℤ → ℤ → K) (i j : ℤ) :
    depositShape sh ruyten g (ps ++ ps') a i j = a i j +
      depositShape sh ruyten g ps (fun _ _ => 0) i j +
      depositShape sh ruyten g ps' (fun _ _ => 0) i j := by
  simp only [depositShape_apply, List.map_append, List.sum_append]; ring

/-- **C19**: a macroparticle can be split into two of the same position. -/
theorem deposit_weight_add (g : Grid K) (sh : Shape) (ruyten : Bool) (z r w w' : K)
    (a : ℤ → ℤ → K) :
    depositShape sh ruyten g [⟨z, r, w + w'⟩] a =
      depositShape sh ruyten g [⟨z, r, w⟩, ⟨z, r, w'⟩] a := by
  funext i j
  rw [depositShape_apply, depositShape_apply]
  congr 1
  simp only [List.map_cons, List.map_nil, List.sum_cons, List.sum_nil, add_zero]
  have hin : ∀ w w' : K, g.Inside ⟨z, r, w⟩ ↔ g.Inside ⟨z, r, w'⟩ := fun _ _ => Iff.rfl
  by_cases h : g.Inside (⟨z, r, w⟩ : Part K)
  · have h1 := (hin w (w + w')).mp h
    have h2 := (hin w w').mp h
    cases sh
    · simp only [writes, writesLinear, h, h1, h2, if_true, effect, List.map_cons, List.map_nil,
        List.sum_cons, List.sum_nil, and_ite, uR, uZ, Grid.rCell, Grid.zCell, ruytenIndex]
      ring
    · simp only [writes, writesCubic, h, h1, h2, if_true, effect, List.map_cons, List.map_nil,
        List.sum_cons, List.sum_nil, and_ite, Grid.rCell, Grid.zCell, ruytenIndex]
      generalize foldShape ((z - g.zMin) / g.dz) g.nz _ = zs
      generalize foldShape ((r - g.rMin) / g.dr) g.nr _ = rs
      ring
  · rw [effect_outside _ _ _ _ (fun h' => h ((hin _ _).mp h')), effect_outside _ _ _ _ h,
      effect_outside _ _ _ _ (fun h' => h ((hin _ _).mp h'))]
    ring

example : demoParts.Perm demoParts.reverse := (List.reverse_perm _).symm

end WakeT.Deposition
