import Verif.Interp.Props

/-!
# Property C20: gathering is the transpose of depositing
-/

set_option linter.unusedSectionVars false

namespace WakeT.Interp

open Deposition

/-- A particle with transverse position and weight. -/
structure Part3 where
  x : ℝ
  y : ℝ
  z : ℝ
  w : ℝ

/-- What the deposition sees of it (deposition.py 88-94). -/
noncomputable def Part3.toPart (p : Part3) : Deposition.Part ℝ := ⟨p.z, √(p.x ^ 2 + p.y ^ 2), p.w⟩

/-- The box of a deposition grid, as passed to the gathering functions. -/
noncomputable def boxOf (g : Grid ℝ) : Box :=
  ⟨g.zMin, g.zMin + ((g.nz : ℝ) - 1) * g.dz, g.rMin, ((g.nr : ℝ) - 1 / 2) * g.dr, g.dz, g.dr⟩

theorem boxOf_isGrid {g : Grid ℝ} (hg : g.Regular) : (boxOf g).IsGrid g.nz g.nr :=
  ⟨hg.dz, hg.dr, rfl, hg.rMin, rfl⟩

/-- Interior particles: in the longitudinal range and between the first and the last
radial node. -/
def Interior (g : Grid ℝ) (p : Part3) : Prop :=
  g.zMin ≤ p.z ∧ p.z ≤ g.zMin + ((g.nz : ℝ) - 1) * g.dz ∧
    g.dr / 2 ≤ √(p.x ^ 2 + p.y ^ 2) ∧ √(p.x ^ 2 + p.y ^ 2) ≤ ((g.nr : ℝ) - 1 / 2) * g.dr

/-- The two stencils of a position `x` in cell units give the same weighted sum. -/
theorem stencil_eq (F : ℤ → ℝ) (x : ℝ) (i : ℤ) (h1 : (i : ℝ) ≤ x) (h2 : x < i + 1) :
    (1 - (x - ⌈x⌉ + 1)) * F (⌈x⌉ + 1) + (x - ⌈x⌉ + 1) * F (⌈x⌉ + 1 + 1) =
      (i + 1 - x) * F (i + 2) + (x - i) * F (i + 1 + 2) := by
  rcases h1.eq_or_lt with h | h
  · have hc : ⌈x⌉ = i := by rw [← h]; exact Int.ceil_intCast i
    rw [hc, ← h, show i + 1 + 1 = i + 2 by ring]; ring
  · have hc : ⌈x⌉ = i + 1 := by
      rw [Int.ceil_eq_iff]; push_cast; constructor <;> linarith
    rw [hc]; push_cast
    rw [show i + 1 + 1 = i + 2 by ring, show i + 2 + 1 = i + 1 + 2 by ring]
    ring

theorem deposit_one_eq_gather {g : Grid ℝ} (hg : g.Regular) {fld : Arr ℝ}
    (hf : OnGrid fld g.nz g.nr) {p : Part3} (hp : Interior g p)
    (hb : √(p.x ^ 2 + p.y ^ 2) - g.dr / 2 ≤ ((g.nz : ℝ) - 1) * g.dr) :
    ∃ v, gatherField1 (boxOf g) fld p.x p.y p.z = some v ∧
      ((writes .linear false g p.toPart).map fun wr => fld.val wr.i wr.j * wr.v).sum = p.w * v := by
  obtain ⟨hz1, hz2, hr1, hr2⟩ := hp
  have hdr := hg.dr
  have hdz := hg.dz
  have hin : (boxOf g).Has (√(p.x ^ 2 + p.y ^ 2)) p.z := ⟨hz1, hz2, hr2⟩
  have hins : g.Inside p.toPart := ⟨hz1, hz2, by
    show √(p.x ^ 2 + p.y ^ 2) ≤ _; nlinarith⟩
  obtain ⟨x, y, i, j, ex, ey, hi1, hi2, hx1, hx2, hxe, hc⟩ :=
    cellInterp_eq (boxOf_isGrid hg) 1 hf (Real.sqrt_nonneg _) hin
  have hy2 : 2 ≤ y := by
    by_contra hcon
    push Not at hcon
    have : √(p.x ^ 2 + p.y ^ 2) = g.rMin + (y - 2) * g.dr := ey
    rw [hg.rMin] at this
    nlinarith
  rcases hc with ⟨hj1, hj2, hy1, hy2', hye, hval⟩ | ⟨hj, hy1, hy2', hval⟩
  swap
  · linarith
  have hzc : g.zCell p.toPart = x - 2 := by
    show (p.z - g.zMin) / g.dz = x - 2
    rw [show p.z = g.zMin + (x - 2) * g.dz from ex]; field_simp; ring
  have hrc : g.rCell p.toPart = y - 2 := by
    show (√(p.x ^ 2 + p.y ^ 2) - g.rMin) / g.dr = y - 2
    rw [show √(p.x ^ 2 + p.y ^ 2) = g.rMin + (y - 2) * g.dr from ey]; field_simp; ring
  have hx0 : 2 ≤ x := by
    have : (2 : ℝ) ≤ i := by exact_mod_cast hi1
    linarith
  have hyn : y - 2 ≤ (g.nr : ℝ) - 1 := by
    rw [← hrc]
    show (√(p.x ^ 2 + p.y ^ 2) - g.rMin) / g.dr ≤ _
    rw [div_le_iff₀ hdr, hg.rMin]; linarith
  have hyz : y - 2 ≤ (g.nz : ℝ) - 1 := by
    rw [← hrc]
    show (√(p.x ^ 2 + p.y ^ 2) - g.rMin) / g.dr ≤ _
    rw [div_le_iff₀ hdr, hg.rMin]; linarith
  refine ⟨_, by unfold gatherField1; dsimp only; rw [if_pos hin]; exact hval, ?_⟩
  have hcy : ⌈y - 2⌉ ≤ g.nr := Int.ceil_le.mpr (by push_cast; linarith)
  simp only [writes, writesLinear, hins, if_true, uR, uZ, hzc, hrc, List.map_cons, List.map_nil,
    List.sum_cons, List.sum_nil, Bool.false_eq_true, if_false, zero_mul, add_zero, sub_zero,
    if_neg (show ¬ x - 2 < 0 by linarith), if_neg (show ¬ y - 2 < 0 by linarith),
    if_neg (show ¬ y - 2 > (g.nr : ℝ) - 1 by linarith),
    if_neg (show ¬ y - 2 > (g.nz : ℝ) - 1 by linarith),
    min_eq_left (show ⌈y - 2⌉ + 1 ≤ (g.nr : ℤ) + 2 by omega)]
  have sz := fun m => stencil_eq (fun k => fld.val k m) (x - 2) (i - 2)
    (by push_cast; linarith) (by push_cast; linarith)
  have sr := fun k => stencil_eq (fun m => fld.val k m) (y - 2) (j - 2)
    (by push_cast; linarith) (by push_cast; linarith)
  simp only [show i - 2 + 2 = i by ring, show i - 2 + 1 + 2 = i + 1 by ring,
    show j - 2 + 2 = j by ring, show j - 2 + 1 + 2 = j + 1 by ring] at sz sr
  push_cast at sz sr
  have szj := sz j
  have szj' := sz (j + 1)
  have w : p.toPart.w = p.w := rfl
  rw [w]
  linear_combination p.w * ((1 - (x - 2 - ⌈x - 2⌉ + 1)) * sr (⌈x - 2⌉ + 1) +
    (x - 2 - ⌈x - 2⌉ + 1) * sr (⌈x - 2⌉ + 1 + 1)) +
    p.w * ((j + 1 - y) * szj + (y - j) * szj')

/-- **C20**: for interior particles, the sum of weight times gathered field is the
sum over the grid of field times deposited charge.  Missing for the full claim:
particles with more radial cells below them than there are slices (see
`adjoint_fails`), which the linear deposition puts into the wrong slice. -/
theorem adjoint_partial {g : Grid ℝ} (hg : g.Regular) {fld : Arr ℝ} (hf : OnGrid fld g.nz g.nr)
    (ps : List Part3) (hp : ∀ p ∈ ps, Interior g p)
    (hb : ∀ p ∈ ps, √(p.x ^ 2 + p.y ^ 2) - g.dr / 2 ≤ ((g.nz : ℝ) - 1) * g.dr) :
    ∃ vs : List ℝ, ps.map (fun p => gatherField1 (boxOf g) fld p.x p.y p.z) = vs.map some ∧
      ((ps.zip vs).map fun pv => pv.1.w * pv.2).sum =
      weighted g fld.val (depositShape .linear false g (ps.map Part3.toPart) fun _ _ => 0) := by
  rw [weighted_deposit _ _ _ _ _ _ (by
    intro q hq
    rw [List.mem_map] at hq
    obtain ⟨p, -, rfl⟩ := hq
    exact inBounds hg _ _ (Real.sqrt_nonneg _)), weighted_zero, zero_add]
  induction ps with
  | nil => exact ⟨[], rfl, by simp⟩
  | cons p ps ih =>
    obtain ⟨vs, h1, h2⟩ := ih (fun q hq => hp q (List.mem_cons_of_mem _ hq))
      (fun q hq => hb q (List.mem_cons_of_mem _ hq))
    obtain ⟨v, h3, h4⟩ := deposit_one_eq_gather hg hf (hp p List.mem_cons_self)
      (hb p List.mem_cons_self)
    refine ⟨v :: vs, ?_, ?_⟩
    · simp [h1, h3]
    · simp only [List.zip_cons_cons, List.map_cons, List.sum_cons, h2, h4]

/-- The unrestricted form for grids with at least as many slices as radial cells. -/
theorem adjoint_long_grid {g : Grid ℝ} (hg : g.Regular) (hn : g.nr ≤ g.nz) {fld : Arr ℝ}
    (hf : OnGrid fld g.nz g.nr) (ps : List Part3) (hp : ∀ p ∈ ps, Interior g p) :
    ∃ vs : List ℝ, ps.map (fun p => gatherField1 (boxOf g) fld p.x p.y p.z) = vs.map some ∧
      ((ps.zip vs).map fun pv => pv.1.w * pv.2).sum =
      weighted g fld.val (depositShape .linear false g (ps.map Part3.toPart) fun _ _ => 0) := by
  refine adjoint_partial hg hf ps hp fun p h => ?_
  have h1 := (hp p h).2.2.2
  have : (g.nr : ℝ) ≤ g.nz := by exact_mod_cast hn
  nlinarith [hg.dr]

/-- A grid with fewer slices (2) than radial cells (4). -/
noncomputable def wideGrid : Grid ℝ :=
  { zMin := 0, rMin := 1 / 2, nz := 2, nr := 4, dz := 1, dr := 1 }

/-- A field that is the slice index. -/
noncomputable def sliceField : Arr ℝ := ⟨6, 8, fun i _ => (i : ℝ)⟩

/-- **C20 is violated** on grids with more radial cells than slices: an interior
particle for which the two sides differ (2 and 5/2). -/
theorem adjoint_fails : wideGrid.Regular ∧ OnGrid sliceField 2 4 ∧
    Interior wideGrid ⟨5 / 2, 0, 1 / 2, 1⟩ ∧
    gatherField1 (boxOf wideGrid) sliceField (5 / 2) 0 (1 / 2) = some (5 / 2) ∧
    weighted wideGrid sliceField.val
      (depositShape .linear false wideGrid [(⟨5 / 2, 0, 1 / 2, 1⟩ : Part3).toPart] fun _ _ => 0) = 2 := by
  have hs : √((5 / 2 : ℝ) ^ 2 + 0 ^ 2) = 5 / 2 := by
    rw [show ((5 / 2 : ℝ) ^ 2 + 0 ^ 2) = (5 / 2) ^ 2 by ring]
    exact Real.sqrt_sq (by norm_num)
  have hreg : wideGrid.Regular := ⟨by norm_num [wideGrid], by norm_num [wideGrid], by norm_num [wideGrid]⟩
  refine ⟨hreg, ⟨rfl, rfl⟩, ⟨?_, ?_, ?_, ?_⟩, ?_, ?_⟩
  · norm_num [wideGrid]
  · norm_num [wideGrid]
  · show _ ≤ √((5 / 2 : ℝ) ^ 2 + 0 ^ 2); rw [hs]; norm_num [wideGrid]
  · show √((5 / 2 : ℝ) ^ 2 + 0 ^ 2) ≤ _; rw [hs]; norm_num [wideGrid]
  · unfold gatherField1
    dsimp only
    rw [hs, if_pos (show (boxOf wideGrid).Has (5 / 2) (1 / 2) from
      ⟨by norm_num [wideGrid, boxOf], by norm_num [wideGrid, boxOf], by norm_num [wideGrid, boxOf]⟩)]
    obtain ⟨x, y, i, j, ex, ey, hi1, hi2, hx1, hx2, hxe, hc⟩ :=
      cellInterp_eq (boxOf_isGrid hreg) 1 (a := sliceField) (r := 5 / 2) (z := 1 / 2)
      ⟨rfl, rfl⟩ (by norm_num) ⟨by norm_num [wideGrid, boxOf], by norm_num [wideGrid, boxOf],
        by norm_num [wideGrid, boxOf]⟩
    have hx : x = 5 / 2 := by simp [boxOf, wideGrid] at ex; linarith
    have hy : y = 4 := by simp [boxOf, wideGrid] at ey; linarith
    have hi : i = 2 := by
      rw [hx] at hx1 hx2
      have h1 : (i : ℝ) < 3 := by linarith
      have h1' : i < 3 := by exact_mod_cast h1
      omega
    rcases hc with h | h
    · rw [h.2.2.2.2.2, hx, hy, hi]; simp only [sliceField]; refine congrArg some ?_; push_cast; ring
    · linarith [h.2.2.1]
  · rw [weighted_deposit _ _ _ _ _ _ (by
      intro q hq
      simp only [List.mem_singleton] at hq
      subst hq
      exact inBounds hreg _ _ (Real.sqrt_nonneg _)), weighted_zero, zero_add]
    have hp : (⟨5 / 2, 0, 1 / 2, 1⟩ : Part3).toPart = ⟨1 / 2, 5 / 2, 1⟩ := by
      unfold Part3.toPart; rw [hs]
    rw [hp]
    have hin : wideGrid.Inside ⟨1 / 2, 5 / 2, 1⟩ := by
      refine ⟨?_, ?_, ?_⟩ <;> norm_num [wideGrid]
    have c1 : ⌈((1 : ℝ) / 2)⌉ = 1 := by rw [Int.ceil_eq_iff]; norm_num
    have c2 : ⌈((5 : ℝ) / 2 - 1 / 2) / 1⌉ = 2 := by rw [Int.ceil_eq_iff]; norm_num
    have hz : wideGrid.zCell ⟨1 / 2, 5 / 2, 1⟩ = 1 / 2 := by norm_num [Grid.zCell, wideGrid]
    have hr : wideGrid.rCell ⟨1 / 2, 5 / 2, 1⟩ = 2 := by norm_num [Grid.rCell, wideGrid]
    have huz : uZ wideGrid ⟨1 / 2, 5 / 2, 1⟩ = 0 := by
      unfold uZ; rw [hz, hr]; norm_num [wideGrid]
    have hur : uR wideGrid ⟨1 / 2, 5 / 2, 1⟩ = 1 := by
      unfold uR; rw [hr]; norm_num [wideGrid]
    simp only [List.map_cons, List.map_nil, List.sum_cons, List.sum_nil, writes, writesLinear, hin,
      if_true, huz, hur, hz, hr, c1, sliceField]
    norm_num

example : (⟨0, 1 / 2, 5, 4, 1, 1⟩ : Grid ℝ).nr ≤ (⟨0, 1 / 2, 5, 4, 1, 1⟩ : Grid ℝ).nz ∧
    Interior ⟨0, 1 / 2, 5, 4, 1, 1⟩ ⟨0, 2, 3 / 2, 1⟩ := by
  refine ⟨by decide, ?_, ?_, ?_, ?_⟩
  · norm_num
  · norm_num
  · simp only; rw [show ((0 : ℝ) ^ 2 + 2 ^ 2) = 2 ^ 2 by ring, Real.sqrt_sq (by norm_num)]; norm_num
  · simp only; rw [show ((0 : ℝ) ^ 2 + 2 ^ 2) = 2 ^ 2 by ring, Real.sqrt_sq (by norm_num)]; norm_num

end WakeT.Interp
