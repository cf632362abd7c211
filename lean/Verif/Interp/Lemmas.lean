import Verif.Interp.Spec
import Verif.Base.Tactics
import Mathlib.Tactic.Module

/-! # Lemmas about interpolation -/

set_option linter.unusedSectionVars false

namespace WakeT.Interp

section regrid

variable {K : Type*} [Field K] [LinearOrder K] [IsStrictOrderedRing K] [FloorRing K]
variable {V : Type*} [AddCommGroup V] [Module K V]

/-- The interpolated value in terms of the position in cell units, for a point
inside the box. -/
theorem interpPoint_eq (fld : Arr V) {zMin rMin dz dr z r : K} (hdz : 0 < dz) (hdr : 0 < dr)
    (hr : rMin = dr / 2) (hn : 2 ≤ fld.nj) (hz1 : zMin ≤ z)
    (hz2 : z ≤ zMin + ((fld.ni : K) - 1) * dz) (hr1 : 0 ≤ r) (hr2 : r ≤ fld.nj * dr) :
    ∃ (x y : K) (i i' j : ℤ), z = zMin + x * dz ∧ r = rMin + y * dr ∧
      0 ≤ i ∧ i < fld.ni ∧ (i : K) ≤ x ∧ x < i + 1 ∧
      ((i' = i + 1 ∧ i' < fld.ni) ∨ (i' = i ∧ i + 1 = fld.ni ∧ x = i)) ∧
      0 ≤ j ∧ (y < j + 1) ∧ ((j : K) ≤ y ∨ j = 0 ∧ -(1 / 2) ≤ y) ∧
      ((j + 1 < fld.nj ∧ interpPoint fld zMin rMin dz dr z r =
        some ((j + 1 - y) • ((i + 1 - x) • fld.val i j + (x - i) • fld.val i' j) +
          (y - j) • ((i + 1 - x) • fld.val i (j + 1) + (x - i) • fld.val i' (j + 1)))) ∨
       (j + 1 = fld.nj ∧ interpPoint fld zMin rMin dz dr z r =
        some ((j + 1 - y) • ((i + 1 - x) • fld.val i j + (x - i) • fld.val i' j) +
          (y - j) • ((i + 1 - x) • (fld.val i j + (fld.val i j - fld.val i (j - 1))) +
            (x - i) • (fld.val i' j + (fld.val i' j - fld.val i' (j - 1))))))) := by
  have hx1 : 0 ≤ (z - zMin) / dz := div_nonneg (by linarith) hdz.le
  have hx2 : (z - zMin) / dz ≤ (fld.ni : K) - 1 := by rw [div_le_iff₀ hdz]; linarith
  have hy1 : -(1 / 2) ≤ (r - rMin) / dr := by rw [le_div_iff₀ hdr]; linarith
  have hy2 : (r - rMin) / dr < fld.nj := by rw [div_lt_iff₀ hdr]; linarith
  have hi0 : 0 ≤ ⌊(z - zMin) / dz⌋ := Int.floor_nonneg.mpr hx1
  have hi1 : ⌊(z - zMin) / dz⌋ < fld.ni := by
    rw [Int.floor_lt]; push_cast; linarith
  have hfl := Int.floor_le ((z - zMin) / dz)
  have hfu := Int.lt_floor_add_one ((z - zMin) / dz)
  have hgl := Int.floor_le ((r - rMin) / dr)
  have hgu := Int.lt_floor_add_one ((r - rMin) / dr)
  have hj1 : ⌊(r - rMin) / dr⌋ < fld.nj := by
    rw [Int.floor_lt]; push_cast; exact hy2
  refine ⟨(z - zMin) / dz, (r - rMin) / dr, ⌊(z - zMin) / dz⌋,
    min (⌊(z - zMin) / dz⌋ + 1) ((fld.ni : ℤ) - 1), max ⌊(r - rMin) / dr⌋ 0,
    by field_simp; ring, by field_simp; ring, hi0, hi1, hfl, hfu, ?_, le_max_right _ _, ?_, ?_, ?_⟩
  · by_cases h : ⌊(z - zMin) / dz⌋ + 1 < fld.ni
    · left; omega
    · right
      have h' : ⌊(z - zMin) / dz⌋ + 1 = fld.ni := by omega
      refine ⟨by omega, h', ?_⟩
      have : ((⌊(z - zMin) / dz⌋ : ℤ) : K) + 1 = fld.ni := by exact_mod_cast h'
      linarith
  · refine hgu.trans_le ?_
    have : (⌊(r - rMin) / dr⌋ : K) ≤ ((max ⌊(r - rMin) / dr⌋ 0 : ℤ) : K) := by
      exact_mod_cast le_max_left _ _
    linarith
  · by_cases h : 0 ≤ ⌊(r - rMin) / dr⌋
    · left; rw [max_eq_left h]; exact hgl
    · right; exact ⟨max_eq_right (by omega), hy1⟩
  · have hj0 : 0 ≤ max ⌊(r - rMin) / dr⌋ 0 := le_max_right _ _
    have hj2 : max ⌊(r - rMin) / dr⌋ 0 < fld.nj := by omega
    unfold interpPoint
    dsimp only
    generalize max ⌊(r - rMin) / dr⌋ 0 = j at *
    generalize ⌊(z - zMin) / dz⌋ = i at *
    generalize hi' : min (i + 1) ((fld.ni : ℤ) - 1) = i' at *
    have h1 : 0 ≤ i' := by omega
    have h2 : i' < fld.ni := by omega
    by_cases h : j + 1 < fld.nj
    · left
      refine ⟨h, ?_⟩
      have e : min (j + 1) ((fld.nj : ℤ) - 1) = j + 1 := by omega
      simp only [e, fld.get_some hi0 hi1 hj0 hj2, fld.get_some h1 h2 hj0 hj2,
        fld.get_some hi0 hi1 (show 0 ≤ j + 1 by omega) h,
        fld.get_some h1 h2 (show 0 ≤ j + 1 by omega) h,
        if_neg (show ¬ j = j + 1 by omega), Option.bind_eq_bind, Option.bind_some]
      push_cast
      refine congrArg some ?_
      module
    · right
      refine ⟨by omega, ?_⟩
      have e : min (j + 1) ((fld.nj : ℤ) - 1) = j := by omega
      simp only [e, fld.get_some hi0 hi1 hj0 hj2, fld.get_some h1 h2 hj0 hj2,
        fld.get_some hi0 hi1 (show 0 ≤ j - 1 by omega) (show j - 1 < fld.nj by omega),
        fld.get_some h1 h2 (show 0 ≤ j - 1 by omega) (show j - 1 < fld.nj by omega),
        if_true, Option.bind_eq_bind, Option.bind_some]
      push_cast
      refine congrArg some ?_
      module

end regrid

/-- The value of `cellInterp` inside the box, in cell units. -/
theorem cellInterp_eq {b : Box} {nz nr : ℕ} (hb : b.IsGrid nz nr) (sign : ℝ) {a : Arr ℝ}
    (ha : OnGrid a nz nr) {r z : ℝ} (hr : 0 ≤ r) (h : b.Has r z) :
    ∃ (x y : ℝ) (i j : ℤ), z = b.zMin + (x - 2) * b.dz ∧ r = b.rMin + (y - 2) * b.dr ∧
      2 ≤ i ∧ i < nz + 2 ∧ (i : ℝ) ≤ x ∧ x < i + 1 ∧ (i + 1 = nz + 2 → x = i) ∧
      ((2 ≤ j ∧ j < nr + 2 ∧ (j : ℝ) ≤ y ∧ y < j + 1 ∧ (j + 1 = nr + 2 → y = j) ∧
        cellInterp b sign a r z = some ((j + 1 - y) * ((i + 1 - x) * a.val i j + (x - i) * a.val (i + 1) j)
          + (y - j) * ((i + 1 - x) * a.val i (j + 1) + (x - i) * a.val (i + 1) (j + 1)))) ∨
       (j = 1 ∧ (3 / 2 : ℝ) ≤ y ∧ y < 2 ∧
        cellInterp b sign a r z =
          some ((2 - y) * (((i + 1 - x) * a.val i 2 + (x - i) * a.val (i + 1) 2) * sign)
          + (y - 1) * ((i + 1 - x) * a.val i 2 + (x - i) * a.val (i + 1) 2)))) := by
  obtain ⟨hz1, hz2, hr2⟩ := h
  obtain ⟨hn1, hn2⟩ := ha
  have hdz := hb.dz
  have hdr := hb.dr
  rw [hb.zMax] at hz2
  rw [hb.rMax] at hr2
  have hrm := hb.rMin
  have hx1 : 2 ≤ (z - b.zMin) / b.dz + 2 := by
    have := div_nonneg (show 0 ≤ z - b.zMin by linarith) hdz.le; linarith
  have hx2 : (z - b.zMin) / b.dz + 2 ≤ (nz : ℝ) + 1 := by
    have : (z - b.zMin) / b.dz ≤ (nz : ℝ) - 1 := by rw [div_le_iff₀ hdz]; linarith
    linarith
  have hy1 : 3 / 2 ≤ (r - b.rMin) / b.dr + 2 := by
    have : -(1 / 2) ≤ (r - b.rMin) / b.dr := by rw [le_div_iff₀ hdr]; linarith
    linarith
  have hy2 : (r - b.rMin) / b.dr + 2 ≤ (nr : ℝ) + 1 := by
    have : (r - b.rMin) / b.dr ≤ (nr : ℝ) - 1 := by rw [div_le_iff₀ hdr]; linarith
    linarith
  have hzx : z = b.zMin + ((z - b.zMin) / b.dz + 2 - 2) * b.dz := by field_simp; ring
  have hry : r = b.rMin + ((r - b.rMin) / b.dr + 2 - 2) * b.dr := by field_simp; ring
  unfold cellInterp
  dsimp only
  generalize (z - b.zMin) / b.dz + 2 = x at *
  generalize (r - b.rMin) / b.dr + 2 = y at *
  have hi1 : 2 ≤ ⌊x⌋ := Int.le_floor.mpr (by push_cast; exact hx1)
  have hi2 : ⌊x⌋ < nz + 2 := by rw [Int.floor_lt]; push_cast; linarith
  have hfl := Int.floor_le x
  have hfu := Int.lt_floor_add_one x
  have hgl := Int.floor_le y
  have hgu := Int.lt_floor_add_one y
  have hj1 : 1 ≤ ⌊y⌋ := Int.le_floor.mpr (by push_cast; linarith)
  have hj2 : ⌊y⌋ < nr + 2 := by rw [Int.floor_lt]; push_cast; linarith
  refine ⟨x, y, ⌊x⌋, ⌊y⌋, hzx, hry, hi1, hi2, hfl, hfu, ?_, ?_⟩
  · intro e
    have : ((⌊x⌋ : ℤ) : ℝ) + 1 = nz + 2 := by exact_mod_cast e
    linarith
  generalize ⌊x⌋ = i at *
  generalize ⌊y⌋ = j at *
  by_cases hj : j < 2
  · right
    have hj' : j = 1 := by omega
    subst hj'
    push_cast at hgu hgl
    refine ⟨rfl, hy1, by linarith, ?_⟩
    rw [if_pos hj]
    have hnr : (0 : ℤ) < (nr : ℤ) + 1 := by omega
    simp only [a.get_some (show 0 ≤ i by omega) (show i < a.ni by omega) (show (0:ℤ) ≤ 2 by omega)
        (show (2 : ℤ) < a.nj by omega),
      a.get_some (show 0 ≤ i + 1 by omega) (show i + 1 < a.ni by omega) (show (0:ℤ) ≤ 2 by omega)
        (show (2 : ℤ) < a.nj by omega), show (1 : ℤ) + 1 = 2 from rfl,
      Option.bind_eq_bind, Option.bind_some]
    congr 1
    push_cast
    ring
  · left
    refine ⟨by omega, hj2, hgl, hgu, ?_, ?_⟩
    · intro e
      have : (j : ℝ) + 1 = nr + 2 := by exact_mod_cast e
      linarith
    · rw [if_neg hj]
      simp only [a.get_some (show 0 ≤ i by omega) (show i < a.ni by omega) (show 0 ≤ j by omega)
          (show j < a.nj by omega),
        a.get_some (show 0 ≤ i + 1 by omega) (show i + 1 < a.ni by omega) (show 0 ≤ j by omega)
          (show j < a.nj by omega),
        a.get_some (show 0 ≤ i by omega) (show i < a.ni by omega) (show 0 ≤ j + 1 by omega)
          (show j + 1 < a.nj by omega),
        a.get_some (show 0 ≤ i + 1 by omega) (show i + 1 < a.ni by omega) (show 0 ≤ j + 1 by omega)
          (show j + 1 < a.nj by omega),
        Option.bind_eq_bind, Option.bind_some]
      congr 1
      push_cast
      ring

end WakeT.Interp
