import Verif.Interp.Lemmas
import Verif.Deposition.Props
import Mathlib.Algebra.Order.Ring.Star
import Mathlib.Analysis.SpecialFunctions.Trigonometric.Basic
import Mathlib.Data.Rat.Floor

/-!
# Properties C12, C13 and C20: interpolation between grids and to particles
-/

set_option linter.unusedSectionVars false

namespace WakeT.Interp

/-! ### C12: regridding -/

section regrid

variable {K : Type*} [Field K] [LinearOrder K] [IsStrictOrderedRing K] [FloorRing K]
variable {V : Type*} [AddCommGroup V] [Module K V]

/-- The points of the box of a grid with array shape `(ni, nj)`: between the first
and last longitudinal node, and from the axis to the outer radius `nj * dr`. -/
def InBox (fld : Arr V) (zMin dz dr z r : K) : Prop :=
  zMin ≤ z ∧ z ≤ zMin + ((fld.ni : K) - 1) * dz ∧ 0 ≤ r ∧ r ≤ fld.nj * dr

/-- **C12 (in bounds)**: regridding to points in the box never reads outside of
the array. -/
theorem regrid_in_bounds (fld : Arr V) {zMin rMin dz dr : K} (hdz : 0 < dz) (hdr : 0 < dr)
    (hr : rMin = dr / 2) (hn : 2 ≤ fld.nj) (zNew rNew : List K)
    (h : ∀ z ∈ zNew, ∀ r ∈ rNew, InBox fld zMin dz dr z r) :
    ∀ row ∈ interpolate fld zMin rMin dz dr zNew rNew, ∀ v ∈ row, v ≠ none := by
  intro row hrow v hv
  simp only [interpolate, List.mem_map] at hrow
  obtain ⟨z, hz, rfl⟩ := hrow
  rw [List.mem_map] at hv
  obtain ⟨r, hr', rfl⟩ := hv
  obtain ⟨h1, h2, h3, h4⟩ := h z hz r hr'
  obtain ⟨x, y, i, i', j, -, -, -, -, -, -, -, -, -, -, h | h⟩ :=
    interpPoint_eq fld hdz hdr hr hn h1 h2 h3 h4
  · rw [h.2]; simp
  · rw [h.2]; simp

/-- **C12 (exactness)**: a field that is bilinear in `(z, r)` is reproduced at every
new grid point of the box, including the points below the first radial node and
above the last one. -/
theorem regrid_bilinear (fld : Arr V) {zMin rMin dz dr : K} (hdz : 0 < dz) (hdr : 0 < dr)
    (hr : rMin = dr / 2) (hn : 2 ≤ fld.nj) (a b c d : V)
    (hf : ∀ i j : ℤ, 0 ≤ i → i < fld.ni → 0 ≤ j → j < fld.nj →
      fld.val i j = a + (zMin + i * dz) • b + (rMin + j * dr) • c +
        ((zMin + i * dz) * (rMin + j * dr)) • d)
    (zNew rNew : List K) (h : ∀ z ∈ zNew, ∀ r ∈ rNew, InBox fld zMin dz dr z r) :
    interpolate fld zMin rMin dz dr zNew rNew =
      zNew.map fun z => rNew.map fun r => some (a + z • b + r • c + (z * r) • d) := by
  unfold interpolate
  apply List.map_congr_left
  intro z hz
  apply List.map_congr_left
  intro r hr'
  obtain ⟨h1, h2, h3, h4⟩ := h z hz r hr'
  obtain ⟨x, y, i, i', j, ex, ey, hi0, hi1, hix, hix', hi', hj0, hj1, hj2, hval⟩ :=
    interpPoint_eq fld hdz hdr hr hn h1 h2 h3 h4
  have hi'0 : 0 ≤ i' := by omega
  have hi'1 : i' < fld.ni := by omega
  rcases hval with ⟨hj, hval⟩ | ⟨hj, hval⟩ <;> rw [hval] <;> refine congrArg some ?_
  · rw [hf i j hi0 hi1 hj0 (by omega), hf i' j hi'0 hi'1 hj0 (by omega),
      hf i (j + 1) hi0 hi1 (by omega) hj, hf i' (j + 1) hi'0 hi'1 (by omega) hj, ex, ey]
    rcases hi' with ⟨e, -⟩ | ⟨e, -, e'⟩
    · rw [e]; push_cast; module
    · rw [e, e']; push_cast; module
  · rw [hf i j hi0 hi1 hj0 (by omega), hf i' j hi'0 hi'1 hj0 (by omega),
      hf i (j - 1) hi0 hi1 (by omega) (by omega), hf i' (j - 1) hi'0 hi'1 (by omega) (by omega),
      ex, ey]
    rcases hi' with ⟨e, -⟩ | ⟨e, -, e'⟩
    · rw [e]; push_cast; module
    · rw [e, e']; push_cast; module

/-- **C12 (nodes)**: at a node of the original grid the stored value is returned. -/
theorem regrid_node (fld : Arr V) {zMin rMin dz dr : K} (hdz : 0 < dz) (hdr : 0 < dr)
    (hr : rMin = dr / 2) (hn : 2 ≤ fld.nj) (i j : ℤ) (hi : 0 ≤ i) (hi' : i < fld.ni)
    (hj : 0 ≤ j) (hj' : j < fld.nj) :
    interpPoint fld zMin rMin dz dr (zMin + i * dz) (rMin + j * dr) = some (fld.val i j) := by
  have hiK : (i : K) ≤ (fld.ni : K) - 1 := by
    have : i + 1 ≤ fld.ni := hi'
    have : (i : K) + 1 ≤ fld.ni := by exact_mod_cast this
    linarith
  have hjK : (j : K) + 1 ≤ (fld.nj : K) := by exact_mod_cast (show j + 1 ≤ fld.nj from hj')
  have hi0 : (0 : K) ≤ i := by exact_mod_cast hi
  have hj0 : (0 : K) ≤ j := by exact_mod_cast hj
  obtain ⟨x, y, i1, i', j1, ex, ey, hi0, hi1, hix, hix', hi', hj0, hj1, hj2, hval⟩ :=
    interpPoint_eq fld (z := zMin + i * dz) (r := rMin + j * dr) hdz hdr hr hn
      (by nlinarith) (by nlinarith) (by nlinarith) (by nlinarith)
  have ex' : x = i := by
    have : x * dz = i * dz := by linarith
    exact mul_right_cancel₀ hdz.ne' this
  have ey' : y = j := by
    have : y * dr = j * dr := by linarith
    exact mul_right_cancel₀ hdr.ne' this
  subst ex' ey'
  have e1 : i1 = i := by
    have h1 : i1 ≤ i := by exact_mod_cast hix
    have h2 : i < i1 + 1 := by exact_mod_cast hix'
    omega
  have e2 : j1 = j := by
    have h2 : j < j1 + 1 := by exact_mod_cast hj1
    rcases hj2 with h | ⟨h, -⟩
    · have : j1 ≤ j := by exact_mod_cast h
      omega
    · omega
  subst e1 e2
  rcases hval with ⟨-, hval⟩ | ⟨-, hval⟩ <;> rw [hval] <;> refine congrArg some ?_ <;> module

/-- **C12 (range)**: between the first and the last radial node the result never
leaves the range of the original values. -/
theorem regrid_range (fld : Arr K) {zMin rMin dz dr : K} (hdz : 0 < dz) (hdr : 0 < dr)
    (hr : rMin = dr / 2) (hn : 2 ≤ fld.nj) (lo hi : K)
    (hf : ∀ i j : ℤ, 0 ≤ i → i < fld.ni → 0 ≤ j → j < fld.nj → lo ≤ fld.val i j ∧ fld.val i j ≤ hi)
    (z r : K) (hz1 : zMin ≤ z) (hz2 : z ≤ zMin + ((fld.ni : K) - 1) * dz) (hr1 : rMin ≤ r)
    (hr2 : r ≤ rMin + ((fld.nj : K) - 1) * dr) :
    ∃ v, interpPoint fld zMin rMin dz dr z r = some v ∧ lo ≤ v ∧ v ≤ hi := by
  obtain ⟨x, y, i, i', j, ex, ey, hi0, hi1, hix, hix', hi', hj0, hj1, hj2, hval⟩ :=
    interpPoint_eq fld hdz hdr hr hn hz1 hz2 (by linarith) (by nlinarith)
  have hy0 : 0 ≤ y := by
    by_contra hcon
    push Not at hcon
    nlinarith [mul_neg_of_neg_of_pos hcon hdr]
  have hyj : (j : K) ≤ y := by
    rcases hj2 with h | ⟨h, -⟩
    · exact h
    · rw [h]; simpa using hy0
  have hyn : y ≤ (fld.nj : K) - 1 := by
    have : y * dr ≤ ((fld.nj : K) - 1) * dr := by linarith
    exact le_of_mul_le_mul_right this hdr
  have hconv : ∀ (s p q : K), 0 ≤ s → s ≤ 1 → lo ≤ p → p ≤ hi → lo ≤ q → q ≤ hi →
      lo ≤ (1 - s) * p + s * q ∧ (1 - s) * p + s * q ≤ hi := by
    intro s p q h0 h1 a1 a2 b1 b2
    have h1' : 0 ≤ 1 - s := by linarith
    constructor
    · nlinarith [mul_le_mul_of_nonneg_left a1 h1', mul_le_mul_of_nonneg_left b1 h0]
    · nlinarith [mul_le_mul_of_nonneg_left a2 h1', mul_le_mul_of_nonneg_left b2 h0]
  have hz := fun (m : ℤ) (hm0 : 0 ≤ m) (hm1 : m < fld.nj) =>
    hconv (x - i) (fld.val i m) (fld.val i' m) (by linarith) (by linarith)
      (hf i m hi0 hi1 hm0 hm1).1 (hf i m hi0 hi1 hm0 hm1).2
      (hf i' m (by omega) (by omega) hm0 hm1).1 (hf i' m (by omega) (by omega) hm0 hm1).2
  rcases hval with ⟨hj, hval⟩ | ⟨hj, hval⟩
  · have h1 := hz j hj0 (by omega)
    have h2 := hz (j + 1) (by omega) hj
    have h3 := hconv (y - j) _ _ (by linarith) (by linarith) h1.1 h1.2 h2.1 h2.2
    refine ⟨_, hval, ?_⟩
    simp only [smul_eq_mul]
    rw [show (j : K) + 1 - y = 1 - (y - j) by ring, show (i : K) + 1 - x = 1 - (x - i) by ring]
    exact h3
  · have hyj' : y = j := by
      have : (j : K) + 1 = fld.nj := by exact_mod_cast hj
      linarith
    have h1 := hz j hj0 (by omega)
    refine ⟨_, hval, ?_⟩
    simp only [smul_eq_mul]
    rw [hyj', show (j : K) + 1 - j = 1 by ring, sub_self, zero_mul, add_zero, one_mul,
      show (i : K) + 1 - x = 1 - (x - i) by ring]
    exact h1

/-- A grid and a point beyond the last radial node that meet the hypotheses. -/
example : InBox (K := ℚ) (V := ℚ) ⟨3, 2, fun i j => i + 10 * j⟩ 0 1 1 (1 / 2) (19 / 10) := by
  unfold InBox; norm_num

/-- The value there is the linear extrapolation. -/
example : interpPoint (K := ℚ) (V := ℚ) ⟨3, 2, fun i j => i + 10 * j⟩ 0 (1 / 2) 1 1 (1 / 2) (19 / 10)
    = some (29 / 2) := by decide +kernel

end regrid

/-! ### C13: gathering the wakefield -/

/-- **C13 (v)**: gathering at an off-axis particle never reads outside of the field
arrays and never fails. -/
theorem gather_in_bounds {b : Box} {nz nr : ℕ} (hb : b.IsGrid nz nr) {er ez bt : Arr ℝ}
    (h1 : OnGrid er nz nr) (h2 : OnGrid ez nz nr) (h3 : OnGrid bt nz nr) (x y z : ℝ)
    (hxy : ¬ (x = 0 ∧ y = 0)) (v : Fields.EB ℝ) :
    ∃ v', gatherMain1 b er ez bt x y z v = .ok v' := by
  have hr : √(x ^ 2 + y ^ 2) ≠ 0 := by
    intro h
    rw [Real.sqrt_eq_zero (by positivity)] at h
    exact hxy ⟨by nlinarith, by nlinarith⟩
  unfold gatherMain1
  dsimp only
  rw [if_neg hr]
  split_ifs with hin
  · have hs : ∀ (sg : ℝ) {a : Arr ℝ}, OnGrid a nz nr →
        ∃ w, cellInterp b sg a (√(x ^ 2 + y ^ 2)) z = some w := by
      intro sg a ha
      obtain ⟨_, _, _, _, -, -, -, -, -, -, -, h | h⟩ :=
        cellInterp_eq hb sg ha (Real.sqrt_nonneg _) hin
      · exact ⟨_, h.2.2.2.2.2⟩
      · exact ⟨_, h.2.2.2⟩
    obtain ⟨w1, e1⟩ := hs (-1) h1
    obtain ⟨w2, e2⟩ := hs (-1) h3
    obtain ⟨w3, e3⟩ := hs 1 h2
    rw [e1, e2, e3]
    exact ⟨_, rfl⟩
  · exact ⟨_, rfl⟩

/-- On the axis the code divides by zero, wherever the particle is in `z`. -/
theorem gather_on_axis_fails (b : Box) (er ez bt : Arr ℝ) (z : ℝ) (v : Fields.EB ℝ) :
    gatherMain1 b er ez bt 0 0 z v = .error .zeroDivision := by
  unfold gatherMain1; simp

/-- **C13 (i)**: no contribution outside of the box. -/
theorem gather_outside (b : Box) (er ez bt : Arr ℝ) (x y z : ℝ) (hxy : ¬ (x = 0 ∧ y = 0))
    (v : Fields.EB ℝ) (hout : z < b.zMin ∨ b.zMax < z ∨ b.rMax < √(x ^ 2 + y ^ 2)) :
    gatherMain1 b er ez bt x y z v = .ok v ∧ gatherField1 b er x y z = some 0 := by
  have hr : √(x ^ 2 + y ^ 2) ≠ 0 := by
    intro h
    rw [Real.sqrt_eq_zero (by positivity)] at h
    exact hxy ⟨by nlinarith, by nlinarith⟩
  have hin : ¬ b.Has (√(x ^ 2 + y ^ 2)) z := by
    rintro ⟨h1, h2, h3⟩
    rcases hout with h | h | h <;> linarith
  constructor
  · unfold gatherMain1; dsimp only; rw [if_neg hr, if_neg hin]
  · unfold gatherField1; dsimp only; rw [if_neg hin]

/-- Interpolation of a field proportional to `r` (odd across the axis). -/
theorem cellInterp_odd {b : Box} {nz nr : ℕ} (hb : b.IsGrid nz nr) {a : Arr ℝ}
    (ha : OnGrid a nz nr) (c d : ℝ) (hf : Holds b nz nr a fun z r => (c + d * z) * r) {r z : ℝ}
    (hr : 0 ≤ r) (h : b.Has r z) : cellInterp b (-1) a r z = some ((c + d * z) * r) := by
  obtain ⟨x, y, i, j, ex, ey, hi1, hi2, hx1, hx2, hxe, hc⟩ := cellInterp_eq hb (-1) ha hr h
  have hnr : (1 : ℤ) ≤ nr := by
    rcases hc with h | ⟨-, hy1, hy2, -⟩
    · omega
    · by_contra hcon
      have h0 : nr = 0 := by omega
      have := h.2.2
      rw [hb.rMax, h0] at this
      have := hb.dr
      push_cast at *
      nlinarith
  have hz : ∀ m : ℤ, 2 ≤ m → m < nr + 2 →
      (i + 1 - x) * a.val i m + (x - i) * a.val (i + 1) m = (c + d * z) * b.rNode m := by
    intro m hm1 hm2
    rw [hf i m hi1 hi2 hm1 hm2]
    by_cases he : i + 1 = nz + 2
    · rw [hxe he]
      have : z = b.zNode i := by rw [ex, hxe he]; rfl
      rw [this]; ring
    · rw [hf (i + 1) m (by omega) (by omega) hm1 hm2, ex]
      unfold Box.zNode; push_cast; ring
  rcases hc with ⟨hj1, hj2, hy1, hy2, hye, hval⟩ | ⟨hj, hy1, hy2, hval⟩ <;> rw [hval] <;>
    refine congrArg some ?_
  · rw [hz j hj1 hj2]
    by_cases he : j + 1 = nr + 2
    · rw [hye he]
      have : r = b.rNode j := by rw [ey, hye he]; rfl
      rw [this]; ring
    · rw [hz (j + 1) (by omega) (by omega), ey]
      unfold Box.rNode; push_cast; ring
  · rw [hz 2 le_rfl (by omega), ey]
    unfold Box.rNode; rw [hb.rMin]; push_cast; ring

/-- Interpolation of a field independent of `r` (even across the axis). -/
theorem cellInterp_even {b : Box} {nz nr : ℕ} (hb : b.IsGrid nz nr) {a : Arr ℝ}
    (ha : OnGrid a nz nr) (c d : ℝ) (hf : Holds b nz nr a fun z _ => c + d * z) {r z : ℝ}
    (hr : 0 ≤ r) (h : b.Has r z) : cellInterp b 1 a r z = some (c + d * z) := by
  obtain ⟨x, y, i, j, ex, ey, hi1, hi2, hx1, hx2, hxe, hc⟩ := cellInterp_eq hb 1 ha hr h
  have hnr : (1 : ℤ) ≤ nr := by
    rcases hc with h | ⟨-, hy1, hy2, -⟩
    · omega
    · by_contra hcon
      have h0 : nr = 0 := by omega
      have := h.2.2
      rw [hb.rMax, h0] at this
      have := hb.dr
      push_cast at *
      nlinarith
  have hz : ∀ m : ℤ, 2 ≤ m → m < nr + 2 →
      (i + 1 - x) * a.val i m + (x - i) * a.val (i + 1) m = c + d * z := by
    intro m hm1 hm2
    rw [hf i m hi1 hi2 hm1 hm2]
    by_cases he : i + 1 = nz + 2
    · rw [hxe he]
      have : z = b.zNode i := by rw [ex, hxe he]; rfl
      rw [this]; ring
    · rw [hf (i + 1) m (by omega) (by omega) hm1 hm2, ex]
      unfold Box.zNode; push_cast; ring
  rcases hc with ⟨hj1, hj2, hy1, hy2, hye, hval⟩ | ⟨hj, hy1, hy2, hval⟩ <;> rw [hval] <;>
    refine congrArg some ?_
  · rw [hz j hj1 hj2]
    by_cases he : j + 1 = nr + 2
    · rw [hye he]; ring
    · rw [hz (j + 1) (by omega) (by omega)]; ring
  · rw [hz 2 le_rfl (by omega)]; ring

/-- **C13 (ii)**: `E_r`, `B_theta` proportional to `r` and `E_z` independent of `r`
(all linear in `z`) are reproduced exactly at every off-axis particle in the box,
whatever the guard cells contain. -/
theorem gather_exact {b : Box} {nz nr : ℕ} (hb : b.IsGrid nz nr) {er ez bt : Arr ℝ}
    (h1 : OnGrid er nz nr) (h2 : OnGrid ez nz nr) (h3 : OnGrid bt nz nr)
    (c1 d1 c2 d2 c3 d3 : ℝ) (he : Holds b nz nr er fun z r => (c1 + d1 * z) * r)
    (hz : Holds b nz nr ez fun z _ => c2 + d2 * z)
    (ht : Holds b nz nr bt fun z r => (c3 + d3 * z) * r) (x y z : ℝ) (hxy : ¬ (x = 0 ∧ y = 0))
    (hin : b.zMin ≤ z ∧ z ≤ b.zMax ∧ √(x ^ 2 + y ^ 2) ≤ b.rMax) (v : Fields.EB ℝ) :
    gatherMain1 b er ez bt x y z v =
      .ok ⟨v.ex + (c1 + d1 * z) * x, v.ey + (c1 + d1 * z) * y, v.ez + (c2 + d2 * z),
        v.bx - (c3 + d3 * z) * y, v.b_y + (c3 + d3 * z) * x, v.bz⟩ := by
  have hr : √(x ^ 2 + y ^ 2) ≠ 0 := by
    intro h
    rw [Real.sqrt_eq_zero (by positivity)] at h
    exact hxy ⟨by nlinarith, by nlinarith⟩
  have hin' : b.Has (√(x ^ 2 + y ^ 2)) z := hin
  unfold gatherMain1
  dsimp only
  rw [if_neg hr, if_pos hin', cellInterp_odd hb h1 c1 d1 he (Real.sqrt_nonneg _) hin',
    cellInterp_odd hb h3 c3 d3 ht (Real.sqrt_nonneg _) hin',
    cellInterp_even hb h2 c2 d2 hz (Real.sqrt_nonneg _) hin']
  refine congrArg Except.ok ?_
  ext <;> simp only <;> field_simp <;> ring

/-- Between the axis and the first node the radial field is the first-cell value
times `r / (dr/2)`, for arbitrary arrays: it vanishes linearly on the axis. -/
theorem gather_near_axis {b : Box} {nz nr : ℕ} (hb : b.IsGrid nz nr) {a : Arr ℝ}
    (ha : OnGrid a nz nr) {r z : ℝ} (hr : 0 ≤ r) (hr2 : r < b.dr / 2) (h : b.Has r z) :
    ∃ w1 w2 : ℝ, cellInterp b (-1) a (b.dr / 2) z = some w1 ∧ cellInterp b (-1) a r z = some w2 ∧
      w2 = w1 * (r / (b.dr / 2)) := by
  have hd := hb.dr
  have hnr : (1 : ℝ) ≤ nr := by
    have := h.2.2
    rw [hb.rMax] at this
    have : ¬ nr = 0 := by
      intro h0
      rw [h0] at this
      push_cast at this
      nlinarith
    exact_mod_cast (show 1 ≤ nr by omega)
  have h' : b.Has (b.dr / 2) z := ⟨h.1, h.2.1, by rw [hb.rMax]; nlinarith⟩
  obtain ⟨x, y, i, j, ex, ey, hi1, hi2, hx1, hx2, hxe, hc⟩ := cellInterp_eq hb (-1) ha hr h
  obtain ⟨x', y', i', j', ex', ey', hi1', hi2', hx1', hx2', hxe', hc'⟩ :=
    cellInterp_eq hb (-1) ha (by linarith) h'
  have hxx : x' = x := by
    have : (x' - 2) * b.dz = (x - 2) * b.dz := by linarith
    have := mul_right_cancel₀ hb.dz.ne' this
    linarith
  subst hxx
  have hii : i' = i := by
    have h1 : (i' : ℝ) < i + 1 := lt_of_le_of_lt hx1' hx2
    have h2 : (i : ℝ) < i' + 1 := lt_of_le_of_lt hx1 hx2'
    have h1' : i' < i + 1 := by exact_mod_cast h1
    have h2' : i < i' + 1 := by exact_mod_cast h2
    omega
  subst hii
  have hy' : y' = 2 := by
    rw [hb.rMin] at ey'
    have : (y' - 2) * b.dr = 0 * b.dr := by linarith
    have := mul_right_cancel₀ hd.ne' this
    linarith
  have hy : y < 2 := by
    rw [hb.rMin] at ey
    by_contra hcon
    push Not at hcon
    nlinarith
  rcases hc' with ⟨hj1', hj2', hy1', hy2', hye', hval'⟩ | ⟨hj', hy1', hy2', hval'⟩
  swap
  · linarith
  rcases hc with ⟨hj1, hj2, hy1, hy2, hye, hval⟩ | ⟨hj, hy1, hy2, hval⟩
  · have : (2 : ℝ) ≤ j := by exact_mod_cast hj1
    linarith
  have hjj : j' = 2 := by
    rw [hy'] at hy1' hy2'
    have h1 : j' ≤ 2 := by exact_mod_cast hy1'
    omega
  refine ⟨_, _, hval', hval, ?_⟩
  subst hjj
  rw [hy', ey, hb.rMin]
  push_cast
  field_simp
  ring

/-- Rotation of the transverse plane by the angle with cosine `c` and sine `s`. -/
def rotEB (c s : ℝ) (v : Fields.EB ℝ) : Fields.EB ℝ :=
  ⟨c * v.ex - s * v.ey, s * v.ex + c * v.ey, v.ez, c * v.bx - s * v.b_y, s * v.bx + c * v.b_y, v.bz⟩

/-- **C13 (iii)**: gathering commutes with rotations about the axis. -/
theorem gather_rotation (b : Box) (er ez bt : Arr ℝ) (x y z θ : ℝ) (v : Fields.EB ℝ) :
    gatherMain1 b er ez bt (Real.cos θ * x - Real.sin θ * y) (Real.sin θ * x + Real.cos θ * y) z
        (rotEB (Real.cos θ) (Real.sin θ) v) =
      (gatherMain1 b er ez bt x y z v).map (rotEB (Real.cos θ) (Real.sin θ)) := by
  have hr : (Real.cos θ * x - Real.sin θ * y) ^ 2 + (Real.sin θ * x + Real.cos θ * y) ^ 2 =
      x ^ 2 + y ^ 2 := by
    linear_combination (x ^ 2 + y ^ 2) * Real.cos_sq_add_sin_sq θ
  unfold gatherMain1
  dsimp only
  rw [hr]
  split_ifs
  · rfl
  · split
    · refine congrArg Except.ok ?_
      ext <;> simp only [rotEB] <;> ring
    · rfl
  · rfl

/-- **C13 (iv)**: gathering adds a contribution that does not depend on what is in
the arrays, and leaves `B_z` alone. -/
theorem gather_accumulates (b : Box) (er ez bt : Arr ℝ) (x y z : ℝ) (v : Fields.EB ℝ) :
    gatherMain1 b er ez bt x y z v =
      (gatherMain1 b er ez bt x y z ⟨0, 0, 0, 0, 0, 0⟩).map fun w =>
        ⟨v.ex + w.ex, v.ey + w.ey, v.ez + w.ez, v.bx + w.bx, v.b_y + w.b_y, v.bz⟩ := by
  unfold gatherMain1
  dsimp only
  split_ifs
  · rfl
  · split
    · refine congrArg Except.ok ?_
      ext <;> simp only <;> ring
    · rfl
  · refine congrArg Except.ok ?_
    ext <;> simp

/-- Interpolation at a node returns the stored value, for arbitrary arrays. -/
theorem cellInterp_node {b : Box} {nz nr : ℕ} (hb : b.IsGrid nz nr) (sign : ℝ) {a : Arr ℝ}
    (ha : OnGrid a nz nr) (k m : ℤ) (hk1 : 2 ≤ k) (hk2 : k < nz + 2) (hm1 : 2 ≤ m)
    (hm2 : m < nr + 2) : b.Has (b.rNode m) (b.zNode k) ∧ 0 ≤ b.rNode m ∧
      cellInterp b sign a (b.rNode m) (b.zNode k) = some (a.val k m) := by
  have hdz := hb.dz
  have hdr := hb.dr
  have hk1' : (2 : ℝ) ≤ k := by exact_mod_cast hk1
  have hm1' : (2 : ℝ) ≤ m := by exact_mod_cast hm1
  have hk2' : (k : ℝ) ≤ nz + 1 := by exact_mod_cast (show k ≤ nz + 1 by omega)
  have hm2' : (m : ℝ) ≤ nr + 1 := by exact_mod_cast (show m ≤ nr + 1 by omega)
  have hr0 : 0 ≤ b.rNode m := by
    unfold Box.rNode; rw [hb.rMin]; nlinarith
  have hin : b.Has (b.rNode m) (b.zNode k) := by
    refine ⟨?_, ?_, ?_⟩
    · unfold Box.zNode; nlinarith
    · unfold Box.zNode; rw [hb.zMax]; nlinarith
    · unfold Box.rNode; rw [hb.rMax, hb.rMin]; nlinarith
  refine ⟨hin, hr0, ?_⟩
  obtain ⟨x, y, i, j, ex, ey, hi1, hi2, hx1, hx2, hxe, hc⟩ := cellInterp_eq hb sign ha hr0 hin
  have hx : x = k := by
    unfold Box.zNode at ex
    have : (x - 2) * b.dz = ((k : ℝ) - 2) * b.dz := by linarith
    have := mul_right_cancel₀ hdz.ne' this
    linarith
  have hy : y = m := by
    unfold Box.rNode at ey
    have : (y - 2) * b.dr = ((m : ℝ) - 2) * b.dr := by linarith
    have := mul_right_cancel₀ hdr.ne' this
    linarith
  have hik : i = k := by
    rw [hx] at hx1 hx2
    have h1 : i ≤ k := by exact_mod_cast hx1
    have h2 : k < i + 1 := by exact_mod_cast hx2
    omega
  rcases hc with ⟨hj1, hj2, hy1, hy2, hye, hval⟩ | ⟨hj, hy1, hy2, hval⟩
  · have hjm : j = m := by
      rw [hy] at hy1 hy2
      have h1 : j ≤ m := by exact_mod_cast hy1
      have h2 : m < j + 1 := by exact_mod_cast hy2
      omega
    rw [hval, hx, hy, hik, hjm]
    refine congrArg some ?_
    ring
  · rw [hy] at hy2
    linarith

/-- **C13 (nodes)**: a particle at the radius and position of a node of the grid
feels the values stored there, whatever the arrays contain: `E_r` along the
direction from the axis, `B_theta` perpendicular to it. -/
theorem gather_node {b : Box} {nz nr : ℕ} (hb : b.IsGrid nz nr) {er ez bt : Arr ℝ}
    (h1 : OnGrid er nz nr) (h2 : OnGrid ez nz nr) (h3 : OnGrid bt nz nr) (k m : ℤ) (hk1 : 2 ≤ k)
    (hk2 : k < nz + 2) (hm1 : 2 ≤ m) (hm2 : m < nr + 2) (θ : ℝ) (v : Fields.EB ℝ) :
    gatherMain1 b er ez bt (b.rNode m * Real.cos θ) (b.rNode m * Real.sin θ) (b.zNode k) v =
      .ok ⟨v.ex + er.val k m * Real.cos θ, v.ey + er.val k m * Real.sin θ, v.ez + ez.val k m,
        v.bx - bt.val k m * Real.sin θ, v.b_y + bt.val k m * Real.cos θ, v.bz⟩ := by
  obtain ⟨hin, hr0, e1⟩ := cellInterp_node hb (-1) h1 k m hk1 hk2 hm1 hm2
  obtain ⟨-, -, e2⟩ := cellInterp_node hb 1 h2 k m hk1 hk2 hm1 hm2
  obtain ⟨-, -, e3⟩ := cellInterp_node hb (-1) h3 k m hk1 hk2 hm1 hm2
  have hpos : 0 < b.rNode m := by
    have := hb.dr
    have hm1' : (2 : ℝ) ≤ m := by exact_mod_cast hm1
    unfold Box.rNode; rw [hb.rMin]; nlinarith
  have hr : √((b.rNode m * Real.cos θ) ^ 2 + (b.rNode m * Real.sin θ) ^ 2) = b.rNode m := by
    rw [show (b.rNode m * Real.cos θ) ^ 2 + (b.rNode m * Real.sin θ) ^ 2 = b.rNode m ^ 2 by
      linear_combination b.rNode m ^ 2 * Real.cos_sq_add_sin_sq θ, Real.sqrt_sq hr0]
  have hin' : b.Has (b.rNode m) (b.zNode k) := hin
  unfold gatherMain1
  dsimp only
  rw [hr, if_neg hpos.ne', if_pos hin', e1, e2, e3]
  refine congrArg Except.ok ?_
  ext <;> simp only <;> field_simp <;> ring

/-! ### C102: laser and beam sources at the plasma particles -/

/-- **C102 (exactness)**: `|a|^2` independent of `r`, and its radial gradient and
the azimuthal field of the beam proportional to `r` (all linear in `z`), are
reproduced exactly at every plasma particle in the box, on axis too and whatever
the guard cells and the old values are. -/
theorem sources_exact {b : Box} {nz nr : ℕ} (hb : b.IsGrid nz nr) {a2 na2 bt0 : Arr ℝ}
    (h1 : OnGrid a2 nz nr) (h2 : OnGrid na2 nz nr) (h3 : OnGrid bt0 nz nr)
    (c1 d1 c2 d2 c3 d3 : ℝ) (ha : Holds b nz nr a2 fun z _ => c1 + d1 * z)
    (hg : Holds b nz nr na2 fun z r => (c2 + d2 * z) * r)
    (ht : Holds b nz nr bt0 fun z r => (c3 + d3 * z) * r) (r z : ℝ) (hr : 0 ≤ r)
    (hin : b.zMin ≤ z ∧ z ≤ b.zMax ∧ r ≤ b.rMax) (old : Src) :
    gatherSources1 b a2 na2 bt0 r z old =
      some ⟨c1 + d1 * z, (c2 + d2 * z) * r, (c3 + d3 * z) * r⟩ := by
  have hin' : b.Has r z := hin
  unfold gatherSources1
  rw [if_pos hin', cellInterp_even hb h1 c1 d1 ha hr hin', cellInterp_odd hb h2 c2 d2 hg hr hin',
    cellInterp_odd hb h3 c3 d3 ht hr hin']
  rfl

/-- **C102 (nodes)**: at a node of the grid the stored values are returned,
whatever the arrays contain. -/
theorem sources_node {b : Box} {nz nr : ℕ} (hb : b.IsGrid nz nr) {a2 na2 bt0 : Arr ℝ}
    (h1 : OnGrid a2 nz nr) (h2 : OnGrid na2 nz nr) (h3 : OnGrid bt0 nz nr) (k m : ℤ)
    (hk1 : 2 ≤ k) (hk2 : k < nz + 2) (hm1 : 2 ≤ m) (hm2 : m < nr + 2) (old : Src) :
    gatherSources1 b a2 na2 bt0 (b.rNode m) (b.zNode k) old =
      some ⟨a2.val k m, na2.val k m, bt0.val k m⟩ := by
  obtain ⟨hin, -, e1⟩ := cellInterp_node hb 1 h1 k m hk1 hk2 hm1 hm2
  obtain ⟨-, -, e2⟩ := cellInterp_node hb (-1) h2 k m hk1 hk2 hm1 hm2
  obtain ⟨-, -, e3⟩ := cellInterp_node hb (-1) h3 k m hk1 hk2 hm1 hm2
  unfold gatherSources1
  rw [if_pos hin, e1, e2, e3]
  rfl

/-- **C102 (axis)**: on the axis the gradient of `|a|^2` and the field of the beam
vanish, and `|a|^2` is that of the first node, for arbitrary arrays. -/
theorem sources_axis {b : Box} {nz nr : ℕ} (hb : b.IsGrid nz nr) {a2 na2 bt0 : Arr ℝ}
    (h1 : OnGrid a2 nz nr) (h2 : OnGrid na2 nz nr) (h3 : OnGrid bt0 nz nr) (k : ℤ)
    (hk1 : 2 ≤ k) (hk2 : k < nz + 2) (hnr : 1 ≤ nr) (old : Src) :
    gatherSources1 b a2 na2 bt0 0 (b.zNode k) old = some ⟨a2.val k 2, 0, 0⟩ := by
  obtain ⟨hin, -, -⟩ := cellInterp_node hb 1 h1 k 2 hk1 hk2 le_rfl (by omega)
  have hd := hb.dr
  have hin' : b.Has 0 (b.zNode k) := by
    refine ⟨hin.1, hin.2.1, ?_⟩
    rw [hb.rMax]
    have : (1 : ℝ) ≤ nr := by exact_mod_cast hnr
    nlinarith
  have key : ∀ (sign : ℝ) {a : Arr ℝ}, OnGrid a nz nr →
      cellInterp b sign a 0 (b.zNode k) = some ((sign + 1) / 2 * a.val k 2) := by
    intro sign a ha
    obtain ⟨x, y, i, j, ex, ey, hi1, hi2, hx1, hx2, hxe, hc⟩ := cellInterp_eq hb sign ha le_rfl hin'
    have hx : x = k := by
      unfold Box.zNode at ex
      have : (x - 2) * b.dz = ((k : ℝ) - 2) * b.dz := by linarith
      have := mul_right_cancel₀ hb.dz.ne' this
      linarith
    have hy : y = 3 / 2 := by
      rw [hb.rMin] at ey
      have : (y - 2) * b.dr = (-1 / 2) * b.dr := by linarith
      have := mul_right_cancel₀ hd.ne' this
      linarith
    have hik : i = k := by
      rw [hx] at hx1 hx2
      have h1 : i ≤ k := by exact_mod_cast hx1
      have h2 : k < i + 1 := by exact_mod_cast hx2
      omega
    rcases hc with ⟨hj1, hj2, hy1, hy2, hye, hval⟩ | ⟨hj, hy1, hy2, hval⟩
    · have : (2 : ℝ) ≤ j := by exact_mod_cast hj1
      linarith
    · rw [hval, hx, hy, hik]
      refine congrArg some ?_
      ring
  unfold gatherSources1
  rw [if_pos hin', key 1 h1, key (-1) h2, key (-1) h3]
  simp

/-- Two longitudinal and three radial cells. -/
noncomputable def demoBox : Box := ⟨0, 1, 1 / 2, 5 / 2, 1, 1⟩

/-- A radial field proportional to `r`, with arbitrary guard cells. -/
noncomputable def demoEr : Arr ℝ := ⟨6, 7, fun i j => if 2 ≤ i ∧ i < 4 ∧ 2 ≤ j ∧ j < 5
  then (j : ℝ) - 3 / 2 else 17⟩

example : demoBox.IsGrid 2 3 ∧ OnGrid demoEr 2 3 ∧
    Holds demoBox 2 3 demoEr (fun z r => (1 + 0 * z) * r) ∧
    (demoBox.zMin ≤ (1 / 3 : ℝ) ∧ (1 / 3 : ℝ) ≤ demoBox.zMax ∧ √(3 ^ 2 / 25 + 4 ^ 2 / 25) ≤ demoBox.rMax) := by
  refine ⟨⟨?_, ?_, ?_, ?_, ?_⟩, ⟨rfl, rfl⟩, ?_, ?_, ?_, ?_⟩
  · norm_num [demoBox]
  · norm_num [demoBox]
  · norm_num [demoBox]
  · norm_num [demoBox]
  · norm_num [demoBox]
  · intro i j h1 h2 h3 h4
    simp only [demoEr, demoBox, Box.rNode]
    rw [if_pos ⟨h1, by omega, h3, by omega⟩]
    ring
  · norm_num [demoBox]
  · norm_num [demoBox]
  · norm_num [demoBox, Real.sqrt_le_left]

end WakeT.Interp
