import Verif.Interp.Lemmas
import Mathlib.Topology.Instances.Real.Lemmas
import Mathlib.Topology.Algebra.Order.Field
import Mathlib.Topology.Order.Lattice
import Mathlib.Analysis.SpecialFunctions.Sqrt

/-! # The gathered fields do not jump (C184) -/

set_option linter.unusedSectionVars false

namespace WakeT.Interp

open Filter Topology

/-- Hat of width one cell. -/
noncomputable def tent (t : ℝ) : ℝ := max 0 (1 - |t|)

theorem tent_continuous : Continuous tent := continuous_const.max (continuous_const.sub continuous_abs)

theorem tent_sum {M : ℤ} {x : ℝ} {i : ℤ} (h0 : 0 ≤ i) (h1 : i + 1 ≤ M) (hx : (i : ℝ) ≤ x) (hx' : x < i + 1) (f : ℤ → ℝ) :
    ∑ k ∈ Finset.Icc 0 M, tent (x - k) * f k = (i + 1 - x) * f i + (x - i) * f (i + 1) := by
  rw [Finset.sum_eq_add i (i + 1) (by omega)]
  · have e1 : tent (x - i) = i + 1 - x := by
      unfold tent
      rw [abs_of_nonneg (by linarith), max_eq_right (by linarith)]
      ring
    have e2 : tent (x - (i + 1 : ℤ)) = x - i := by
      unfold tent
      push_cast
      rw [abs_of_nonpos (by linarith), max_eq_right (by linarith)]
      ring
    rw [e1, e2]
  · rintro k - ⟨k1, k2⟩
    have : tent (x - k) = 0 := by
      unfold tent
      refine max_eq_left ?_
      rcases (by omega : k ≤ i - 1 ∨ i + 2 ≤ k) with h | h
      · have h : (k : ℝ) ≤ i - 1 := by exact_mod_cast h
        rw [abs_of_nonneg (by linarith)]
        linarith
      · have h : (i : ℝ) + 2 ≤ k := by exact_mod_cast h
        rw [abs_of_nonpos (by linarith)]
        linarith
    rw [this, zero_mul]
  · intro h
    exact absurd (Finset.mem_Icc.mpr ⟨by omega, by omega⟩) h
  · intro h
    exact absurd (Finset.mem_Icc.mpr ⟨by omega, by omega⟩) h

/-- Bilinear interpolation on the whole plane, with the row below the axis mirrored. -/
noncomputable def bilinear (b : Box) (nz nr : ℕ) (sign : ℝ) (a : Arr ℝ) (r z : ℝ) : ℝ :=
  ∑ j ∈ Finset.Icc 0 ((nr : ℤ) + 2), tent ((r - b.rMin) / b.dr + 2 - (j : ℤ)) *
    ∑ i ∈ Finset.Icc 0 ((nz : ℤ) + 2), tent ((z - b.zMin) / b.dz + 2 - (i : ℤ)) * (if j = 1 then sign * a.val i 2 else a.val i j)

theorem bilinear_continuous (b : Box) (nz nr : ℕ) (sign : ℝ) (a : Arr ℝ) {T : Type*} [TopologicalSpace T] {r z : T → ℝ}
    (hr : Continuous r) (hz : Continuous z) : Continuous fun t => bilinear b nz nr sign a (r t) (z t) := by
  unfold bilinear
  refine continuous_finset_sum _ fun j _ => Continuous.mul (tent_continuous.comp (by fun_prop)) ?_
  refine continuous_finset_sum _ fun i _ => Continuous.mul (tent_continuous.comp (by fun_prop)) continuous_const

theorem cellInterp_bilinear {b : Box} {nz nr : ℕ} (hb : b.IsGrid nz nr) (sign : ℝ) {a : Arr ℝ}
    (ha : OnGrid a nz nr) {r z : ℝ} (hr : 0 ≤ r) (h : b.Has r z) : cellInterp b sign a r z = some (bilinear b nz nr sign a r z) := by
  obtain ⟨x, y, i, j, hz, hr', hi1, hi2, hx1, hx2, -, hc⟩ := cellInterp_eq hb sign ha hr h
  have ex : (z - b.zMin) / b.dz + 2 = x := by
    rw [hz]
    have := hb.dz.ne'
    field_simp
    ring
  have ey : (r - b.rMin) / b.dr + 2 = y := by
    rw [hr']
    have := hb.dr.ne'
    field_simp
    ring
  unfold bilinear
  rw [ex, ey]
  simp only [tent_sum (show 0 ≤ i by omega) (show i + 1 ≤ (nz : ℤ) + 2 by omega) hx1 hx2]
  rcases hc with ⟨hj1, hj2, hy1, hy2, -, e⟩ | ⟨rfl, hy1, hy2, e⟩
  · rw [e, tent_sum (show 0 ≤ j by omega) (show j + 1 ≤ (nr : ℤ) + 2 by omega) hy1 hy2, if_neg (by omega), if_neg (by omega),
      if_neg (by omega), if_neg (by omega)]
  · rw [e, tent_sum (i := 1) (by omega) (by omega) (by push_cast; linarith) (by push_cast; linarith)]
    congr 1
    norm_num
    left
    ring

/-- An odd field vanishes on the axis. -/
theorem bilinear_axis {b : Box} {nz nr : ℕ} (hb : b.IsGrid nz nr) {a : Arr ℝ} (ha : OnGrid a nz nr) {z : ℝ} (h : b.Has 0 z) :
    bilinear b nz nr (-1) a 0 z = 0 := by
  have e := cellInterp_bilinear hb (-1) ha le_rfl h
  obtain ⟨x, y, i, j, hz, hr', hi1, hi2, hx1, hx2, -, hc⟩ := cellInterp_eq hb (-1) ha le_rfl h
  have hy : y = 3 / 2 := by
    rw [hb.rMin] at hr'
    have := hb.dr
    have : b.dr * (y - 3 / 2) = 0 := by linarith
    rcases mul_eq_zero.mp this with h | h <;> linarith
  rcases hc with ⟨hj1, hj2, hy1, hy2, -, e'⟩ | ⟨rfl, hy1, hy2, e'⟩
  · have : (2 : ℝ) ≤ j := by exact_mod_cast hj1
    linarith
  · rw [e] at e'
    rw [Option.some.inj e', hy]
    ring

/-- Radius of a point. -/
noncomputable def rad (p : ℝ × ℝ × ℝ) : ℝ := √(p.1 ^ 2 + p.2.1 ^ 2)

theorem rad_continuous : Continuous rad := by
  unfold rad
  fun_prop

theorem abs_x_le (p : ℝ × ℝ × ℝ) : |p.1| ≤ rad p := Real.abs_le_sqrt (by nlinarith [sq_nonneg p.2.1])

theorem abs_y_le (p : ℝ × ℝ × ℝ) : |p.2.1| ≤ rad p := Real.abs_le_sqrt (by nlinarith [sq_nonneg p.1])

/-- A field that vanishes on the axis, times the cosine or sine of the polar angle. -/
theorem transverse_continuousOn {S : Set (ℝ × ℝ × ℝ)} {G c : ℝ × ℝ × ℝ → ℝ} (hG : Continuous G) (hc : Continuous c)
    (h0 : ∀ p ∈ S, rad p = 0 → G p = 0) (hle : ∀ p, |c p| ≤ rad p) : ContinuousOn (fun p => G p * c p * (1 / rad p)) S := by
  intro p hp
  by_cases h : rad p = 0
  · have e : G p * c p * (1 / rad p) = 0 := by rw [h0 p hp h]; ring
    rw [ContinuousWithinAt, e]
    refine squeeze_zero_norm (a := fun q => |G q|) (fun q => ?_) ?_
    · rw [Real.norm_eq_abs, mul_assoc, abs_mul]
      refine mul_le_of_le_one_right (abs_nonneg _) ?_
      by_cases hq : rad q = 0
      · rw [hq]; simp
      · have : 0 < rad q := lt_of_le_of_ne (Real.sqrt_nonneg _) (Ne.symm hq)
        rw [abs_mul, abs_of_pos (one_div_pos.mpr this), mul_one_div, div_le_one this]
        exact hle q
    · have := (hG.abs.tendsto p).mono_left (nhdsWithin_le_nhds (s := S))
      simpa [h0 p hp h] using this
  · exact ((hG.mul hc).continuousAt.mul (continuousAt_const.div rad_continuous.continuousAt h)).continuousWithinAt

/-- **C184** The fields gathered from a grid depend continuously on the position of the particle as long as it is in
the grid: they are the restriction of fields that are continuous everywhere in the grid, also on
the axis, where the transverse components of the grid vanish. -/
theorem gathered_continuous {b : Box} {nz nr : ℕ} (hb : b.IsGrid nz nr) {er ez bt : Arr ℝ} (h1 : OnGrid er nz nr)
    (h2 : OnGrid ez nz nr) (h3 : OnGrid bt nz nr) (v : Fields.EB ℝ) :
    ∃ F : ℝ × ℝ × ℝ → Fields.EB ℝ,
      (∀ p, b.Has (rad p) p.2.2 → rad p ≠ 0 → gatherMain1 b er ez bt p.1 p.2.1 p.2.2 v = .ok (F p)) ∧
      (∀ p, rad p = 0 → (F p).ex = v.ex ∧ (F p).ey = v.ey ∧ (F p).bx = v.bx ∧ (F p).b_y = v.b_y) ∧
      ContinuousOn (fun p => (F p).ex) {p | b.Has (rad p) p.2.2} ∧ ContinuousOn (fun p => (F p).ey) {p | b.Has (rad p) p.2.2} ∧
      ContinuousOn (fun p => (F p).ez) {p | b.Has (rad p) p.2.2} ∧ ContinuousOn (fun p => (F p).bx) {p | b.Has (rad p) p.2.2} ∧
      ContinuousOn (fun p => (F p).b_y) {p | b.Has (rad p) p.2.2} ∧ ContinuousOn (fun p => (F p).bz) {p | b.Has (rad p) p.2.2} := by
  have cG : ∀ s a, Continuous fun p : ℝ × ℝ × ℝ => bilinear b nz nr s a (rad p) p.2.2 := fun s a =>
    bilinear_continuous b nz nr s a rad_continuous (by fun_prop)
  have ax : ∀ a, OnGrid a nz nr → ∀ p ∈ {p | b.Has (rad p) p.2.2}, rad p = 0 → bilinear b nz nr (-1) a (rad p) p.2.2 = 0 := by
    intro a ha p hp h0
    have hp : b.Has (rad p) p.2.2 := hp
    rw [h0] at hp ⊢
    exact bilinear_axis hb ha hp
  refine ⟨fun p =>
      { ex := v.ex + bilinear b nz nr (-1) er (rad p) p.2.2 * p.1 * (1 / rad p)
        ey := v.ey + bilinear b nz nr (-1) er (rad p) p.2.2 * p.2.1 * (1 / rad p)
        ez := v.ez + bilinear b nz nr 1 ez (rad p) p.2.2
        bx := v.bx + -bilinear b nz nr (-1) bt (rad p) p.2.2 * p.2.1 * (1 / rad p)
        b_y := v.b_y + bilinear b nz nr (-1) bt (rad p) p.2.2 * p.1 * (1 / rad p)
        bz := v.bz }, fun p hp h0 => ?_, fun p h0 => ?_, ?_, ?_, ?_, ?_, ?_, ?_⟩
  · have hr : 0 ≤ rad p := Real.sqrt_nonneg _
    unfold gatherMain1
    rw [show √(p.1 ^ 2 + p.2.1 ^ 2) = rad p from rfl]
    dsimp only
    rw [if_neg h0, if_pos hp, cellInterp_bilinear hb _ h1 hr hp, cellInterp_bilinear hb _ h3 hr hp, cellInterp_bilinear hb _ h2 hr hp]
  · simp [h0]
  · exact continuousOn_const.add (transverse_continuousOn (cG _ _) (by fun_prop) (ax er h1) abs_x_le)
  · exact continuousOn_const.add (transverse_continuousOn (cG _ _) (by fun_prop) (ax er h1) abs_y_le)
  · exact (continuous_const.add (cG _ _)).continuousOn
  · exact continuousOn_const.add (transverse_continuousOn (cG _ _).neg (by fun_prop)
      (fun p hp h0 => by show -_ = _; rw [ax bt h3 p hp h0, neg_zero]) abs_y_le)
  · exact continuousOn_const.add (transverse_continuousOn (cG _ _) (by fun_prop) (ax bt h3) abs_x_le)
  · exact continuousOn_const

/-- **C184** The scalar gathered with `gather_field_cyl_linear` is continuous in the grid, also on the axis. -/
theorem gathered_scalar_continuous {b : Box} {nz nr : ℕ} (hb : b.IsGrid nz nr) {a : Arr ℝ} (ha : OnGrid a nz nr) :
    ∃ F : ℝ × ℝ × ℝ → ℝ, (∀ p, b.Has (rad p) p.2.2 → gatherField1 b a p.1 p.2.1 p.2.2 = some (F p)) ∧ Continuous F := by
  refine ⟨fun p => bilinear b nz nr 1 a (rad p) p.2.2, fun p hp => ?_, bilinear_continuous b nz nr 1 a rad_continuous (by fun_prop)⟩
  unfold gatherField1
  rw [show √(p.1 ^ 2 + p.2.1 ^ 2) = rad p from rfl]
  dsimp only
  exact (if_pos hp).trans (cellInterp_bilinear hb _ ha (Real.sqrt_nonneg _) hp)

/-- **C184** So do the terms gathered by the plasma particles, as functions of radius and position. -/
theorem gathered_sources_continuous {b : Box} {nz nr : ℕ} (hb : b.IsGrid nz nr) {f1 f2 f3 : Arr ℝ} (h1 : OnGrid f1 nz nr)
    (h2 : OnGrid f2 nz nr) (h3 : OnGrid f3 nz nr) (old : Src) :
    ∃ F : ℝ → ℝ → Src, (∀ r z, 0 ≤ r → b.Has r z → gatherSources1 b f1 f2 f3 r z old = some (F r z)) ∧
      (Continuous fun p : ℝ × ℝ => (F p.1 p.2).a2) ∧ (Continuous fun p : ℝ × ℝ => (F p.1 p.2).nablaA2) ∧
      (Continuous fun p : ℝ × ℝ => (F p.1 p.2).bTheta0) ∧
      ∀ z, b.Has 0 z → (F 0 z).nablaA2 = 0 ∧ (F 0 z).bTheta0 = 0 := by
  refine ⟨fun r z => ⟨bilinear b nz nr 1 f1 r z, bilinear b nz nr (-1) f2 r z, bilinear b nz nr (-1) f3 r z⟩, fun r z hr h => ?_,
    bilinear_continuous _ _ _ _ _ continuous_fst continuous_snd, bilinear_continuous _ _ _ _ _ continuous_fst continuous_snd,
    bilinear_continuous _ _ _ _ _ continuous_fst continuous_snd, fun z h => ⟨bilinear_axis hb h2 h, bilinear_axis hb h3 h⟩⟩
  unfold gatherSources1
  rw [if_pos h, cellInterp_bilinear hb _ h1 hr h, cellInterp_bilinear hb _ h2 hr h, cellInterp_bilinear hb _ h3 hr h]
  rfl

/-- Non-vacuous: a grid with 2 by 3 cells, and a point on its axis. -/
example : (⟨0, 1, 1 / 2, 5 / 2, 1, 1⟩ : Box).IsGrid 2 3 ∧ (⟨0, 1, 1 / 2, 5 / 2, 1, 1⟩ : Box).Has (rad (0, 0, 1 / 2)) (1 / 2) ∧
    rad (0, 0, 1 / 2) = 0 := by
  refine ⟨⟨by norm_num, by norm_num, by norm_num, by norm_num, by norm_num⟩, ?_, by simp [rad]⟩
  unfold Box.Has
  simp [rad]
  norm_num

end WakeT.Interp
