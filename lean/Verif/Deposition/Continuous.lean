import Verif.Deposition.Props
import Verif.Interp.Lemmas
import Mathlib.Topology.Order.LeftRightNhds
import Mathlib.Topology.Instances.Real.Lemmas

/-! # Deposition and gathering do not jump (C183) -/

set_option linter.unusedSectionVars false

namespace WakeT.Deposition

/-! ### Functions made of pieces between the integers -/

theorem continuousOn_pieces {S : Set ℝ} {φ : ℝ → ℝ} {P : ℤ → ℝ → ℝ} (hP : ∀ m, Continuous (P m)) (h : ∀ x ∈ S, φ x = P ⌈x⌉ x)
    (hj : ∀ m : ℤ, (m : ℝ) ∈ S → P (m + 1) m = P m m) : ContinuousOn φ S := by
  intro x hx
  set m := ⌈x⌉ with hm
  have h1 : (m : ℝ) - 1 < x := by linarith [Int.ceil_lt_add_one x]
  have h2 : x ≤ m := Int.le_ceil x
  rw [Metric.continuousWithinAt_iff]
  intro ε hε
  obtain ⟨d1, hd1, g1⟩ := Metric.continuous_iff.mp (hP m) x ε hε
  obtain ⟨d2, hd2, g2⟩ := Metric.continuous_iff.mp (hP (m + 1)) x ε hε
  have key : ∃ d > 0, ∀ y ∈ S, dist y x < d → (⌈y⌉ = m ∨ (x = m ∧ ⌈y⌉ = m + 1)) := by
    rcases h2.lt_or_eq with h2 | h2
    · refine ⟨min (m - x) (x - (m - 1)), lt_min (by linarith) (by linarith), fun y _ hy => Or.inl ?_⟩
      rw [Real.dist_eq, abs_lt] at hy
      have e1 := min_le_left ((m : ℝ) - x) (x - (m - 1))
      have e2 := min_le_right ((m : ℝ) - x) (x - (m - 1))
      rw [Int.ceil_eq_iff]
      constructor <;> linarith [hy.1, hy.2]
    · refine ⟨1, one_pos, fun y _ hy => ?_⟩
      rw [Real.dist_eq, abs_lt] at hy
      by_cases hym : y ≤ m
      · left
        rw [Int.ceil_eq_iff]
        constructor <;> linarith [hy.1, hy.2]
      · right
        refine ⟨h2, ?_⟩
        rw [Int.ceil_eq_iff]
        push_cast
        constructor <;> linarith [hy.1, hy.2]
  obtain ⟨d3, hd3, g3⟩ := key
  refine ⟨min d1 (min d2 d3), lt_min hd1 (lt_min hd2 hd3), fun {y} hy hyx => ?_⟩
  have q1 : dist y x < d1 := hyx.trans_le (min_le_left _ _)
  have q2 : dist y x < d2 := hyx.trans_le ((min_le_right _ _).trans (min_le_left _ _))
  have q3 : dist y x < d3 := hyx.trans_le ((min_le_right _ _).trans (min_le_right _ _))
  rw [h y hy, h x hx, ← hm]
  rcases g3 y hy q3 with e | ⟨e1, e2⟩
  · rw [e]
    exact g1 y q1
  · have : P m x = P (m + 1) x := by
      rw [e1]
      exact (hj m (e1 ▸ hx)).symm
    rw [e2, this]
    exact g2 y q2

/-! ### The linear shape -/

/-- Share of row or column `j` for a particle in cell `m` of `n`, with the correction `rc`. -/
noncomputable def linCol (n : ℕ) (rc : ℤ → ℝ) (j m : ℤ) (x : ℝ) : ℝ :=
  let u := if m ≤ 0 then 1 else if (n : ℤ) ≤ m then 0 else x - m + 1
  (if j = m + 1 then 1 - u + rc m * (1 - u) * u else 0) + (if j = m + 2 then u - rc m * (1 - u) * u else 0)

theorem linCol_continuousOn (n : ℕ) (rc : ℤ → ℝ) (j : ℤ) {S : Set ℝ} (hS : ∀ x ∈ S, -1 < x ∧ x < n) :
    ContinuousOn (fun x => linCol n rc j ⌈x⌉ x) S := by
  refine continuousOn_pieces (P := fun m x => linCol n rc j m x) (fun m => ?_) (fun x _ => rfl) fun m hm => ?_
  · unfold linCol
    dsimp only
    split_ifs <;> fun_prop
  · obtain ⟨h1, h2⟩ := hS _ hm
    have h1 : -1 < m := by exact_mod_cast h1
    have h2 : m < n := by exact_mod_cast h2
    have e1 : (if m + 1 ≤ 0 then (1 : ℝ) else if (n : ℤ) ≤ m + 1 then 0 else (m : ℝ) - ((m + 1 : ℤ) : ℝ) + 1) = 0 := by
      rw [if_neg (by omega)]
      split_ifs
      · rfl
      · push_cast; ring
    have e2 : (if m ≤ 0 then (1 : ℝ) else if (n : ℤ) ≤ m then 0 else (m : ℝ) - (m : ℝ) + 1) = 1 := by
      split_ifs
      · rfl
      · omega
      · ring
    unfold linCol
    dsimp only
    rw [e1, e2]
    split_ifs <;> first | (exfalso; omega) | ring

/-- The coefficients of the correction (none without it). -/
noncomputable def coefLinear (b : Bool) (g : Grid ℝ) (m : ℤ) : ℝ := if b then ruytenLinear g (min m g.nr).toNat else 0

theorem effect_linear' {g : Grid ℝ} (hg : g.Regular) (b : Bool) {p : Part ℝ} (hp : g.Inside p) (hr : 0 ≤ p.r)
    (hbug : g.rCell p ≤ (g.nz : ℝ) - 1) (hn : 1 ≤ g.nr) (i j : ℤ) : effect (writesLinear b g p) i j =
      linCol g.nz (fun _ => 0) i ⌈g.zCell p⌉ (g.zCell p) * linCol g.nr (coefLinear b g) j ⌈g.rCell p⌉ (g.rCell p) * p.w := by
  obtain ⟨hz1, hz2⟩ := zCell_mem hg hp
  obtain ⟨hr1, hr2⟩ := rCell_mem hg hp hr
  obtain ⟨hc1, hc2⟩ := ceil_rCell hg hp hr
  obtain ⟨hd1, hd2⟩ := ceil_zCell hg hp
  have hnR : (1 : ℝ) ≤ g.nr := by exact_mod_cast hn
  have huz : uZ g p = if ⌈g.zCell p⌉ ≤ 0 then 1 else if (g.nz : ℤ) ≤ ⌈g.zCell p⌉ then 0 else g.zCell p - ⌈g.zCell p⌉ + 1 := by
    unfold uZ
    rw [if_neg (not_lt.mpr hz1), if_neg (not_lt.mpr hbug), if_neg (by omega : ¬(g.nz : ℤ) ≤ ⌈g.zCell p⌉)]
    split_ifs with h
    · have h' : g.zCell p ≤ 0 := by exact_mod_cast Int.ceil_le.mp h
      have : g.zCell p = 0 := le_antisymm h' hz1
      rw [this]
      simp
    · rfl
  have hur : uR g p = if ⌈g.rCell p⌉ ≤ 0 then 1 else if (g.nr : ℤ) ≤ ⌈g.rCell p⌉ then 0 else g.rCell p - ⌈g.rCell p⌉ + 1 := by
    have q1 : ⌈g.rCell p⌉ ≤ 0 ↔ g.rCell p ≤ 0 := by rw [Int.ceil_le]; simp
    have q2 : (g.nr : ℤ) ≤ ⌈g.rCell p⌉ ↔ g.rCell p > (g.nr : ℝ) - 1 := by
      rw [show (g.nr : ℤ) ≤ ⌈g.rCell p⌉ ↔ ((g.nr : ℤ) - 1) < ⌈g.rCell p⌉ by omega, Int.lt_ceil]
      simp
    unfold uR
    simp only [q1, q2]
    rcases lt_trichotomy (g.rCell p) 0 with h | h | h
    · rw [if_pos h, if_pos h.le]
    · rw [h]
      simp only [lt_self_iff_false, if_false, le_refl, if_true, Int.ceil_zero]
      rw [if_neg (by linarith)]
      simp
    · rw [if_neg (not_lt.mpr h.le), if_neg (not_le.mpr h)]
  unfold effect writesLinear linCol
  rw [if_pos hp]
  dsimp only
  rw [← huz, ← hur, min_eq_left (by omega : ⌈g.rCell p⌉ + 1 ≤ (g.nr : ℤ) + 2)]
  have hrc : (if b = true then ruytenLinear g (ruytenIndex g p).toNat else 0) = coefLinear b g ⌈g.rCell p⌉ := rfl
  rw [hrc]
  generalize coefLinear b g ⌈g.rCell p⌉ = rc
  generalize uR g p = u
  generalize uZ g p = v
  generalize ⌈g.rCell p⌉ = m
  generalize ⌈g.zCell p⌉ = k
  simp only [List.map_cons, List.map_nil, List.sum_cons, List.sum_nil, zero_mul, add_zero, sub_zero,
    show k + 1 + 1 = k + 2 by ring, show m + 1 + 1 = m + 2 by ring]
  rcases (by omega : i = k + 1 ∨ i = k + 2 ∨ (i ≠ k + 1 ∧ i ≠ k + 2)) with rfl | rfl | ⟨e1, e2⟩ <;>
  rcases (by omega : j = m + 1 ∨ j = m + 2 ∨ (j ≠ m + 1 ∧ j ≠ m + 2)) with rfl | rfl | ⟨e3, e4⟩ <;>
  simp [*]

/-! ### The cubic shape -/

/-- Share of row or column `j` for a particle in cell `m` of `n`, with the correction `rc`. -/
noncomputable def cubCol (n : ℕ) (rc : ℤ → ℝ) (j m : ℤ) (x : ℝ) : ℝ :=
  let u := x - m + 1
  let s := cubicShape u
  let f := foldShape (m : ℝ) n { s with s1 := s.s1 + rc m * (1 - u) * u, s2 := s.s2 - rc m * (1 - u) * u }
  (if j = m then f.s0 else 0) + (if j = m + 1 then f.s1 else 0) + (if j = m + 2 then f.s2 else 0) + (if j = m + 3 then f.s3 else 0)

theorem cubCol_continuousOn (n : ℕ) (hn : 3 ≤ n) (rc : ℤ → ℝ) (j : ℤ) {S : Set ℝ} (hS : ∀ x ∈ S, -1 < x ∧ x < n) :
    ContinuousOn (fun x => cubCol n rc j ⌈x⌉ x) S := by
  refine continuousOn_pieces (P := fun m x => cubCol n rc j m x) (fun m => ?_) (fun x _ => rfl) fun m hm => ?_
  · unfold cubCol foldShape cubicShape
    dsimp only
    refine ((Continuous.add (Continuous.add (Continuous.add ?_ ?_) ?_) ?_)) <;>
    · split_ifs <;> fun_prop
  · obtain ⟨h1, h2⟩ := hS _ hm
    have h1 : -1 < m := by exact_mod_cast h1
    have h2 : m < n := by exact_mod_cast h2
    have q : ∀ (a : ℤ) (l : ℤ), ((a : ℝ) ≤ (l : ℝ) ↔ a ≤ l) := fun a l => Int.cast_le
    have f0 : ∀ a : ℤ, ((a : ℝ) ≤ 0 ↔ a ≤ 0) := fun a => by exact_mod_cast q a 0
    have f1 : ∀ a : ℤ, ((a : ℝ) ≤ 1 ↔ a ≤ 1) := fun a => by exact_mod_cast q a 1
    have f2 : ∀ a : ℤ, ((a : ℝ) > (n : ℝ) - 1 ↔ a > (n : ℤ) - 1) := fun a => by
      rw [gt_iff_lt, gt_iff_lt, ← Int.cast_lt (R := ℝ)]
      push_cast
      rfl
    have f3 : ∀ a : ℤ, ((a : ℝ) > (n : ℝ) - 2 ↔ a > (n : ℤ) - 2) := fun a => by
      rw [gt_iff_lt, gt_iff_lt, ← Int.cast_lt (R := ℝ)]
      push_cast
      rfl
    have e1 : (m : ℝ) - ((m + 1 : ℤ) : ℝ) + 1 = 0 := by push_cast; ring
    have e2 : (m : ℝ) - (m : ℝ) + 1 = 1 := by ring
    have fm0 := f0 m
    have fm1 := f1 m
    have fm2 := f2 m
    have fm3 := f3 m
    have fp0 := f0 (m + 1)
    have fp1 := f1 (m + 1)
    have fp2 := f2 (m + 1)
    have fp3 := f3 (m + 1)
    clear f0 f1 f2 f3 q
    unfold cubCol
    dsimp only
    rw [e1, e2]
    have c1 : cubicShape (1 : ℝ) = ⟨0, 1 / 6, 4 / 6, 1 / 6⟩ := by
      unfold cubicShape
      norm_num
    have c0 : cubicShape (0 : ℝ) = ⟨1 / 6, 4 / 6, 1 / 6, 0⟩ := by
      unfold cubicShape
      norm_num
    rw [c0, c1]
    simp only [mul_zero, sub_self, zero_mul, add_zero, sub_zero]
    generalize ((m + 1 : ℤ) : ℝ) = M' at *
    generalize (m : ℝ) = M at *
    have hL : foldShape M n (⟨0, 1 / 6, 4 / 6, 1 / 6⟩ : S4 ℝ) =
        ⟨0, if m ≤ 0 then 0 else 1 / 6, if m ≤ 0 then 5 / 6 else if m > (n : ℤ) - 2 ∧ 1 < m then 5 / 6 else 4 / 6,
          if m > (n : ℤ) - 2 ∧ 1 < m then 0 else 1 / 6⟩ := by
      unfold foldShape
      simp only [fm0, fm1, fm2, fm3]
      split_ifs <;> first | (exfalso; omega) | norm_num
    have hR : foldShape M' n (⟨1 / 6, 4 / 6, 1 / 6, 0⟩ : S4 ℝ) =
        ⟨if m ≤ 0 then 0 else 1 / 6, if m ≤ 0 then 5 / 6 else if m > (n : ℤ) - 2 ∧ 1 < m then 5 / 6 else 4 / 6,
          if m > (n : ℤ) - 2 ∧ 1 < m then 0 else 1 / 6, 0⟩ := by
      unfold foldShape
      simp only [fp0, fp1, fp2, fp3]
      split_ifs <;> first | (exfalso; omega) | norm_num
    rw [hL, hR]
    simp only [ite_self, zero_add, add_zero, show m + 1 + 1 = m + 2 by ring, show m + 1 + 2 = m + 3 by ring,
      show m + 1 + 3 = m + 4 by ring]

/-- The coefficients of the correction (none without it). -/
noncomputable def coefCubic (b : Bool) (g : Grid ℝ) (m : ℤ) : ℝ := if b then ruytenCubic g (min m g.nr).toNat else 0

theorem foldShape_ceil (x : ℝ) (n : ℕ) (s : S4 ℝ) : foldShape x n s = foldShape (⌈x⌉ : ℝ) n s := by
  have hx0 : x ≤ 0 ↔ (⌈x⌉ : ℝ) ≤ 0 := by
    rw [show (⌈x⌉ : ℝ) ≤ 0 ↔ ⌈x⌉ ≤ 0 by exact_mod_cast Iff.rfl, Int.ceil_le]; simp
  have hx1 : x ≤ 1 ↔ (⌈x⌉ : ℝ) ≤ 1 := by
    rw [show (⌈x⌉ : ℝ) ≤ 1 ↔ ⌈x⌉ ≤ 1 by exact_mod_cast Iff.rfl, Int.ceil_le]; simp
  have hxn : ∀ a : ℕ, x > (n : ℝ) - a ↔ (⌈x⌉ : ℝ) > (n : ℝ) - a := by
    intro a
    rw [show (⌈x⌉ : ℝ) > (n : ℝ) - a ↔ (n : ℤ) - a < ⌈x⌉ by rw [← Int.cast_lt (R := ℝ)]; push_cast; rfl, Int.lt_ceil]
    push_cast
    rfl
  have h1 := hxn 1
  have h2 := hxn 2
  push_cast at h1 h2
  unfold foldShape
  simp only [hx0, hx1, h1, h2]

theorem effect_cubic' {g : Grid ℝ} (hg : g.Regular) (b : Bool) {p : Part ℝ} (hp : g.Inside p) (hr : 0 ≤ p.r)
    (i j : ℤ) : effect (writesCubic b g p) i j =
      cubCol g.nz (fun _ => 0) i ⌈g.zCell p⌉ (g.zCell p) * cubCol g.nr (coefCubic b g) j ⌈g.rCell p⌉ (g.rCell p) * p.w := by
  obtain ⟨hc1, hc2⟩ := ceil_rCell hg hp hr
  have hrc : (if b = true then ruytenCubic g (ruytenIndex g p).toNat else 0) = coefCubic b g ⌈g.rCell p⌉ := rfl
  unfold effect writesCubic cubCol
  rw [if_pos hp]
  dsimp only
  rw [min_eq_left (by omega : ⌈g.rCell p⌉ ≤ (g.nr : ℤ) + 2), hrc, foldShape_ceil (g.rCell p), foldShape_ceil (g.zCell p)]
  simp only [zero_mul, add_zero, sub_zero]
  generalize foldShape (⌈g.rCell p⌉ : ℝ) _ _ = rs
  generalize foldShape (⌈g.zCell p⌉ : ℝ) _ _ = zs
  generalize ⌈g.rCell p⌉ = m
  generalize ⌈g.zCell p⌉ = k
  simp only [List.map_cons, List.map_nil, List.sum_cons, List.sum_nil, add_zero]
  have q : ∀ (A B : Prop) [Decidable A] [Decidable B] (a c : ℝ), (if A ∧ B then a * c * p.w else 0) =
      (if A then a else 0) * (if B then c else 0) * p.w := by
    intro A B _ _ a c
    split_ifs <;> simp_all
  simp only [q]
  ring

/-! ### The property -/

/-- Density written to `[i, j]` by particles at the positions `X` (x, y, z) with the charges `w`
(the radius is that of deposition.py 110, 205). -/
noncomputable def densityAt (sh : Shape) (b : Bool) (g : Grid ℝ) {N : ℕ} (w : Fin N → ℝ) (a : ℤ → ℤ → ℝ) (i j : ℤ)
    (X : Fin N → ℝ × ℝ × ℝ) : ℝ :=
  depositShape sh b g (List.ofFn fun k => ⟨(X k).2.2, √((X k).1 ^ 2 + (X k).2.1 ^ 2), w k⟩) a i j

/-- The particles are in the grid. -/
def AllInside (g : Grid ℝ) {N : ℕ} (X : Fin N → ℝ × ℝ × ℝ) : Prop :=
  ∀ k, g.zMin ≤ (X k).2.2 ∧ (X k).2.2 ≤ g.zMin + ((g.nz : ℝ) - 1) * g.dz ∧ √((X k).1 ^ 2 + (X k).2.1 ^ 2) ≤ g.nr * g.dr

/-- **C183** The density in every cell depends continuously on the positions of the particles, with and
without correction, as long as they are in the grid; it does not jump when one of them passes from one
cell to the next, or crosses the axis.  With the linear shape the grid has to be longer than wide
(in cells); see `density_jumps_violated`. -/
theorem density_continuous_partial (sh : Shape) (b : Bool) {g : Grid ℝ} (hg : g.Regular) (hnz : 3 ≤ g.nz) (hnr : 3 ≤ g.nr)
    (hlong : sh = .linear → g.nr < g.nz) {N : ℕ} (w : Fin N → ℝ) (a : ℤ → ℤ → ℝ) (i j : ℤ) :
    ContinuousOn (densityAt sh b g w a i j) {X | AllInside g X} := by
  unfold densityAt
  simp only [depositShape_apply, List.map_ofFn, List.sum_ofFn, Function.comp_def]
  refine continuousOn_const.add (continuousOn_finset_sum _ fun k _ => ?_)
  let P : (Fin N → ℝ × ℝ × ℝ) → Part ℝ := fun X => ⟨(X k).2.2, √((X k).1 ^ 2 + (X k).2.1 ^ 2), w k⟩
  have hin : ∀ X ∈ {X : Fin N → ℝ × ℝ × ℝ | AllInside g X}, g.Inside (P X) := fun X hX => hX k
  have hr0 : ∀ X, 0 ≤ (P X).r := fun X => Real.sqrt_nonneg _
  have cz : Continuous fun X => g.zCell (P X) := by
    unfold Grid.zCell
    dsimp only [P]
    fun_prop
  have cr : Continuous fun X => g.rCell (P X) := by
    unfold Grid.rCell
    dsimp only [P]
    fun_prop
  have mz : Set.MapsTo (fun X => g.zCell (P X)) {X | AllInside g X} {x | -1 < x ∧ x < g.nz} := fun X hX => by
    have := zCell_mem hg (hin X hX)
    constructor <;> dsimp only <;> linarith [this.1, this.2]
  have mr : Set.MapsTo (fun X => g.rCell (P X)) {X | AllInside g X} {x | -1 < x ∧ x < g.nr} := fun X hX => by
    have := rCell_mem hg (hin X hX) (hr0 X)
    constructor <;> dsimp only <;> linarith [this.1, this.2]
  cases sh with
  | linear =>
    have hbug : ∀ X ∈ {X : Fin N → ℝ × ℝ × ℝ | AllInside g X}, g.rCell (P X) ≤ (g.nz : ℝ) - 1 := fun X hX => by
      have := (rCell_mem hg (hin X hX) (hr0 X)).2
      have h : (g.nr : ℝ) + 1 ≤ g.nz := by exact_mod_cast hlong rfl
      linarith
    refine ContinuousOn.congr (f := fun X => linCol g.nz (fun _ => 0) i ⌈g.zCell (P X)⌉ (g.zCell (P X)) *
      linCol g.nr (coefLinear b g) j ⌈g.rCell (P X)⌉ (g.rCell (P X)) * w k) ?_
      fun X hX => effect_linear' hg b (hin X hX) (hr0 X) (hbug X hX) (by omega) i j
    have c1 : ContinuousOn (fun X => linCol g.nz (fun _ => 0) i ⌈g.zCell (P X)⌉ (g.zCell (P X))) {X | AllInside g X} :=
      (linCol_continuousOn g.nz (fun _ => 0) i fun x hx => hx).comp cz.continuousOn mz
    have c2 : ContinuousOn (fun X => linCol g.nr (coefLinear b g) j ⌈g.rCell (P X)⌉ (g.rCell (P X))) {X | AllInside g X} :=
      (linCol_continuousOn g.nr (coefLinear b g) j fun x hx => hx).comp cr.continuousOn mr
    exact (c1.fun_mul c2).fun_mul continuousOn_const
  | cubic =>
    refine ContinuousOn.congr (f := fun X => cubCol g.nz (fun _ => 0) i ⌈g.zCell (P X)⌉ (g.zCell (P X)) *
      cubCol g.nr (coefCubic b g) j ⌈g.rCell (P X)⌉ (g.rCell (P X)) * w k) ?_
      fun X hX => effect_cubic' hg b (hin X hX) (hr0 X) i j
    have c1 : ContinuousOn (fun X => cubCol g.nz (fun _ => 0) i ⌈g.zCell (P X)⌉ (g.zCell (P X))) {X | AllInside g X} :=
      (cubCol_continuousOn g.nz hnz (fun _ => 0) i fun x hx => hx).comp cz.continuousOn mz
    have c2 : ContinuousOn (fun X => cubCol g.nr (coefCubic b g) j ⌈g.rCell (P X)⌉ (g.rCell (P X))) {X | AllInside g X} :=
      (cubCol_continuousOn g.nr hnr (coefCubic b g) j fun x hx => hx).comp cr.continuousOn mr
    exact (c1.fun_mul c2).fun_mul continuousOn_const

/-- Non-vacuous: two particles in a grid with 5 by 4 cells, one of them on the axis. -/
example : let g : Grid ℝ := ⟨0, 1 / 2, 5, 4, 1, 1⟩
    g.Regular ∧ AllInside g (N := 2) ![(0, 0, 1), (3 / 5, 4 / 5, 3 / 2)] := by
  refine ⟨⟨by norm_num, by norm_num, by norm_num⟩, fun k => ?_⟩
  fin_cases k
  · norm_num
  · have : √((3 / 5 : ℝ) ^ 2 + (4 / 5) ^ 2) = 1 := by norm_num
    simp [this]
    norm_num

/-- **C183** violated by the linear shape on grids at least as wide as long: on a grid with 3 longitudinal
and 8 radial cells, the density behind a particle halfway between two slices drops from one half
of its charge to nothing when it moves outwards across the third radial node (deposition.py 120). -/
theorem density_jumps_violated : let g : Grid ℝ := ⟨0, 1 / 2, 3, 8, 1, 1⟩
    g.Regular ∧ ¬ ContinuousOn (densityAt .linear false g (N := 1) (fun _ => 1) (fun _ _ => 0) 3 4) {X | AllInside g X} := by
  intro g
  refine ⟨⟨by norm_num [g], by norm_num [g], by norm_num [g]⟩, fun h => ?_⟩
  let X : ℝ → Fin 1 → ℝ × ℝ × ℝ := fun r _ => (r, 0, 1 / 2)
  have hs : ∀ r : ℝ, 0 ≤ r → √(r ^ 2 + 0 ^ 2) = r := fun r hr => by
    rw [show r ^ 2 + 0 ^ 2 = r ^ 2 by ring, Real.sqrt_sq hr]
  have hX : ∀ r : ℝ, 0 ≤ r → r ≤ 3 → AllInside g (X r) := fun r h0 h3 k => by
    simp only [X, hs r h0, g]
    norm_num
    linarith
  have hD : ∀ r : ℝ, 0 ≤ r → densityAt .linear false g (N := 1) (fun _ => 1) (fun _ _ => 0) 3 4 (X r) =
      effect (writesLinear false g ⟨1 / 2, r, 1⟩) 3 4 := fun r h0 => by
    unfold densityAt
    rw [depositShape_apply]
    simp only [List.map_ofFn, List.sum_ofFn, Function.comp_def, Finset.univ_unique, Finset.sum_singleton, zero_add, X, hs r h0]
    rfl
  have hc : ⌈(1 / 2 : ℝ)⌉ = 1 := by
    rw [Int.ceil_eq_iff]
    norm_num
  have hz : ∀ r : ℝ, g.zCell ⟨1 / 2, r, 1⟩ = 1 / 2 := fun r => by
    unfold Grid.zCell
    norm_num [g]
  have hr : ∀ r : ℝ, g.rCell ⟨1 / 2, r, 1⟩ = r - 1 / 2 := fun r => by
    unfold Grid.rCell
    norm_num [g]
  have v1 : effect (writesLinear false g ⟨1 / 2, 5 / 2, 1⟩) 3 4 = 1 / 2 := by
    have hi : g.Inside ⟨1 / 2, 5 / 2, 1⟩ := by
      unfold Grid.Inside
      norm_num [g]
    have hc2 : ⌈(5 / 2 - 1 / 2 : ℝ)⌉ = 2 := by
      rw [Int.ceil_eq_iff]
      norm_num
    unfold effect writesLinear uZ uR
    rw [if_pos hi]
    simp only [hz, hr, hc, hc2]
    norm_num [g]
  have v2 : ∀ r : ℝ, 5 / 2 < r → effect (writesLinear false g ⟨1 / 2, r, 1⟩) 3 4 = 0 := fun r h => by
    have hu : uZ g ⟨1 / 2, r, 1⟩ = 0 := by
      unfold uZ
      rw [hz, hr, if_neg (by norm_num), if_pos]
      simp only [g]
      norm_num
      linarith
    have hk := congrArg Int.ceil (hz r)
    rw [hc] at hk
    generalize (⟨1 / 2, r, 1⟩ : Part ℝ) = q at *
    unfold effect writesLinear
    split_ifs
    · simp only [hu, hk]
      simp
    · simp_all
    · simp
  have h' := h (X (5 / 2)) (hX _ (by norm_num) (by norm_num))
  rw [Metric.continuousWithinAt_iff] at h'
  obtain ⟨d, hd, hd'⟩ := h' (1 / 4) (by norm_num)
  have hm : 0 < min (d / 2) (1 / 2) := lt_min (by linarith) (by norm_num)
  have m1 := min_le_left (d / 2) (1 / 2)
  have m2 := min_le_right (d / 2) (1 / 2)
  generalize min (d / 2) (1 / 2) = e at *
  have := hd' (hX (5 / 2 + e) (by linarith) (by linarith)) ?_
  · rw [hD _ (by linarith), hD _ (by norm_num), v1, v2 _ (by linarith)] at this
    norm_num [Real.dist_eq, abs_of_pos] at this
  · rw [dist_pi_lt_iff hd]
    intro _
    simp only [X, Prod.dist_eq, dist_self, Real.dist_eq]
    rw [max_lt_iff]
    refine ⟨?_, by simpa using hd⟩
    rw [abs_lt]
    constructor <;> linarith

end WakeT.Deposition
