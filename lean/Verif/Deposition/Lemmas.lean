import Verif.Deposition.Spec
import Verif.Base.Tactics
import Mathlib.Algebra.BigOperators.Ring.Finset
import Mathlib.Algebra.Order.BigOperators.Group.List
import Mathlib.Algebra.BigOperators.Ring.List

/-! # Helper lemmas for the deposition -/

set_option linter.unusedSectionVars false

namespace WakeT.Deposition

variable {K : Type*} [Field K] [LinearOrder K] [IsStrictOrderedRing K] [FloorRing K]

/-! ### Writes -/

/-- What a list of writes adds at `(i, j)`. -/
def effect (ws : List (Write K)) (i j : ℤ) : K :=
  (ws.map fun wr => if i = wr.i ∧ j = wr.j then wr.v else 0).sum

theorem foldl_addAt (ws : List (Write K)) (a : ℤ → ℤ → K) (i j : ℤ) :
    ws.foldl addAt a i j = a i j + effect ws i j := by
  induction ws generalizing a with
  | nil => simp [effect]
  | cons wr ws ih =>
    rw [List.foldl_cons, ih]
    simp only [effect, List.map_cons, List.sum_cons, addAt]
    split <;> ring

theorem depositShape_apply (sh : Shape) (b : Bool) (g : Grid K) (ps : List (Part K))
    (a : ℤ → ℤ → K) (i j : ℤ) :
    depositShape sh b g ps a i j = a i j + (ps.map fun p => effect (writes sh b g p) i j).sum := by
  unfold depositShape
  induction ps generalizing a with
  | nil => simp
  | cons p ps ih => rw [List.foldl_cons, ih, foldl_addAt, List.map_cons, List.sum_cons, add_assoc]

/-- All writes are within the allocated array. -/
def InBounds (g : Grid K) (ws : List (Write K)) : Prop :=
  ∀ wr ∈ ws, 0 ≤ wr.i ∧ wr.i < g.nz + 4 ∧ 0 ≤ wr.j ∧ wr.j < g.nr + 4

theorem weighted_add (g : Grid K) (φ a b : ℤ → ℤ → K) :
    weighted g φ (fun i j => a i j + b i j) = weighted g φ a + weighted g φ b := by
  simp only [weighted, mul_add, Finset.sum_add_distrib]

theorem weighted_zero (g : Grid K) (φ : ℤ → ℤ → K) : weighted g φ (fun _ _ => 0) = 0 := by
  simp [weighted]

theorem weighted_effect (g : Grid K) (φ : ℤ → ℤ → K) (ws : List (Write K)) (h : InBounds g ws) :
    weighted g φ (effect ws) = (ws.map fun wr => φ wr.i wr.j * wr.v).sum := by
  induction ws with
  | nil => simp [effect, weighted]
  | cons wr ws ih =>
    have h1 : effect (wr :: ws) = fun i j => (if i = wr.i ∧ j = wr.j then wr.v else 0)
        + effect ws i j := by
      funext i j; simp [effect]
    rw [h1, weighted_add, ih (fun w hw => h w (List.mem_cons_of_mem _ hw)), List.map_cons,
      List.sum_cons]
    congr 1
    obtain ⟨h2, h3, h4, h5⟩ := h wr List.mem_cons_self
    unfold weighted
    rw [Finset.sum_eq_single wr.i, Finset.sum_eq_single wr.j]
    · simp
    · intro j _ hj; simp [hj]
    · intro hj; exact absurd (Finset.mem_Ico.mpr ⟨h4, h5⟩) hj
    · intro i _ hi; simp [hi]
    · intro hi; exact absurd (Finset.mem_Ico.mpr ⟨h2, h3⟩) hi

theorem weighted_deposit (sh : Shape) (b : Bool) (g : Grid K) (φ : ℤ → ℤ → K)
    (ps : List (Part K)) (a : ℤ → ℤ → K) (h : ∀ p ∈ ps, InBounds g (writes sh b g p)) :
    weighted g φ (depositShape sh b g ps a) = weighted g φ a +
      (ps.map fun p => ((writes sh b g p).map fun wr => φ wr.i wr.j * wr.v).sum).sum := by
  have h1 : depositShape sh b g ps a = fun i j => a i j +
      (ps.map fun p => effect (writes sh b g p) i j).sum := by
    funext i j; exact depositShape_apply sh b g ps a i j
  rw [h1, weighted_add]
  congr 1
  clear h1
  induction ps with
  | nil => simp [weighted]
  | cons p ps ih =>
    simp only [List.map_cons, List.sum_cons]
    rw [weighted_add, weighted_effect g φ _ (h p List.mem_cons_self),
      ih (fun q hq => h q (List.mem_cons_of_mem _ hq))]

/-! ### Cell indices -/

theorem zCell_mem {g : Grid K} (hg : g.Regular) {p : Part K} (hp : g.Inside p) :
    0 ≤ g.zCell p ∧ g.zCell p ≤ (g.nz : K) - 1 := by
  have hd := hg.dz
  unfold Grid.zCell
  refine ⟨div_nonneg (by linarith [hp.1]) hd.le, ?_⟩
  rw [div_le_iff₀ hd]; linarith [hp.2.1]

theorem rCell_mem {g : Grid K} (hg : g.Regular) {p : Part K} (hp : g.Inside p) (hr : 0 ≤ p.r) :
    -(1 / 2) ≤ g.rCell p ∧ g.rCell p ≤ (g.nr : K) - 1 / 2 := by
  have hd := hg.dr
  unfold Grid.rCell
  rw [hg.rMin]
  constructor
  · rw [le_div_iff₀ hd]; linarith
  · rw [div_le_iff₀ hd]; linarith [hp.2.2]

theorem ceil_zCell {g : Grid K} (hg : g.Regular) {p : Part K} (hp : g.Inside p) :
    0 ≤ ⌈g.zCell p⌉ ∧ ⌈g.zCell p⌉ ≤ (g.nz : ℤ) - 1 := by
  obtain ⟨h1, h2⟩ := zCell_mem hg hp
  refine ⟨Int.ceil_nonneg h1, Int.ceil_le.mpr ?_⟩
  push_cast; exact h2

theorem ceil_rCell {g : Grid K} (hg : g.Regular) {p : Part K} (hp : g.Inside p) (hr : 0 ≤ p.r) :
    0 ≤ ⌈g.rCell p⌉ ∧ ⌈g.rCell p⌉ ≤ (g.nr : ℤ) := by
  obtain ⟨h1, h2⟩ := rCell_mem hg hp hr
  constructor
  · have : (-1 : ℤ) < ⌈g.rCell p⌉ := Int.lt_ceil.mpr (by push_cast; linarith)
    omega
  · refine Int.ceil_le.mpr ?_
    push_cast; linarith

theorem inBounds_linear {g : Grid K} (hg : g.Regular) (b : Bool) {p : Part K} (hr : 0 ≤ p.r) :
    InBounds g (writesLinear b g p) := by
  intro wr hwr
  unfold writesLinear at hwr
  split at hwr
  · rename_i hp
    have h1 := ceil_zCell hg hp
    have h2 := ceil_rCell hg hp hr
    simp only [List.mem_cons, List.not_mem_nil, or_false] at hwr
    rcases hwr with rfl | rfl | rfl | rfl <;> simp only <;> omega
  · simp at hwr

theorem inBounds_cubic {g : Grid K} (hg : g.Regular) (b : Bool) {p : Part K} (hr : 0 ≤ p.r) :
    InBounds g (writesCubic b g p) := by
  intro wr hwr
  unfold writesCubic at hwr
  split at hwr
  · rename_i hp
    have h1 := ceil_zCell hg hp
    have h2 := ceil_rCell hg hp hr
    simp only [List.mem_cons, List.not_mem_nil, or_false] at hwr
    rcases hwr with rfl | rfl | rfl | rfl | rfl | rfl | rfl | rfl | rfl | rfl | rfl | rfl | rfl |
      rfl | rfl | rfl <;> simp only <;> omega
  · simp at hwr

theorem inBounds {g : Grid K} (hg : g.Regular) (sh : Shape) (b : Bool) {p : Part K}
    (hr : 0 ≤ p.r) : InBounds g (writes sh b g p) := by
  cases sh
  · exact inBounds_linear hg b hr
  · exact inBounds_cubic hg b hr

/-! ### Sums of coefficients -/

theorem foldShape_sum (c : K) (n : ℕ) (s : S4 K) :
    (foldShape c n s).s0 + (foldShape c n s).s1 + (foldShape c n s).s2 + (foldShape c n s).s3 =
      s.s0 + s.s1 + s.s2 + s.s3 := by
  unfold foldShape; split_ifs <;> simp only <;> ring

theorem cubicShape_sum (u : K) : (cubicShape u).s0 + (cubicShape u).s1 + (cubicShape u).s2 +
    (cubicShape u).s3 = 1 := by
  simp only [cubicShape]; ring

theorem sum_v (sh : Shape) (b : Bool) (g : Grid K) (p : Part K) :
    ((writes sh b g p).map fun wr => wr.v).sum = if g.Inside p then p.w else 0 := by
  cases sh
  · simp only [writes, writesLinear]
    split
    · simp only [List.map_cons, List.map_nil, List.sum_cons, List.sum_nil]; ring
    · simp
  · simp only [writes, writesCubic]
    split
    · simp only [List.map_cons, List.map_nil, List.sum_cons, List.sum_nil]
      generalize hrs : foldShape (g.rCell p) g.nr _ = rs
      generalize hzs : foldShape (g.zCell p) g.nz _ = zs
      have h1 : rs.s0 + rs.s1 + rs.s2 + rs.s3 = 1 := by
        rw [← hrs, foldShape_sum]
        simp only
        linear_combination cubicShape_sum (g.rCell p - ⌈g.rCell p⌉ + 1)
      have h2 : zs.s0 + zs.s1 + zs.s2 + zs.s3 = 1 := by
        rw [← hzs, foldShape_sum]; exact cubicShape_sum _
      linear_combination (zs.s0 + zs.s1 + zs.s2 + zs.s3) * p.w * h1 + p.w * h2
    · simp

/-! ### Shape functions at integer distance -/

theorem hat_stencil (x : K) (m : ℤ) (h1 : (m : K) - 1 < x) (h2 : x ≤ m) (i : ℤ) :
    hat ((i : K) - x) =
      (if i = m - 1 then 1 - (x - m + 1) else 0) + (if i = m then x - m + 1 else 0) := by
  unfold hat
  rcases lt_trichotomy i m with h | h | h
  · rcases lt_or_eq_of_le (show i ≤ m - 1 by omega) with h3 | h3
    · have h4 : (i : K) ≤ m - 2 := by
        have : i ≤ m - 2 := by omega
        exact_mod_cast this
      rw [if_neg (by omega), if_neg (by omega), max_eq_left]
      · simp
      · have : 1 ≤ |(i : K) - x| := by rw [abs_of_neg (by linarith)]; linarith
        linarith
    · subst h3
      rw [if_pos rfl, if_neg (by omega)]
      push_cast
      rw [abs_of_neg (by linarith), max_eq_right (by linarith)]; ring
  · subst h
    rw [if_neg (by omega), if_pos rfl, abs_of_nonneg (by linarith), max_eq_right (by linarith)]
    ring
  · have h4 : (m : K) + 1 ≤ i := by
      have : m + 1 ≤ i := by omega
      exact_mod_cast this
    rw [if_neg (by omega), if_neg (by omega), max_eq_left]
    · simp
    · have : 1 ≤ |(i : K) - x| := by rw [abs_of_pos (by linarith)]; linarith
      linarith

theorem bspline_stencil (x : K) (m : ℤ) (h1 : (m : K) - 1 < x) (h2 : x ≤ m) (i : ℤ) :
    bspline ((i : K) - x) =
      (if i = m - 2 then (cubicShape (x - m + 1)).s0 else 0) +
      (if i = m - 1 then (cubicShape (x - m + 1)).s1 else 0) +
      (if i = m then (cubicShape (x - m + 1)).s2 else 0) +
      (if i = m + 1 then (cubicShape (x - m + 1)).s3 else 0) := by
  have hcases : i ≤ m - 3 ∨ i = m - 2 ∨ i = m - 1 ∨ i = m ∨ i = m + 1 ∨ m + 2 ≤ i := by omega
  unfold bspline
  rcases hcases with h | h | h | h | h | h
  · have h4 : (i : K) ≤ m - 3 := by exact_mod_cast h
    have habs : |(i : K) - x| = x - i := by rw [abs_of_neg (by linarith)]; ring
    rw [habs, if_neg (by linarith), if_neg (by linarith), if_neg (by omega), if_neg (by omega),
      if_neg (by omega), if_neg (by omega)]; ring
  · subst h
    push_cast
    have habs : |(m : K) - 2 - x| = x - m + 2 := by rw [abs_of_neg (by linarith)]; ring
    rw [habs, if_neg (by linarith), if_pos (by linarith), if_pos rfl,
      if_neg (show ¬ (m - 2 = m - 1) by omega), if_neg (show ¬ (m - 2 = m) by omega),
      if_neg (show ¬ (m - 2 = m + 1) by omega)]
    simp only [cubicShape]; ring
  · subst h
    push_cast
    have habs : |(m : K) - 1 - x| = x - m + 1 := by rw [abs_of_neg (by linarith)]; ring
    rw [habs, if_pos (by linarith), if_neg (by omega), if_pos rfl, if_neg (by omega),
      if_neg (by omega)]
    simp only [cubicShape]; ring
  · subst h
    have habs : |(i : K) - x| = i - x := abs_of_nonneg (by linarith)
    rw [habs, if_pos (by linarith), if_neg (by omega), if_neg (by omega), if_pos rfl,
      if_neg (by omega)]
    simp only [cubicShape]; ring
  · subst h
    push_cast
    have habs : |(m : K) + 1 - x| = m + 1 - x := abs_of_pos (by linarith)
    rw [habs, if_neg (show ¬ (m + 1 = m - 2) by omega), if_neg (show ¬ (m + 1 = m - 1) by omega),
      if_neg (show ¬ (m + 1 = m) by omega), if_pos rfl]
    simp only [cubicShape]
    rcases eq_or_lt_of_le h2 with h5 | h5
    · subst h5; simp; norm_num
    · rw [if_neg (by linarith), if_pos (by linarith)]; ring
  · have h4 : (m : K) + 2 ≤ i := by exact_mod_cast h
    have habs : |(i : K) - x| = i - x := abs_of_pos (by linarith)
    rw [habs, if_neg (by linarith), if_neg (show ¬ (i = m - 2) by omega),
      if_neg (show ¬ (i = m - 1) by omega),
      if_neg (show ¬ (i = m) by omega), if_neg (show ¬ (i = m + 1) by omega)]
    split
    · rename_i h5
      have : (i : K) - x = 2 := by linarith
      rw [this]; ring
    · ring

theorem and_ite (a b : Prop) [Decidable a] [Decidable b] (v : K) :
    (if a ∧ b then v else 0) = (if a then 1 else 0) * (if b then 1 else 0) * v := by
  split_ifs <;> simp_all

theorem ite_mul_one (a : Prop) [Decidable a] (v : K) :
    (if a then v else 0) = (if a then 1 else 0) * v := by
  split_ifs <;> simp

end WakeT.Deposition
