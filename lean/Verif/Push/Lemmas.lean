import Verif.Push.Spec
import Verif.Base.Tactics

/-! # The array pushers act on every particle separately -/

set_option linter.unusedSectionVars false

namespace WakeT.Push

open Fields (EB)

theorem gatherFields_apply (fields : List PField) {sch : ℕ → List ℕ} {n : ℕ}
    (hs : ∀ a, IsSchedule (sch a) n) (t : ℝ) (pos : ℕ → Ph) (a : ℕ → EB ℝ) (i : ℕ) (hi : i < n) :
    gatherFields fields sch t pos a i = felt fields t (pos i) := by
  unfold gatherFields felt
  try dsimp only
  suffices h : ∀ (l : List (PField × ℕ)) (a : ℕ → EB ℝ),
      l.foldl (fun a fk => prange (sch (fk.2 + 1))
        (at1 fun i v => fk.1 t (pos i).x (pos i).y (pos i).xi v) a) a i =
      (l.map Prod.fst).foldl (fun v f => f t (pos i).x (pos i).y (pos i).xi v) (a i) by
    rw [h, prange_schedule _ (hs 0), if_pos hi]
    rw [List.zipIdx_map_fst]
  intro l
  induction l with
  | nil => intro a; rfl
  | cons e l ih =>
    intro a
    rw [List.foldl_cons, ih, prange_schedule _ (hs _), if_pos hi]
    rfl

theorem boris_apply (k : Const) (fields : List PField) {sch : Sched} {n : ℕ} (hs : sch.Valid n)
    (t dt : ℝ) (b : ℕ → Ph) (eb : ℕ → EB ℝ) (i : ℕ) :
    (boris k fields sch t dt b eb).1 i = if i < n then borisStep k fields t dt (b i) else b i := by
  unfold boris borisStep
  try dsimp only
  rw [prange_schedule _ (hs 3 0), prange_schedule _ (hs 2 0), prange_schedule _ (hs 0 0)]
  split_ifs with h
  · rw [gatherFields_apply fields (hs 1) _ _ _ _ h, prange_schedule _ (hs 0 0), if_pos h]
  · rfl

theorem calculateK_apply (k : Const) {ord : List ℕ} {n : ℕ} (h : IsSchedule ord n)
    (pos : ℕ → Ph) (eb : ℕ → EB ℝ) (ks : ℕ → Ph) (i : ℕ) (hi : i < n) :
    calculateK k ord pos eb ks i = calcK1 k (pos i) (eb i) := by
  unfold calculateK; rw [prange_schedule _ h, if_pos hi]

theorem updateCoords_apply {sch : ℕ → List ℕ} {n : ℕ} (hs : ∀ a, IsSchedule (sch a) n)
    (b : ℕ → Ph) (dt fac : ℝ) (ks pos : ℕ → Ph) (i : ℕ) (hi : i < n) :
    updateCoords sch b dt fac ks pos i = (b i).shift (dt * fac) (ks i) := by
  unfold updateCoords Ph.shift
  try dsimp only
  simp only [prange_schedule _ (hs _), if_pos hi]
  ext <;> simp only <;> ring

theorem initPush_apply {sch : ℕ → List ℕ} {n : ℕ} (hs : ∀ a, IsSchedule (sch a) n)
    (fac : ℝ) (ks d : ℕ → Ph) (i : ℕ) (hi : i < n) :
    initPush sch fac ks d i = (⟨0, 0, 0, 0, 0, 0⟩ : Ph).shift fac (ks i) := by
  unfold initPush Ph.shift
  try dsimp only
  simp only [prange_schedule _ (hs _), if_pos hi]
  ext <;> simp only <;> ring

theorem updatePush_apply {sch : ℕ → List ℕ} {n : ℕ} (hs : ∀ a, IsSchedule (sch a) n)
    (fac : ℝ) (ks d : ℕ → Ph) (i : ℕ) (hi : i < n) :
    updatePush sch fac ks d i = (d i).shift fac (ks i) := by
  unfold updatePush Ph.shift
  try dsimp only
  simp only [prange_schedule _ (hs _), if_pos hi]
  ext <;> simp only <;> ring

theorem applyPush_apply {sch : ℕ → List ℕ} {n : ℕ} (hs : ∀ a, IsSchedule (sch a) n)
    (dt : ℝ) (d b : ℕ → Ph) (i : ℕ) :
    applyPush sch dt d b i = if i < n then (b i).shift dt (d i) else b i := by
  unfold applyPush Ph.shift
  try dsimp only
  simp only [prange_schedule _ (hs _)]
  split_ifs <;> rfl

theorem calcK1_motion (k : Const) (fields : List PField) (t : ℝ) (p : Ph) :
    calcK1 k p (felt fields t p) = motion k fields t p := by
  unfold calcK1 motion Ph.gamma Const.qmc
  ext <;> simp only <;> ring

theorem rk4_apply (k : Const) (fields : List PField) {sch : Sched} {n : ℕ} (hs : sch.Valid n)
    (t dt : ℝ) (b : ℕ → Ph) (bu : Bufs) (eb : ℕ → EB ℝ) (i : ℕ) :
    (rk4 k fields sch t dt b bu eb).1 i =
      if i < n then classicalRK4 (motion k fields) t dt (b i) else b i := by
  unfold rk4
  try dsimp only
  rw [applyPush_apply (hs 16)]
  split_ifs with hi
  swap
  · rfl
  simp only [List.range, List.range.loop, List.foldl_cons, List.foldl_nil]
  simp only [rk4Stage, factors, reduceIte, OfNat.ofNat_ne_zero, one_ne_zero, or_false, false_or,
    or_true, true_or, OfNat.ofNat_eq_ofNat, Nat.reduceEqDiff, OfNat.one_ne_ofNat, or_self]
  simp only [updatePush_apply (hs _) _ _ _ i hi, initPush_apply (hs _) _ _ _ i hi,
    calculateK_apply _ (hs _ _) _ _ _ i hi, gatherFields_apply _ (hs _) _ _ _ i hi,
    updateCoords_apply (hs _) _ _ _ _ _ i hi, calcK1_motion]
  unfold classicalRK4
  try dsimp only
  rw [show dt * (1 / 2 : ℝ) = dt / 2 by ring, mul_one]
  generalize motion k fields t (b i) = k1
  generalize motion k fields (t + dt / 2) ((b i).shift (dt / 2) k1) = k2
  generalize motion k fields (t + dt / 2) ((b i).shift (dt / 2) k2) = k3
  generalize motion k fields (t + dt) ((b i).shift dt k3) = k4
  unfold Ph.shift
  ext <;> simp only <;> ring

end WakeT.Push
