import Verif.CSR.PathSum
import Mathlib.Analysis.SpecialFunctions.Trigonometric.Bounds

/-!
# The trajectory of a beamline is a path
-/

set_option linter.unusedSectionVars false

namespace WakeT.CSR

open Finset

theorem distance_comm (p q : Pt) : distance p q = distance q p := by
  rw [distance_eq_dist, distance_eq_dist, dist_comm]

theorem distance_congr {p p' q q' : Pt} (hp : p.pos = p'.pos) (hq : q.pos = q'.pos) : distance p q = distance p' q' := by
  unfold distance
  rw [hp, hq]

theorem trajPoint_zero (e : Elem) (p : Pt) : (trajPoint e p 0).pos = p.pos := by
  unfold trajPoint
  split_ifs <;> simp

/-- Two points of an element are not further apart than along the path. -/
theorem distance_trajPoint (e : Elem) (hL : e.length ≠ 0) {p : Pt} (hp : Planar p) (a b : ℝ) :
    distance (trajPoint e p a) (trajPoint e p b) ≤ |b - a| := by
  obtain ⟨h1, hu⟩ := hp
  unfold Unit at hu
  rw [h1] at hu
  unfold distance
  rw [← Real.sqrt_sq_eq_abs]
  apply Real.sqrt_le_sqrt
  unfold trajPoint
  by_cases h : e.theta = 0
  · rw [if_neg (by simp [h]), if_neg (by simp [h])]
    dsimp only
    rw [h1]
    apply le_of_eq
    linear_combination (b - a) ^ 2 * hu
  · rw [if_pos h, if_pos h]
    dsimp only
    set ρ := e.length / e.theta with hρ
    have hρ0 : ρ ≠ 0 := div_ne_zero hL h
    have ha : 2 * Real.sin (a / (2 * ρ)) ^ 2 = 1 - Real.cos (a / ρ) := by
      rw [show a / ρ = 2 * (a / (2 * ρ)) by field_simp, Real.cos_two_mul, ← Real.sin_sq_add_cos_sq (a / (2 * ρ))]
      ring
    have hb : 2 * Real.sin (b / (2 * ρ)) ^ 2 = 1 - Real.cos (b / ρ) := by
      rw [show b / ρ = 2 * (b / (2 * ρ)) by field_simp, Real.cos_two_mul, ← Real.sin_sq_add_cos_sq (b / (2 * ρ))]
      ring
    rw [ha, hb, h1]
    have hc := Real.one_sub_sq_div_two_le_cos (x := b / ρ - a / ρ)
    rw [Real.cos_sub] at hc
    have ea := Real.sin_sq_add_cos_sq (a / ρ)
    have eb := Real.sin_sq_add_cos_sq (b / ρ)
    have hx : (b / ρ - a / ρ) ^ 2 = (b - a) ^ 2 / ρ ^ 2 := by rw [← sub_div, div_pow]
    rw [hx] at hc
    simp only [Matrix.cons_val_zero, Matrix.cons_val_one, Matrix.cons_val]
    generalize Real.sin (a / ρ) = sa at *
    generalize Real.cos (a / ρ) = ca at *
    generalize Real.sin (b / ρ) = sb at *
    generalize Real.cos (b / ρ) = cb at *
    have hm : ρ ^ 2 * (2 - 2 * (cb * ca + sb * sa)) ≤ (b - a) ^ 2 := by
      have h3 : 2 - 2 * (cb * ca + sb * sa) ≤ (b - a) ^ 2 / ρ ^ 2 := by linarith
      rw [le_div_iff₀ (by positivity)] at h3
      linarith
    refine le_trans (le_of_eq ?_) hm
    linear_combination (ρ ^ 2 * ((sb - sa) ^ 2 + (cb - ca) ^ 2)) * hu + ρ ^ 2 * ea + ρ ^ 2 * eb

/-- Specification of `Path` for lists. -/
def PathList (l : List Pt) : Prop := l.Pairwise fun p q => p.s < q.s ∧ distance p q ≤ q.s - p.s

theorem PathList.append {old : List Pt} {L : ℝ} (h : PathList old) (hC : Curve old L) (e : Elem) (hL : 0 < e.length)
    {ds : ℝ} (hds : 0 < ds) : PathList (old ++ newPoints e (old.getLastD startPt) ds) := by
  have hne : old ≠ [] := by rintro rfl; simpa using hC.head
  have hn : 0 < ⌈e.length / ds⌉₊ := Nat.ceil_pos.mpr (div_pos hL hds)
  have hlast : old.getLastD startPt ∈ old := by
    rw [List.getLastD_eq_getLast?, List.getLast?_eq_some_getLast hne]
    exact List.getLast_mem hne
  have hpl := hC.unit _ hlast
  have hs : ∀ (p : Pt) (l : ℝ), (trajPoint e p l).s = p.s + l := by
    intro p l; unfold trajPoint; split_ifs <;> rfl
  have hstep : 0 < e.length / (⌈e.length / ds⌉₊ : ℝ) := div_pos hL (by exact_mod_cast hn)
  have hmono := (hC.append e hL hds).mono
  unfold PathList
  rw [List.pairwise_append]
  refine ⟨h, ?_, ?_⟩
  · unfold newPoints
    rw [List.pairwise_map]
    refine List.Pairwise.imp_of_mem ?_ List.pairwise_lt_range
    intro a b ha hb hab
    rw [List.mem_range] at ha hb
    rw [hs, hs, linspace_steps _ _ _ hn ha, linspace_steps _ _ _ hn hb]
    have hc : (a : ℝ) < b := by exact_mod_cast hab
    have hd := distance_trajPoint e hL.ne' hpl (((a : ℝ) + 1) * (e.length / (⌈e.length / ds⌉₊ : ℝ)))
      (((b : ℝ) + 1) * (e.length / (⌈e.length / ds⌉₊ : ℝ)))
    rw [abs_of_pos (by nlinarith)] at hd
    exact ⟨by nlinarith, by linarith⟩
  · intro p hp q hq
    refine ⟨(List.pairwise_append.mp hmono).2.2 p hp q hq, ?_⟩
    unfold newPoints at hq
    obtain ⟨j, hj, rfl⟩ := List.mem_map.mp hq
    rw [List.mem_range] at hj
    rw [hs, linspace_steps _ _ _ hn hj]
    have hl : distance p (old.getLastD startPt) ≤ (old.getLastD startPt).s - p.s := by
      obtain ⟨k, hk, rfl⟩ := List.getElem_of_mem hp
      have hll : old.getLastD startPt = old[old.length - 1] := by
        rw [List.getLastD_eq_getLast?, List.getLast?_eq_getElem?, List.getElem?_eq_getElem (by omega)]
        rfl
      rw [hll]
      rcases Nat.lt_or_ge k (old.length - 1) with h' | h'
      · exact (List.pairwise_iff_getElem.mp h k _ hk (by omega) h').2
      · have : k = old.length - 1 := by omega
        subst this
        rw [distance_self]
        linarith
    have hd := distance_trajPoint e hL.ne' hpl 0 (((j : ℝ) + 1) * (e.length / (⌈e.length / ds⌉₊ : ℝ)))
    rw [sub_zero, abs_of_pos (by positivity), distance_congr (trajPoint_zero e _) rfl] at hd
    have := distance_triangle p (old.getLastD startPt)
      (trajPoint e (old.getLastD startPt) (((j : ℝ) + 1) * (e.length / (⌈e.length / ds⌉₊ : ℝ))))
    linarith

theorem history_pathList {a b : ℝ} (ha : 0 < a) (hb : 0 < b) (ops : List Op) (hok : ∀ e, Occurs ops e → e.Ok) :
    PathList ((history a b ops).refTraj.getD [startPt]) := by
  induction ops using List.reverseRecOn with
  | nil => simp [history, Calc.new, PathList]
  | append_singleton ops op ih =>
    have hok' : ∀ x, Occurs ops x → x.Ok := fun x hx => hok x (List.mem_append_left _ hx)
    have ih := ih hok'
    cases op with
    | clear =>
      have : history a b (ops ++ [.clear]) = (history a b ops).clear := by
        simp [history, List.foldl_append, Calc.op]
      rw [this]
      simp [Calc.clear, PathList]
    | add e =>
      have he : e.Ok := hok e (by simp [Occurs])
      have : history a b (ops ++ [.add e]) = (history a b ops).add e := by
        simp [history, List.foldl_append, Calc.op]
      obtain ⟨hS, hA, hB, hC, -, -⟩ := history_inv ha hb ops hok'
      rw [this, add_refTraj, Option.getD_some]
      exact ih.append hC e he.1 (add_step_pos hS (by rw [hA]; exact ha) (by rw [hB]; exact hb) he)

/-- In every beamline the path length grows along the trajectory and no two of its points are further apart than
along it. -/
theorem history_path {a b : ℝ} (ha : 0 < a) (hb : 0 < b) (ops : List Op) (hok : ∀ e, Occurs ops e → e.Ok)
    {traj : List Pt} (htr : (history a b ops).refTraj = some traj) {i : ℕ} (hi : i < traj.length) :
    Path (fun m => traj.getD m startPt) i ∧ Unit (traj.getD 0 startPt).tan := by
  have h := history_pathList ha hb ops hok
  obtain ⟨-, -, -, hC, -, -⟩ := history_inv ha hb ops hok
  rw [htr, Option.getD_some] at h hC
  refine ⟨?_, ?_⟩
  · intro k k' hk hk'
    dsimp only
    rw [getD_lt (by omega : k < traj.length), getD_lt (by omega : k' < traj.length)]
    exact List.pairwise_iff_getElem.mp h k k' (by omega) (by omega) hk
  · rw [getD_lt (by omega : 0 < traj.length)]
    exact (hC.unit _ (List.getElem_mem _)).2

end WakeT.CSR
