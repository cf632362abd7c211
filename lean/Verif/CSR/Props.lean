import Verif.CSR.Lemmas
import Mathlib.Analysis.SpecialFunctions.Trigonometric.Deriv

/-! # Properties of the CSR calculator (C67, C68, C69, C80) -/

set_option linter.unusedSectionVars false

namespace WakeT.CSR

/-! ### C67: step sizes -/

/-- The CSR step is positive, at most the requested one and divides the spacing of the
outputs (the element itself if there are none) into a whole number of steps; the
trajectory step divides the CSR step in the same way. -/
theorem steps_fit {csrStep csrTrajStep : ℝ} (h1 : 0 < csrStep) (h2 : 0 < csrTrajStep)
    {e : Elem} (he : e.Ok) :
    0 < (computeSteps csrStep csrTrajStep e).1 ∧
    (computeSteps csrStep csrTrajStep e).1 ≤ csrStep ∧
    Divides (computeSteps csrStep csrTrajStep e).1 (e.length / (e.nOut.getD 1 : ℕ)) ∧
    0 < (computeSteps csrStep csrTrajStep e).2 ∧
    (computeSteps csrStep csrTrajStep e).2 ≤ csrTrajStep ∧
    Divides (computeSteps csrStep csrTrajStep e).2 (computeSteps csrStep csrTrajStep e).1 :=
  computeSteps_fit h1 h2 he

/-- Elements with shorter lengths than the step are tracked in one step, and the step is
not made smaller than needed: one step fewer would exceed the requested step. -/
theorem steps_coarsest {csrStep csrTrajStep : ℝ} (h1 : 0 < csrStep) {e : Elem} (he : e.Ok)
    {m : ℕ} (hm : 1 ≤ m) (hd : e.length / (e.nOut.getD 1 : ℕ) / m ≤ csrStep) :
    e.length / (e.nOut.getD 1 : ℕ) / m ≤ (computeSteps csrStep csrTrajStep e).1 := by
  obtain ⟨hl, hn⟩ := he
  have hm' : (0 : ℝ) < m := by exact_mod_cast hm
  have key : ∀ x : ℝ, 0 < x → x / m ≤ csrStep → x / m ≤ x / ⌈x / csrStep⌉₊ := by
    intro x hx h
    have h3 : 0 < ⌈x / csrStep⌉₊ := Nat.ceil_pos.mpr (div_pos hx h1)
    have h4 : ⌈x / csrStep⌉₊ ≤ m := by
      rw [Nat.ceil_le, div_le_iff₀ h1]
      rw [div_le_iff₀ hm'] at h
      linarith
    exact div_le_div_of_nonneg_left hx.le (by exact_mod_cast h3) (by exact_mod_cast h4)
  unfold computeSteps
  dsimp only
  split
  · rename_i n hN
    have h3 : (0 : ℝ) < n := by exact_mod_cast hn n hN
    simp only [hN, Option.getD_some] at hd ⊢
    exact key _ (div_pos hl h3) hd
  · rename_i hN
    simp only [hN, Option.getD_none, Nat.cast_one, div_one] at hd ⊢
    split_ifs with ha hb
    · rw [div_le_iff₀ hm']
      have : (1 : ℝ) ≤ m := by exact_mod_cast hm
      nlinarith
    · exact hd
    · exact key _ hl hd

example : (⟨0, 1, 0, 0, 0, none, true, some 3, 2, true⟩ : Elem).Ok :=
  ⟨by norm_num, by intro n h; simp at h; omega⟩

/-- Storing steps without clearing. -/
theorem foldl_add_steps (a b : ℝ) (es : List Elem) :
    (es.foldl Calc.add (Calc.new a b)).elements = es ∧
    (es.foldl Calc.add (Calc.new a b)).trajSteps = es.map (computeSteps a b) ∧
    (es.foldl Calc.add (Calc.new a b)).csrStep = a ∧
    (es.foldl Calc.add (Calc.new a b)).csrTrajStep = b := by
  induction es using List.reverseRecOn with
  | nil => exact ⟨rfl, rfl, rfl, rfl⟩
  | append_singleton es e ih =>
    obtain ⟨h1, h2, h3, h4⟩ := ih
    rw [List.foldl_append]
    refine ⟨?_, ?_, ?_, ?_⟩ <;> simp [h1, h2, h3, h4]

theorem indexOf_spec {es : List Elem} (hid : Identified es) {e : Elem} (he : e ∈ es) :
    ∃ i, indexOf es e = some i ∧ es[i]? = some e := by
  have : (indexOf es e).isSome := by
    unfold indexOf
    rw [List.findIdx?_isSome]
    simpa using ⟨e, he, rfl⟩
  obtain ⟨i, hi⟩ := Option.isSome_iff_exists.mp this
  refine ⟨i, hi, ?_⟩
  unfold indexOf at hi
  rw [List.findIdx?_eq_some_iff_getElem] at hi
  obtain ⟨hlt, h1, _⟩ := hi
  rw [List.getElem?_eq_getElem hlt]
  exact congrArg some (hid _ (List.getElem_mem hlt) _ he (by simpa using h1))

/-- Partial: the step returned for an element is the one computed for it, as long as the
calculator has not been cleared after elements were added to it (any number of clears
before).  Missing: histories that clear a non-empty calculator, for which the claim fails
(`csr_step_violated`). -/
theorem csr_step_partial (a b : ℝ) (k : ℕ) (es : List Elem) (hid : Identified es)
    {e : Elem} (he : e ∈ es) :
    (history a b (List.replicate k Op.clear ++ es.map Op.add)).getCsrStep e =
      some (computeSteps a b e).1 := by
  have h0 : (List.replicate k Op.clear).foldl Calc.op (Calc.new a b) = Calc.new a b := by
    induction k with
    | zero => rfl
    | succ k ih => rw [List.replicate_succ, List.foldl_cons]; exact ih
  have h1 : history a b (List.replicate k Op.clear ++ es.map Op.add) =
      es.foldl Calc.add (Calc.new a b) := by
    unfold history
    rw [List.foldl_append, h0, List.foldl_map]
    rfl
  obtain ⟨g1, g2, -, -⟩ := foldl_add_steps a b es
  obtain ⟨i, hi, hx⟩ := indexOf_spec hid he
  rw [h1]
  unfold Calc.getCsrStep Calc.stepsOf
  rw [g1, g2, hi, Option.bind_some, List.getElem?_map, hx]
  rfl

/-- After a clear the calculator returns for a new element the step of the element that
was there before. -/
theorem csr_step_stale (a b : ℝ) (e e' : Elem) :
    (history a b [.add e, .clear, .add e']).getCsrStep e' = some (computeSteps a b e).1 := by
  simp [history, Calc.op, Calc.getCsrStep, Calc.stepsOf, indexOf, Calc.clear, Calc.new]

/-- A dipole of 1 m, then (after a section without CSR) one of 0.25 m. -/
noncomputable def dipole (id : ℕ) (L : ℝ) : Elem := ⟨id, L, 1, 0, 0, none, true, none, 2, true⟩

/-- The claim that the step belongs to the element fails: the second dipole gets a step
that does not divide its length. -/
theorem csr_step_violated : ∃ (a b : ℝ) (ops : List Op) (e : Elem), 0 < a ∧ 0 < b ∧ e.Ok ∧
    ops.getLast? = some (.add e) ∧ (∀ x, Occurs ops x → x.Ok) ∧
    ∃ d, (history a b ops).getCsrStep e = some d ∧ ¬ Divides d (e.length / (e.nOut.getD 1 : ℕ)) := by
  have ok : ∀ id L, 0 < L → (dipole id L).Ok := fun id L h => ⟨h, by intro n h; simp [dipole] at h⟩
  refine ⟨1 / 10, 1 / 2000, [.add (dipole 0 1), .clear, .add (dipole 1 (1 / 4))],
    dipole 1 (1 / 4), by norm_num, by norm_num, ok _ _ (by norm_num), rfl, ?_, _,
    csr_step_stale _ _ _ _, ?_⟩
  · intro x hx
    simp only [Occurs, List.mem_cons, Op.add.injEq, reduceCtorEq, false_or, List.not_mem_nil,
      or_false] at hx
    rcases hx with rfl | rfl <;> exact ok _ _ (by norm_num)
  · have h1 : (computeSteps (1 / 10) (1 / 2000) (dipole 0 1)).1 = 1 / 10 := by
      unfold computeSteps dipole
      norm_num
    rw [h1]
    rintro ⟨m, hm, h⟩
    simp only [dipole, Option.getD_none, Nat.cast_one, div_one] at h
    have h2 : (m : ℝ) * 2 = 5 := by linarith
    have h3 : m * 2 = 5 := by exact_mod_cast h2
    omega

example : ∃ es : List Elem, Identified es ∧ es.length = 2 ∧ dipole 1 (1 / 4) ∈ es :=
  ⟨[dipole 0 1, dipole 1 (1 / 4)], by intro a ha b hb h; simp at ha hb; rcases ha with rfl | rfl <;> rcases hb with rfl | rfl <;> simp_all [dipole],
    rfl, by simp⟩

/-! ### C68: the reference trajectory -/

/-- The trajectory stays in the bending plane with unit tangents. -/
def Planar (p : Pt) : Prop := p.tan 1 = 0 ∧ Unit p.tan

theorem planar_start : Planar startPt := ⟨rfl, by simp [Unit, startPt]⟩

theorem planar_trajPoint {e : Elem} {p : Pt} (hp : Planar p) (l : ℝ) : Planar (trajPoint e p l) := by
  unfold trajPoint
  split_ifs with h
  · obtain ⟨h1, h2⟩ := hp
    refine ⟨by simp [h1], ?_⟩
    unfold Unit at *
    rw [h1] at h2
    simp only [h1, Matrix.cons_val_zero, Matrix.cons_val_one, Matrix.cons_val]
    have h3 := Real.sin_sq_add_cos_sq (l / (e.length / e.theta))
    linear_combination (Real.sin (l / (e.length / e.theta)) ^ 2 + Real.cos (l / (e.length / e.theta)) ^ 2) * h2 + h3
  · exact hp

/-- An element starts where the previous one ended, with the same direction. -/
theorem trajectory_continuous (e : Elem) (p : Pt) (hp : Planar p) : trajPoint e p 0 = p := by
  unfold trajPoint
  split_ifs with h
  · rcases p with ⟨s, pos, tan⟩
    simp
  · rcases p with ⟨s, pos, tan⟩
    simp

/-- Along an element the position moves with unit speed in the direction of the tangent. -/
theorem trajectory_tangent (e : Elem) (hL : 0 < e.length) (p : Pt) (l : ℝ) (i : Fin 3)
    (hp : p.tan 1 = 0) :
    HasDerivAt (fun l => (trajPoint e p l).pos i) ((trajPoint e p l).tan i) l ∧
    HasDerivAt (fun l => (trajPoint e p l).s) 1 l := by
  by_cases h : e.theta ≠ 0
  · have hr : e.length / e.theta ≠ 0 := div_ne_zero hL.ne' h
    simp only [trajPoint, if_pos h]
    generalize e.length / e.theta = rho at hr
    refine ⟨?_, (hasDerivAt_id l).const_add p.s⟩
    have h1 : HasDerivAt (fun l : ℝ => Real.sin (l / rho)) (Real.cos (l / rho) * (1 / rho)) l :=
      ((hasDerivAt_id l).div_const rho).sin
    have h2 : HasDerivAt (fun l : ℝ => Real.sin (l / (2 * rho)))
        (Real.cos (l / (2 * rho)) * (1 / (2 * rho))) l :=
      ((hasDerivAt_id l).div_const (2 * rho)).sin
    have h3 := (((h1.const_mul (p.tan i)).add ((h2.pow 2).const_mul (2 * (![p.tan 2, 0, -p.tan 0] : Fin 3 → ℝ) i))).const_mul rho).const_add (p.pos i)
    have hs : Real.sin (l / rho) = 2 * Real.sin (l / (2 * rho)) * Real.cos (l / (2 * rho)) := by
      rw [← Real.sin_two_mul]
      congr 1
      field_simp
    refine (h3.congr_deriv ?_).congr_of_eventuallyEq ?_
    · rw [hs]
      push_cast
      field_simp
    · filter_upwards with x
      simp only [Pi.add_apply, Pi.pow_apply]
      ring
  · simp only [trajPoint, if_neg h]
    refine ⟨?_, (hasDerivAt_id l).const_add p.s⟩
    exact (((hasDerivAt_id l).const_mul (p.tan i)).const_add (p.pos i)).congr_deriv (by simp)

/-- Properties of a list of trajectory points of total length `L`. -/
structure Curve (traj : List Pt) (L : ℝ) : Prop where
  head : traj.head? = some startPt
  unit : ∀ p ∈ traj, Planar p
  mono : traj.Pairwise fun p q => p.s < q.s
  last : (traj.getLastD startPt).s = L

theorem Curve.append {traj : List Pt} {L : ℝ} (h : Curve traj L) (e : Elem) (hL : 0 < e.length)
    {ds : ℝ} (hds : 0 < ds) :
    Curve (traj ++ newPoints e (traj.getLastD startPt) ds) (L + e.length) := by
  have hne : traj ≠ [] := by rintro rfl; simpa using h.head
  have hn : 0 < ⌈e.length / ds⌉₊ := Nat.ceil_pos.mpr (div_pos hL hds)
  have hlast : Planar (traj.getLastD startPt) := by
    rw [List.getLastD_eq_getLast?, List.getLast?_eq_some_getLast hne]
    exact h.unit _ (List.getLast_mem hne)
  have hs : ∀ (p : Pt) (l : ℝ), (trajPoint e p l).s = p.s + l := by
    intro p l; unfold trajPoint; split_ifs <;> rfl
  have hstep : 0 < e.length / (⌈e.length / ds⌉₊ : ℝ) := div_pos hL (by exact_mod_cast hn)
  have hle : ∀ p ∈ traj, p.s ≤ L := by
    intro p hp
    have h1 : traj = traj.dropLast ++ [traj.getLast hne] := (List.dropLast_append_getLast hne).symm
    have h2 : (traj.getLast hne).s = L := by
      have := h.last
      rwa [List.getLastD_eq_getLast?, List.getLast?_eq_some_getLast hne] at this
    have h3 := h.mono
    rw [h1, List.pairwise_append] at h3
    rw [h1, List.mem_append, List.mem_singleton] at hp
    rcases hp with hp | rfl
    · exact (h2 ▸ h3.2.2 p hp _ (by simp)).le
    · exact h2.le
  refine ⟨?_, ?_, ?_, ?_⟩
  · rw [List.head?_append_of_ne_nil _ hne, h.head]
  · intro p hp
    rcases List.mem_append.mp hp with hp | hp
    · exact h.unit p hp
    · obtain ⟨j, -, rfl⟩ := List.mem_map.mp hp
      exact planar_trajPoint hlast _
  · rw [List.pairwise_append]
    refine ⟨h.mono, ?_, ?_⟩
    · unfold newPoints
      rw [List.pairwise_map]
      refine List.Pairwise.imp_of_mem ?_ List.pairwise_lt_range
      intro i j hi hj hij
      rw [List.mem_range] at hi hj
      rw [hs, hs, linspace_steps _ _ _ hn hi, linspace_steps _ _ _ hn hj]
      have : (i : ℝ) < j := by exact_mod_cast hij
      nlinarith
    · intro p hp q hq
      obtain ⟨j, hj, rfl⟩ := List.mem_map.mp hq
      rw [List.mem_range] at hj
      rw [hs, linspace_steps _ _ _ hn hj, h.last]
      have := hle p hp
      have : (0 : ℝ) ≤ j := Nat.cast_nonneg j
      nlinarith
  · have hn1 : ⌈e.length / ds⌉₊ - 1 < ⌈e.length / ds⌉₊ := by omega
    have hc : ((⌈e.length / ds⌉₊ - 1 : ℕ) : ℝ) + 1 = ⌈e.length / ds⌉₊ := by
      exact_mod_cast Nat.sub_add_cancel hn
    have hlx : (newPoints e (traj.getLastD startPt) ds).getLast? =
        some (trajPoint e (traj.getLastD startPt) e.length) := by
      unfold newPoints
      rw [List.getLast?_map, List.getLast?_range, if_neg hn.ne', Option.map_some,
        linspace_steps _ _ _ hn hn1, hc]
      congr 2
      field_simp
    rw [List.getLastD_eq_getLast?, List.getLast?_append, hlx, Option.some_or, Option.getD_some, hs,
      h.last]

theorem history_inv {a b : ℝ} (ha : 0 < a) (hb : 0 < b) (ops : List Op)
    (hok : ∀ e, Occurs ops e → e.Ok) :
    Steps (history a b ops) ∧ (history a b ops).csrStep = a ∧ (history a b ops).csrTrajStep = b ∧
    Curve ((history a b ops).refTraj.getD [startPt]) ((lattice ops).map Elem.length).sum ∧
    (history a b ops).elements = lattice ops ∧
    ((history a b ops).refTraj = none ↔ lattice ops = []) := by
  induction ops using List.reverseRecOn with
  | nil =>
    refine ⟨⟨le_refl _, by simp [history, Calc.new]⟩, rfl, rfl, ?_, rfl, by simp [history, lattice, Calc.new]⟩
    refine ⟨rfl, ?_, ?_, ?_⟩
    · intro p hp
      simp only [history, List.foldl_nil, Calc.new, Option.getD_none, List.mem_singleton] at hp
      subst hp
      exact planar_start
    · simp [history, Calc.new]
    · simp [history, Calc.new, lattice, startPt]
  | append_singleton ops o ih =>
    obtain ⟨h1, h2, h3, h4, h5, h6⟩ := ih (fun e h => hok e (List.mem_append_left _ h))
    have hH : history a b (ops ++ [o]) = (history a b ops).op o := by
      simp [history, List.foldl_append]
    rw [hH]
    cases o with
    | add e =>
      have he : e.Ok := hok e (by simp [Occurs])
      have hlat : lattice (ops ++ [.add e]) = lattice ops ++ [e] := by
        simp [lattice, List.foldl_append]
      have hpos := add_step_pos h1 (by rw [h2]; exact ha) (by rw [h3]; exact hb) he
      refine ⟨h1.add (by rw [h2]; exact ha) (by rw [h3]; exact hb) he, h2, h3, ?_, ?_, ?_⟩
      · simp only [Calc.op]
        rw [add_refTraj, Option.getD_some, hlat, List.map_append, List.sum_append]
        simpa using h4.append e he.1 hpos
      · simp only [Calc.op]
        rw [add_elements, h5, hlat]
      · simp only [Calc.op]
        rw [add_refTraj, hlat]
        simp
    | clear =>
      have hlat : lattice (ops ++ [.clear]) = [] := by simp [lattice, List.foldl_append]
      refine ⟨⟨Nat.zero_le _, h1.pos⟩, h2, h3, ?_, by rw [hlat]; rfl, by rw [hlat]; simp [Calc.op, Calc.clear]⟩
      rw [hlat]
      refine ⟨rfl, ?_, ?_, ?_⟩
      · intro p hp
        simp only [Calc.op, Calc.clear, Option.getD_none, List.mem_singleton] at hp
        subst hp
        exact planar_start
      · simp [Calc.op, Calc.clear]
      · simp [Calc.op, Calc.clear, startPt]

/-- For every history of additions and clears: a trajectory exists as soon as an element
has been added since the last clear; it starts at the origin along `z`, every tangent has
unit length, the path length increases strictly from point to point and ends at the sum
of the lengths of the elements. -/
theorem trajectory_unit_speed {a b : ℝ} (ha : 0 < a) (hb : 0 < b) (ops : List Op)
    (hok : ∀ e, Occurs ops e → e.Ok) (hne : lattice ops ≠ []) :
    ∃ traj, (history a b ops).refTraj = some traj ∧ traj.head? = some startPt ∧
      (∀ p ∈ traj, Unit p.tan) ∧ traj.Pairwise (fun p q => p.s < q.s) ∧
      (traj.getLast?.map Pt.s) = some ((lattice ops).map Elem.length).sum := by
  obtain ⟨-, -, -, h4, -, h6⟩ := history_inv ha hb ops hok
  obtain ⟨traj, ht⟩ := Option.ne_none_iff_exists'.mp (mt h6.mp hne)
  rw [ht, Option.getD_some] at h4
  refine ⟨traj, ht, h4.head, fun p hp => (h4.unit p hp).2, h4.mono, ?_⟩
  have hne' : traj ≠ [] := by rintro rfl; simpa using h4.head
  have := h4.last
  rw [List.getLastD_eq_getLast?] at this
  rw [List.getLast?_eq_some_getLast hne'] at this ⊢
  simpa using this

/-- The points added for an element lie on its curve, at multiples of a step of at most
the trajectory step. -/
theorem trajectory_points {a b : ℝ} (ha : 0 < a) (hb : 0 < b) (ops : List Op) {e : Elem}
    (he : e.Ok) (hok : ∀ e, Occurs ops e → e.Ok) :
    ∃ old new n, (history a b ops).refTraj.getD [startPt] = old ∧
      (history a b (ops ++ [.add e])).refTraj = some (old ++ new) ∧ 1 ≤ n ∧ new.length = n ∧
      ∀ j < n, new[j]? = some (trajPoint e (old.getLastD startPt) ((j + 1) * (e.length / n))) := by
  obtain ⟨h1, h2, h3, -, -, -⟩ := history_inv ha hb ops hok
  have hpos := add_step_pos h1 (by rw [h2]; exact ha) (by rw [h3]; exact hb) he
  have hH : history a b (ops ++ [.add e]) = (history a b ops).add e := by
    simp [history, List.foldl_append, Calc.op]
  have hn := Nat.ceil_pos.mpr (div_pos he.1 hpos)
  refine ⟨_, _, _, rfl, by rw [hH, add_refTraj], hn, by simp [newPoints], ?_⟩
  intro j hj
  unfold newPoints
  rw [List.getElem?_map, List.getElem?_range hj, Option.map_some, linspace_steps _ _ _ hn hj]

example : ∃ ops : List Op, (∀ e, Occurs ops e → e.Ok) ∧ lattice ops ≠ [] ∧ ops.length = 3 := by
  refine ⟨[.add (dipole 0 1), .clear, .add (dipole 1 (1 / 4))], ?_, by simp [lattice], rfl⟩
  intro x hx
  simp only [Occurs, List.mem_cons, Op.add.injEq, reduceCtorEq, false_or, List.not_mem_nil,
    or_false] at hx
  rcases hx with rfl | rfl <;> exact ⟨by norm_num [dipole], by intro n h; simp [dipole] at h⟩

/-! ### C69: the start index -/

theorem lastBelow_some {w : ℕ → ℝ} {wMin : ℝ} {n j : ℕ} :
    lastBelow w wMin n = some j ↔ j < n ∧ w j ≤ wMin ∧ ∀ k, j < k → k < n → wMin < w k := by
  classical
  unfold lastBelow
  induction n with
  | zero => simp
  | succ n ih =>
    rw [List.range_succ, List.filter_append]
    by_cases h : w n ≤ wMin
    · have : [n].filter (fun k => decide (w k ≤ wMin)) = [n] := by simp [h]
      rw [this, List.getLast?_append]
      simp only [List.getLast?_singleton, Option.some_or, Option.some.injEq]
      constructor
      · rintro rfl
        exact ⟨by omega, h, fun k h1 h2 => by omega⟩
      · rintro ⟨h1, h2, h3⟩
        by_contra hne
        exact absurd h (not_le.mpr (h3 n (by omega) (by omega)))
    · have : [n].filter (fun k => decide (w k ≤ wMin)) = [] := by simp [h]
      rw [this, List.append_nil, ih]
      constructor
      · rintro ⟨h1, h2, h3⟩
        refine ⟨by omega, h2, fun k hk hk' => ?_⟩
        rcases Nat.lt_succ_iff_lt_or_eq.mp hk' with hk' | rfl
        · exact h3 k hk hk'
        · exact not_le.mp h
      · rintro ⟨h1, h2, h3⟩
        have : j ≠ n := by rintro rfl; exact h h2
        exact ⟨by omega, h2, fun k hk hk' => h3 k hk (by omega)⟩

theorem lastBelow_none {w : ℕ → ℝ} {wMin : ℝ} {n : ℕ} :
    lastBelow w wMin n = none ↔ ∀ k < n, wMin < w k := by
  classical
  unfold lastBelow
  simp [List.getLast?_eq_none_iff, List.filter_eq_nil_iff]

theorem retarded_self (traj : ℕ → Pt) (β : ℝ) (i : ℕ) : retarded traj β i i = 0 := by
  simp [retarded]

/-- Starting the scan at an index that satisfies the condition does not change its result. -/
theorem kernelStart_of_below {traj : ℕ → Pt} {β wMin : ℝ} {i i0 : ℕ} (hi : i0 < i)
    (h : retarded traj β i i0 ≤ wMin) :
    kernelStart traj β wMin i i0 = kernelStart traj β wMin i 0 ∧
      i0 ≤ kernelStart traj β wMin i 0 := by
  have h0 : ∃ j, lastBelow (fun k => retarded traj β i (0 + k)) wMin (i - 0) = some j := by
    rw [← Option.ne_none_iff_exists', Ne, lastBelow_none]
    intro hn
    have := hn i0 (by omega)
    simp only [Nat.zero_add] at this
    linarith
  obtain ⟨j, hj⟩ := h0
  have hj' := lastBelow_some.mp hj
  simp only [Nat.zero_add, Nat.sub_zero] at hj'
  obtain ⟨a1, a2, a3⟩ := hj'
  have hle : i0 ≤ j := by
    by_contra hlt
    have := a3 i0 (by omega) hi
    linarith
  have h1 : lastBelow (fun k => retarded traj β i (i0 + k)) wMin (i - i0) = some (j - i0) := by
    rw [lastBelow_some]
    refine ⟨by omega, ?_, ?_⟩
    · rw [Nat.add_sub_cancel' hle]; exact a2
    · intro k hk hk'
      exact a3 (i0 + k) (by omega) (by omega)
  unfold kernelStart
  rw [h1, hj]
  simp only
  omega

/-- For every trajectory, the estimated start index never exceeds the first index that
enters the kernel, and the kernel is the same as with a scan of the whole trajectory.  The
left edge of the bunch histogram is behind the current position (`wMin < 0`). -/
theorem start_index_exact (traj : ℕ → Pt) (β : ℝ) {wMin : ℝ} (hw : wMin < 0) (i iMin : ℕ) {nTest : ℕ}
    (hn : 2 ≤ nTest) :
    estimateStart traj β wMin i iMin nTest ≤ kernelStart traj β wMin i 0 ∧
    kernelStart traj β wMin i (estimateStart traj β wMin i iMin nTest) =
      kernelStart traj β wMin i 0 := by
  unfold estimateStart
  split_ifs with hi
  · dsimp only
    split
    · rename_i m hm
      obtain ⟨h1, h2, -⟩ := lastBelow_some.mp hm
      have hle : m * i / (nTest - 1) ≤ i := by
        apply Nat.div_le_of_le_mul
        exact Nat.mul_le_mul_right i (by omega)
      have hlt : m * i / (nTest - 1) < i := by
        rcases Nat.lt_or_eq_of_le hle with h | h
        · exact h
        · rw [h, retarded_self] at h2
          linarith
      have := kernelStart_of_below hlt h2
      exact ⟨this.2, this.1⟩
    · exact ⟨Nat.zero_le _, rfl⟩
  · exact ⟨Nat.zero_le _, rfl⟩

/-- A straight trajectory where the estimate skips points. -/
example : ∃ (traj : ℕ → Pt), estimateStart traj 0 (-10) 100 0 11 = 90 := by
  refine ⟨fun k => ⟨k, ![0, 0, 0], ![0, 0, 1]⟩, ?_⟩
  have : lastBelow (fun m => retarded (fun k => ⟨k, ![0, 0, 0], ![0, 0, 1]⟩) 0 100 (m * 100 / (11 - 1))) (-10) 11 = some 9 := by
    rw [lastBelow_some]
    refine ⟨by norm_num, by norm_num [retarded], ?_⟩
    intro k h1 h2
    have : k = 10 := by omega
    subst this
    norm_num [retarded]
  unfold estimateStart
  simp [this]

/-! ### C80: position of the CSR kick -/

/-- Partial: the kick in an element is computed at the sum of the lengths of the elements
before it plus the position in the element, if this element object has not been passed
before.  Missing: beamlines that contain an element object twice, for which the claim
fails (`csr_position_violated`). -/
theorem csr_position_partial {a b : ℝ} (ha : 0 < a) (hb : 0 < b) (ops : List Op) {e : Elem}
    (hok : ∀ x, Occurs (ops ++ [.add e]) x → x.Ok) (hnew : ∀ x ∈ lattice ops, x.id ≠ e.id) (l : ℝ) :
    (history a b (ops ++ [.add e])).position e l = ((lattice ops).map Elem.length).sum + l := by
  have hlat : lattice (ops ++ [.add e]) = lattice ops ++ [e] := by
    simp [lattice, List.foldl_append]
  obtain ⟨-, -, -, -, h5, -⟩ := history_inv ha hb _ hok
  unfold Calc.position
  rw [h5, hlat]
  have h1 : (lattice ops ++ [e]).takeWhile (fun x => decide (x.id ≠ e.id)) = lattice ops := by
    rw [List.takeWhile_append_of_pos (by simpa using hnew)]
    simp
  rw [h1]

/-- A beamline with the same bend twice: in the second pass the kick is computed at the
position of the first pass. -/
theorem csr_position_violated (a b : ℝ) (e d : Elem) (hd : d.id ≠ e.id) (l : ℝ) :
    (history a b [.add e, .add d, .add e]).position e l = l := by
  simp [history, Calc.op, Calc.position, Calc.new]

/-- ... although the position is `L_e + L_d + l`. -/
example : (history 1 1 [.add (dipole 0 1), .add (dipole 1 2), .add (dipole 0 1)]).position (dipole 0 1) 0
    ≠ 1 + 2 + 0 := by
  rw [csr_position_violated _ _ _ _ (by simp [dipole])]
  norm_num

end WakeT.CSR
