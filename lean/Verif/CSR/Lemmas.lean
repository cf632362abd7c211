import Verif.CSR.Spec

/-! # Lemmas on the CSR calculator -/

set_option linter.unusedSectionVars false

namespace WakeT.CSR

theorem ceil_divides {x d : ℝ} (hx : 0 < x) (hd : 0 < d) :
    0 < x / ⌈x / d⌉₊ ∧ x / ⌈x / d⌉₊ ≤ d ∧ Divides (x / ⌈x / d⌉₊) x := by
  have h1 : 0 < ⌈x / d⌉₊ := Nat.ceil_pos.mpr (div_pos hx hd)
  have h2 : (0 : ℝ) < ⌈x / d⌉₊ := by exact_mod_cast h1
  refine ⟨div_pos hx h2, ?_, ⌈x / d⌉₊, h1, by field_simp⟩
  rw [div_le_iff₀ h2]
  have h3 := Nat.le_ceil (x / d)
  rw [div_le_iff₀ hd] at h3
  linarith

theorem Divides.trans {a b c : ℝ} (h1 : Divides a b) (h2 : Divides b c) : Divides a c := by
  obtain ⟨m, hm, rfl⟩ := h1
  obtain ⟨n, hn, rfl⟩ := h2
  exact ⟨n * m, Nat.mul_pos hn hm, by push_cast; ring⟩

theorem computeSteps_fit {csrStep csrTrajStep : ℝ} (h1 : 0 < csrStep) (h2 : 0 < csrTrajStep)
    {e : Elem} (he : e.Ok) :
    let r := computeSteps csrStep csrTrajStep e
    0 < r.1 ∧ r.1 ≤ csrStep ∧ Divides r.1 (e.length / (e.nOut.getD 1 : ℕ)) ∧
      0 < r.2 ∧ r.2 ≤ csrTrajStep ∧ Divides r.2 r.1 := by
  obtain ⟨hl, hn⟩ := he
  have key : ∀ ds : ℝ, 0 < ds → (0 < ds / ⌈ds / csrTrajStep⌉₊ ∧ ds / ⌈ds / csrTrajStep⌉₊ ≤ csrTrajStep ∧
      Divides (ds / ⌈ds / csrTrajStep⌉₊) ds) := fun ds h => ceil_divides h h2
  have main : ∀ ds : ℝ, 0 < ds ∧ ds ≤ csrStep ∧ Divides ds (e.length / (e.nOut.getD 1 : ℕ)) →
      0 < ds ∧ ds ≤ csrStep ∧ Divides ds (e.length / (e.nOut.getD 1 : ℕ)) ∧
      0 < ds / ⌈ds / csrTrajStep⌉₊ ∧ ds / ⌈ds / csrTrajStep⌉₊ ≤ csrTrajStep ∧
      Divides (ds / ⌈ds / csrTrajStep⌉₊) ds := fun ds h => ⟨h.1, h.2.1, h.2.2, key ds h.1⟩
  unfold computeSteps
  dsimp only
  apply main
  split
  · rename_i n hN
    have h3 : (0 : ℝ) < n := by exact_mod_cast hn n hN
    simpa [hN] using ceil_divides (div_pos hl h3) h1
  · rename_i hN
    simp only [hN, Option.getD_none, Nat.cast_one, div_one]
    split_ifs with ha hb
    · refine ⟨hl, ha.le, 1, le_refl 1, by simp⟩
    · refine ⟨h1, le_refl _, ⌊e.length / csrStep⌋₊, ?_, ?_⟩
      · rw [Nat.one_le_floor_iff, le_div_iff₀ h1]
        linarith
      · rw [← hb]; field_simp
    · exact ceil_divides hl h1

theorem indexOf_append_self (l : List Elem) (e : Elem) :
    ∃ i < (l ++ [e]).length, indexOf (l ++ [e]) e = some i := by
  have : (indexOf (l ++ [e]) e).isSome := by
    unfold indexOf
    rw [List.findIdx?_isSome]
    simp
  obtain ⟨i, hi⟩ := Option.isSome_iff_exists.mp this
  refine ⟨i, ?_, hi⟩
  exact ((List.findIdx?_eq_some_iff_findIdx_eq.mp hi).1)

@[simp] theorem add_elements (c : Calc) (e : Elem) : (c.add e).elements = c.elements ++ [e] := rfl
@[simp] theorem add_trajSteps (c : Calc) (e : Elem) :
    (c.add e).trajSteps = c.trajSteps ++ [computeSteps c.csrStep c.csrTrajStep e] := rfl
@[simp] theorem add_csrStep (c : Calc) (e : Elem) : (c.add e).csrStep = c.csrStep := rfl
@[simp] theorem add_csrTrajStep (c : Calc) (e : Elem) :
    (c.add e).csrTrajStep = c.csrTrajStep := rfl

theorem stepsOf_congr {c d : Calc} (h1 : c.elements = d.elements) (h2 : c.trajSteps = d.trajSteps)
    (e : Elem) : c.stepsOf e = d.stepsOf e := by
  unfold Calc.stepsOf
  rw [h1, h2]

/-- Well-formed steps: at least one entry per element, all positive. -/
structure Steps (c : Calc) : Prop where
  len : c.elements.length ≤ c.trajSteps.length
  pos : ∀ p ∈ c.trajSteps, 0 < p.1 ∧ 0 < p.2

theorem Steps.add {c : Calc} (h : Steps c) (h1 : 0 < c.csrStep) (h2 : 0 < c.csrTrajStep)
    {e : Elem} (he : e.Ok) : Steps (c.add e) := by
  have hf := computeSteps_fit h1 h2 he
  refine ⟨?_, ?_⟩
  · simp; exact h.len
  · intro p hp
    simp only [add_trajSteps, List.mem_append, List.mem_singleton] at hp
    rcases hp with hp | rfl
    · exact h.pos p hp
    · exact ⟨hf.1, hf.2.2.2.1⟩

/-- The trajectory step that `add` uses. -/
theorem add_step_pos {c : Calc} (h : Steps c) (h1 : 0 < c.csrStep) (h2 : 0 < c.csrTrajStep)
    {e : Elem} (he : e.Ok) : 0 < (((c.add e).stepsOf e).getD (0, 0)).2 := by
  have hs := h.add h1 h2 he
  obtain ⟨i, hi, hx⟩ := indexOf_append_self c.elements e
  have hlt : i < (c.add e).trajSteps.length := by
    have := hs.len
    simp only [add_elements] at this
    omega
  unfold Calc.stepsOf
  rw [add_elements, hx, Option.bind_some, List.getElem?_eq_getElem hlt, Option.getD_some]
  exact (hs.pos _ (List.getElem_mem hlt)).2

/-- Points that `add` appends. -/
noncomputable def newPoints (e : Elem) (start : Pt) (ds : ℝ) : List Pt :=
  (List.range ⌈e.length / ds⌉₊).map fun j =>
    trajPoint e start (linspace (e.length / ⌈e.length / ds⌉₊) e.length ⌈e.length / ds⌉₊ j)

theorem add_refTraj (c : Calc) (e : Elem) :
    (c.add e).refTraj = some (c.refTraj.getD [startPt] ++
      newPoints e ((c.refTraj.getD [startPt]).getLastD startPt)
        (((c.add e).stepsOf e).getD (0, 0)).2) := by
  have h : (c.add e).stepsOf e = (({ c with elements := c.elements ++ [e] } : Calc).setElementSteps e).stepsOf e :=
    stepsOf_congr rfl rfl e
  rw [h]
  rfl

theorem linspace_steps (L : ℝ) (n j : ℕ) (hn : 0 < n) (hj : j < n) :
    linspace (L / n) L n j = (j + 1) * (L / n) := by
  unfold linspace
  split_ifs with h
  · subst h
    have : j = 0 := by omega
    subst this; simp
  · have h1 : (n : ℝ) - 1 ≠ 0 := by
      have : (n : ℝ) ≠ 1 := by exact_mod_cast h
      exact sub_ne_zero.mpr this
    have h2 : (n : ℝ) ≠ 0 := by exact_mod_cast hn.ne'
    field_simp
    ring

end WakeT.CSR
