import Verif.CSR.KernelProps
import Mathlib.LinearAlgebra.Pi

/-!
# Symmetries of the CSR energy change
-/

set_option linter.unusedSectionVars false

namespace WakeT.CSR

open Finset

/-! ### The kernel depends only on the geometry of the path behind the particle -/

/-- Specification: up to point `i`, the second path is the first one moved by an isometry. -/
def Congruent (i : ℕ) (t t' : ℕ → Pt) : Prop :=
  ∃ φ : (Fin 3 → ℝ) →ₗ[ℝ] (Fin 3 → ℝ), (∀ u v, dot (φ u) (φ v) = dot u v) ∧ ∃ d : Fin 3 → ℝ, ∀ k ≤ i,
    (t' k).s = (t k).s ∧ (t' k).pos = φ (t k).pos + d ∧ (t' k).tan = φ (t k).tan

theorem Congruent.mono {i j : ℕ} {t t' : ℕ → Pt} (h : Congruent i t t') (hj : j ≤ i) : Congruent j t t' := by
  obtain ⟨φ, h1, d, h2⟩ := h
  exact ⟨φ, h1, d, fun k hk => h2 k (hk.trans hj)⟩

theorem chord_dot (t : ℕ → Pt) (i k : ℕ) :
    chord t i k = √(dot ((t i).pos - (t k).pos) ((t i).pos - (t k).pos)) := rfl

theorem dot_smul_left (a : ℝ) (u v : Fin 3 → ℝ) : dot (a • u) v = a * dot u v := by
  simp [dot]; ring

section congr

variable {i : ℕ} {t t' : ℕ → Pt} (h : Congruent i t t')

include h

theorem retarded_congr (β : ℝ) {k : ℕ} (hk : k ≤ i) : retarded t' β i k = retarded t β i k := by
  obtain ⟨φ, h1, d, h2⟩ := h
  have e : ∀ t : ℕ → Pt, retarded t β i k = (t k).s - (t i).s + β * chord t i k := fun _ => rfl
  rw [e, e, chord_dot, chord_dot, (h2 k hk).1, (h2 i le_rfl).1, (h2 k hk).2.1, (h2 i le_rfl).2.1, add_sub_add_right_eq_sub,
    ← map_sub, h1]

theorem chord_congr {k : ℕ} (hk : k ≤ i) : chord t' i k = chord t i k := by
  obtain ⟨φ, h1, d, h2⟩ := h
  rw [chord_dot, chord_dot, (h2 k hk).2.1, (h2 i le_rfl).2.1, add_sub_add_right_eq_sub, ← map_sub, h1]

theorem kernelAt_congr (γ : ℝ) {k : ℕ} (hk : k ≤ i) : kernelAt t' γ i k = kernelAt t γ i k := by
  have e : ∀ t : ℕ → Pt, kernelAt t γ i k =
      (betaOf γ * ((1 / chord t i k) * dot ((t i).pos - (t k).pos) (t k).tan
        - (1 / chord t i k) * dot ((t i).pos - (t k).pos) (t i).tan)
        - (1 - 1 / γ ^ 2) * (1 - dot (t k).tan (t i).tan) - 1 / γ ^ 2) * (1 / chord t i k)
      - (1 - betaOf γ * ((1 / chord t i k) * dot ((t i).pos - (t k).pos) (t k).tan))
        / retarded t (betaOf γ) i k * (1 / γ ^ 2) := by
    intro t
    rw [← dot_smul_left, ← dot_smul_left]
    have : (fun a => ((t i).pos a - (t k).pos a) * (1 / chord t i k)) =
        (1 / chord t i k) • ((t i).pos - (t k).pos) := by
      funext a
      simp [mul_comm]
    unfold kernelAt
    dsimp only
    rw [this]
  rw [e, e, retarded_congr h _ hk, chord_congr h hk]
  obtain ⟨φ, h1, d, h2⟩ := h
  rw [(h2 k hk).2.1, (h2 i le_rfl).2.1, (h2 k hk).2.2, (h2 i le_rfl).2.2, add_sub_add_right_eq_sub, ← map_sub, h1, h1, h1]

theorem kernelSeg_congr (γ : ℝ) {k : ℕ} (hk : k < i) : kernelSeg t' γ i k = kernelSeg t γ i k := by
  unfold kernelSeg
  rw [kernelAt_congr h γ hk.le]
  have hs : ∀ k ≤ i, (t' k).s = (t k).s := by
    obtain ⟨φ, h1, d, h2⟩ := h
    exact fun k hk => (h2 k hk).1
  rw [hs k hk.le, hs i le_rfl, hs (k + 1) hk, kernelAt_congr h γ (k := k + 1) hk]

theorem longRange_congr (γ : ℝ) (k : ℕ) : longRange t' γ i k = longRange t γ i k := by
  unfold longRange
  exact sum_congr rfl fun m hm => kernelSeg_congr h γ (mem_Ico.mp hm).2

theorem entryLen_congr : entryLen t' i = entryLen t i := by
  obtain ⟨φ, h1, d, h2⟩ := h
  have e : ∀ t : ℕ → Pt, entryLen t i = dot ((t i).pos - (t 0).pos) (t 0).tan := fun _ => rfl
  rw [e, e, (h2 0 (Nat.zero_le _)).2.1, (h2 i le_rfl).2.1, (h2 0 (Nat.zero_le _)).2.2, add_sub_add_right_eq_sub,
    ← map_sub, h1]

theorem wInf_congr : wInf t' i = wInf t i := by
  have h0 := entryLen_congr h
  obtain ⟨φ, h1, d, h2⟩ := h
  unfold wInf
  rw [h0, (h2 0 (Nat.zero_le _)).1, (h2 i le_rfl).1]

theorem entryA2_congr : entryA2 t' i = entryA2 t i := by
  have h0 := entryLen_congr h
  obtain ⟨φ, h1, d, h2⟩ := h
  have e : ∀ t : ℕ → Pt, entryAcross t i = -((t i).pos - (t 0).pos) + entryLen t i • (t 0).tan := fun _ => rfl
  unfold entryA2
  rw [e, e, h0, (h2 0 (Nat.zero_le _)).2.1, (h2 i le_rfl).2.1, (h2 0 (Nat.zero_le _)).2.2, add_sub_add_right_eq_sub,
    ← map_sub, ← map_neg, ← map_smul, ← map_add, h1]

theorem entryUnit_congr : dot (entryUnit t' i) (t' i).tan = dot (entryUnit t i) (t i).tan := by
  have h0 := entryLen_congr h
  have h3 := entryA2_congr h
  obtain ⟨φ, h1, d, h2⟩ := h
  have e : ∀ t : ℕ → Pt, dot (entryUnit t i) (t i).tan =
      (1 / √(entryA2 t i)) * dot (-((t i).pos - (t 0).pos) + entryLen t i • (t 0).tan) (t i).tan := by
    intro t
    rw [← dot_smul_left]
    congr 1
    funext a
    simp [entryUnit, entryAcross, entryVec]
    ring
  rw [e, e, h0, h3, (h2 0 (Nat.zero_le _)).2.1, (h2 i le_rfl).2.1, (h2 0 (Nat.zero_le _)).2.2, (h2 i le_rfl).2.2,
    add_sub_add_right_eq_sub, ← map_sub, ← map_neg, ← map_smul, ← map_add, h1]

theorem shortRange_congr (γ w0 w1 w : ℝ) : shortRange t' γ i w0 w1 w = shortRange t γ i w0 w1 w := by
  have hS : shortS t' γ i = shortS t γ i := by
    funext w
    unfold shortS
    rw [wInf_congr h, entryA2_congr h]
  have hR : shortR t' γ i = shortR t γ i := by
    funext w
    unfold shortR
    rw [hS]
  have hc : dot (t' 0).tan (t' i).tan = dot (t 0).tan (t i).tan := by
    obtain ⟨φ, h1, d, h2⟩ := h
    rw [(h2 0 (Nat.zero_le _)).2.2, (h2 i le_rfl).2.2, h1]
  unfold shortRange
  dsimp only
  rw [hS, hR, hc, wInf_congr h, entryA2_congr h, entryUnit_congr h]

omit h in
theorem lastBelow_congr {w w' : ℕ → ℝ} {n : ℕ} (hw : ∀ k < n, w k = w' k) (x : ℝ) :
    lastBelow w x n = lastBelow w' x n := by
  unfold lastBelow
  congr 1
  apply List.filter_congr
  intro k hk
  rw [hw k (List.mem_range.mp hk)]

omit h in
theorem npInterp_congr {xp xp' fp fp' : ℕ → ℝ} {n : ℕ} (hn : 0 < n) (hx : ∀ k < n, xp k = xp' k)
    (hf : ∀ k < n, fp k = fp' k) (x : ℝ) : npInterp xp fp n x = npInterp xp' fp' n x := by
  unfold npInterp
  rw [lastBelow_congr hx]
  cases hl : lastBelow xp' x n with
  | none => exact hf 0 hn
  | some j =>
    have hj : j < n := by
      have := List.mem_of_getLast? hl
      simpa using (List.mem_filter.mp this).1
    dsimp only
    split_ifs with h1
    · exact hf j hj
    · rw [hf j hj, hf (j + 1) (by omega), hx j hj, hx (j + 1) (by omega)]

theorem estimateStart_congr (β wMin : ℝ) {nTest : ℕ} (hT : 2 ≤ nTest) (iMin : ℕ) :
    estimateStart t' β wMin i iMin nTest = estimateStart t β wMin i iMin nTest := by
  unfold estimateStart
  dsimp only
  rw [lastBelow_congr (w := fun m => retarded t' β i (m * i / (nTest - 1)))
    (w' := fun m => retarded t β i (m * i / (nTest - 1)))]
  intro k hk
  apply retarded_congr h
  apply Nat.div_le_of_le_mul
  exact Nat.mul_le_mul_right _ (by omega)

theorem kernelStart_congr (β wMin : ℝ) (i0 : ℕ) : kernelStart t' β wMin i i0 = kernelStart t β wMin i i0 := by
  unfold kernelStart
  rw [lastBelow_congr (w := fun k => retarded t' β i (i0 + k)) (w' := fun k => retarded t β i (i0 + k))]
  intro k hk
  exact retarded_congr h _ (by omega)

theorem firstPoint_congr (γ wMin : ℝ) : firstPoint t' γ wMin i = firstPoint t γ wMin i := by
  unfold firstPoint
  rw [estimateStart_congr h _ _ (by norm_num), kernelStart_congr h]

omit h in
theorem minOn_congr {w w' : ℕ → ℝ} {j i : ℕ} (hj : j < i) (hw : ∀ k < i, w k = w' k) : minOn w j i = minOn w' j i := by
  unfold minOn
  rw [hw j hj]
  have : ∀ (l : List ℕ) (m : ℝ), (∀ k ∈ l, j + k < i) →
      l.foldl (fun m k => min m (w (j + k))) m = l.foldl (fun m k => min m (w' (j + k))) m := by
    intro l
    induction l with
    | nil => intro m _; rfl
    | cons a l ih =>
      intro m hl
      rw [List.foldl_cons, List.foldl_cons, hw _ (hl a (by simp)), ih _ fun k hk => hl k (by simp [hk])]
  apply this
  intro k hk
  rw [List.mem_range] at hk
  omega

theorem kernelSum_congr (γ : ℝ) (hi : 0 < i) {nBins : ℕ} (hn : 1 ≤ nBins) {hh : ℝ} (hh0 : 0 < hh) (l : ℕ) :
    kernelSum t' γ i nBins hh l = kernelSum t γ i nBins hh l := by
  have hw : (((0 : ℕ) - nBins : ℝ) * hh) < 0 := by
    have : (1 : ℝ) ≤ nBins := by exact_mod_cast hn
    push_cast
    nlinarith
  have hj := firstPoint_lt t γ hw hi
  unfold kernelSum
  dsimp only
  rw [firstPoint_congr h]
  set j := firstPoint t γ (((0 : ℕ) - nBins : ℝ) * hh) i
  rw [minOn_congr (w := retarded t' (betaOf γ) i) (w' := retarded t (betaOf γ) i) hj
    fun k hk => retarded_congr h _ hk.le]
  have hI : ∀ x, npInterp (fun k => retarded t' (betaOf γ) i (j + k)) (fun k => longRange t γ i (j + k)) (i - j) x =
      npInterp (fun k => retarded t (betaOf γ) i (j + k)) (fun k => longRange t γ i (j + k)) (i - j) x := fun x =>
    npInterp_congr (by omega) (fun k hk => retarded_congr h _ (by omega)) (fun k _ => rfl) x
  simp only [longRange_congr h, shortRange_congr h, hI]

theorem kernel_congr (c γ : ℝ) (hi : 0 < i) {nBins : ℕ} (hn : 1 ≤ nBins) {hh : ℝ} (hh0 : 0 < hh) (l : ℕ) :
    kernel c t' γ i nBins hh l = kernel c t γ i nBins hh l := by
  unfold kernel
  have : kernelSum t' γ i nBins hh = kernelSum t γ i nBins hh := funext fun l => kernelSum_congr h γ hi hn hh0 l
  rw [this]

theorem meanKernel_congr (c γ : ℝ) (p : ℕ) {nBins : ℕ} (hn : 1 ≤ nBins) {hh : ℝ} (hh0 : 0 < hh) :
    meanKernel c t' γ p i nBins hh = meanKernel c t γ p i nBins hh := by
  funext l
  unfold meanKernel
  congr 1
  exact sum_congr rfl fun it hit => kernel_congr (h.mono (mem_Ico.mp hit).2) c γ (by omega) hn hh0 l

end congr

/-! ### Mirrored beamlines -/

/-- Specification: the mirrored element, which bends to the other side; a sextupole changes its sign. -/
def Elem.mirror (e : Elem) : Elem := { e with theta := -e.theta, k2 := -e.k2 }

/-- Specification: the same history with all bends to the other side. -/
def Op.mirror : Op → Op
  | .add e => .add e.mirror
  | .clear => .clear

/-- A point on the other side. -/
def Pt.mirror (p : Pt) : Pt := ⟨p.s, ![-p.pos 0, p.pos 1, p.pos 2], ![-p.tan 0, p.tan 1, p.tan 2]⟩

theorem trajPoint_mirror (e : Elem) (p : Pt) (l : ℝ) : trajPoint e.mirror p.mirror l = (trajPoint e p l).mirror := by
  unfold trajPoint
  by_cases h : e.theta = 0
  · rw [if_neg (by simp [Elem.mirror, h]), if_neg (by simp [h])]
    unfold Pt.mirror
    congr 1
    funext a
    fin_cases a <;> simp
    ring
  · rw [if_pos (by simp [Elem.mirror, h]), if_pos h]
    have h1 : l / (e.length / -e.theta) = -(l / (e.length / e.theta)) := by rw [div_neg, div_neg]
    have h2 : l / (2 * (e.length / -e.theta)) = -(l / (2 * (e.length / e.theta))) := by
      rw [div_neg, mul_neg, div_neg]
    unfold Pt.mirror
    dsimp only [Elem.mirror]
    rw [h1, h2, Real.sin_neg, Real.cos_neg, Real.sin_neg]
    congr 1
    · funext a
      fin_cases a
      · simp
        ring
      · simp
        ring
      · simp
        ring
    · funext a
      fin_cases a
      · simp
        ring
      · simp
      · simp

theorem indexOf_mirror (l : List Elem) (e : Elem) : indexOf (l.map Elem.mirror) e.mirror = indexOf l e := by
  unfold indexOf
  rw [List.findIdx?_map]
  rfl

/-- The calculator of the mirrored beamline. -/
def Calc.mirror (c : Calc) : Calc :=
  { c with refTraj := c.refTraj.map (List.map Pt.mirror), elements := c.elements.map Elem.mirror }

theorem stepsOf_mirror (c : Calc) (e : Elem) : c.mirror.stepsOf e.mirror = c.stepsOf e := by
  unfold Calc.stepsOf
  dsimp only [Calc.mirror]
  rw [indexOf_mirror]

theorem startPt_mirror : startPt.mirror = startPt := by
  unfold startPt Pt.mirror
  simp

theorem getLastD_mirror (l : List Pt) : (l.map Pt.mirror).getLastD startPt = (l.getLastD startPt).mirror := by
  rw [List.getLastD_eq_getLast?, List.getLastD_eq_getLast?, List.getLast?_map]
  cases l.getLast? with
  | none => exact startPt_mirror.symm
  | some p => rfl

theorem add_mirror (c : Calc) (e : Elem) : c.mirror.add e.mirror = (c.add e).mirror := by
  unfold Calc.add
  dsimp only
  have h1 : ({ c.mirror with elements := c.mirror.elements ++ [e.mirror] } : Calc).setElementSteps e.mirror =
      (({ c with elements := c.elements ++ [e] } : Calc).setElementSteps e).mirror := by
    have h0 : computeSteps c.csrStep c.csrTrajStep e.mirror = computeSteps c.csrStep c.csrTrajStep e := rfl
    simp [Calc.setElementSteps, Calc.mirror, h0]
  rw [h1, stepsOf_mirror]
  set c1 := ({ c with elements := c.elements ++ [e] } : Calc).setElementSteps e
  unfold Calc.calculateTrajectory
  have h2 : c1.mirror.refTraj.getD [startPt] = (c1.refTraj.getD [startPt]).map Pt.mirror := by
    dsimp only [Calc.mirror]
    cases c1.refTraj with
    | none => simp [startPt_mirror]
    | some t => simp
  have h3 : e.mirror.length = e.length := rfl
  dsimp only
  rw [h2, getLastD_mirror, h3]
  simp only [trajPoint_mirror]
  unfold Calc.mirror
  simp [Function.comp_def]

theorem history_mirror (a b : ℝ) (ops : List Op) :
    history a b (ops.map Op.mirror) = (history a b ops).mirror := by
  induction ops using List.reverseRecOn with
  | nil => rfl
  | append_singleton ops op ih =>
    simp only [history, List.map_append, List.map_cons, List.map_nil, List.foldl_append, List.foldl_cons,
      List.foldl_nil] at ih ⊢
    rw [ih]
    cases op with
    | add e => exact add_mirror _ e
    | clear => rfl

/-- Mirroring as a linear map. -/
def mirrorMap : (Fin 3 → ℝ) →ₗ[ℝ] (Fin 3 → ℝ) where
  toFun v := ![-v 0, v 1, v 2]
  map_add' u v := by
    funext a
    fin_cases a <;> simp
    ring
  map_smul' c v := by
    funext a
    fin_cases a <;> simp

theorem nearest_map {f : Pt → Pt} (hf : ∀ p, (f p).s = p.s) (h0 : f startPt = startPt) (l : List Pt) (x : ℝ) :
    nearest (l.map f) x = nearest l x := by
  have h : ∀ k, ((l.map f).getD k startPt).s = (l.getD k startPt).s := by
    intro k
    simp only [List.getD, List.getElem?_map]
    cases l[k]? with
    | none => rfl
    | some p => exact hf p
  unfold nearest
  simp only [h, List.length_map]

/-- The energy change of a bunch in the mirrored beamline. -/
theorem applyCsr_mirror (k : Calc) (c : ℝ) {nBins : ℕ} (hn : 1 ≤ nBins) (e : Elem) (l γ : ℝ) (tau q : ℕ → ℝ) (n : ℕ) :
    k.mirror.applyCsr c nBins e.mirror l γ tau q n = k.applyCsr c nBins e l γ tau q n := by
  have hbs := binSize_pos (fun p => -tau p) n hn
  have hpos : k.mirror.position e.mirror l = k.position e l := by
    unfold Calc.position
    dsimp only [Calc.mirror]
    rw [List.takeWhile_map, List.map_map]
    rfl
  unfold Calc.applyCsr
  rw [stepsOf_mirror, hpos]
  cases k.stepsOf e with
  | none => rfl
  | some st =>
  have ht : k.mirror.refTraj = k.refTraj.map (List.map Pt.mirror) := rfl
  rw [ht]
  cases k.refTraj with
  | none => rfl
  | some traj =>
  simp only [Option.map_some, Option.bind_eq_bind, Option.bind_some]
  rw [nearest_map (f := Pt.mirror) (fun _ => rfl) startPt_mirror, nearest_map (f := Pt.mirror) (fun _ => rfl) startPt_mirror]
  have hmk : ∀ p i, meanKernel c (fun m => (traj.map Pt.mirror).getD m startPt) γ p i nBins (binSize (fun p => -tau p) n nBins)
      = meanKernel c (fun m => traj.getD m startPt) γ p i nBins (binSize (fun p => -tau p) n nBins) := by
    intro p i
    refine meanKernel_congr ⟨mirrorMap, ?_, 0, ?_⟩ c γ p hn hbs
    · intro u v
      simp [mirrorMap, dot]
    · intro m _
      have : (traj.map Pt.mirror).getD m startPt = (traj.getD m startPt).mirror := by
        simp only [List.getD, List.getElem?_map]
        cases traj[m]? with
        | none => exact startPt_mirror.symm
        | some p => rfl
      rw [this]
      refine ⟨rfl, ?_, rfl⟩
      rw [add_zero]
      rfl
  simp only [hmk]

/-- The energy change of a bunch is the same if all bends bend to the other side. -/
theorem csr_mirror (a b : ℝ) (ops : List Op) (c : ℝ) {nBins : ℕ} (hn : 1 ≤ nBins) (e : Elem) (l γ : ℝ)
    (tau q : ℕ → ℝ) (n : ℕ) :
    (history a b (ops.map Op.mirror)).applyCsr c nBins e.mirror l γ tau q n =
      (history a b ops).applyCsr c nBins e l γ tau q n := by
  rw [history_mirror]
  exact applyCsr_mirror _ c hn e l γ tau q n

/-- A chicane magnet changes when it is mirrored. -/
example : ∃ e : Elem, e.mirror ≠ e := by
  refine ⟨⟨0, 1, 1 / 10, 0, 0, none, true, none, 2, true⟩, fun h => ?_⟩
  have := congrArg Elem.theta h
  norm_num [Elem.mirror] at this

/-! ### Elements further downstream -/

theorem takeWhile_append_mem {α : Type*} {p : α → Bool} {l r : List α} (h : ∃ y ∈ l, p y = false) :
    (l ++ r).takeWhile p = l.takeWhile p := by
  induction l with
  | nil => simp at h
  | cons a l ih =>
    rw [List.cons_append, List.takeWhile_cons, List.takeWhile_cons]
    rcases hp : p a with _ | _
    · rfl
    · simp only [if_true]
      rw [ih]
      obtain ⟨y, hy, hy'⟩ := h
      rcases List.mem_cons.mp hy with rfl | hy
      · rw [hp] at hy'
        exact absurd hy' (by simp)
      · exact ⟨y, hy, hy'⟩

/-- What later elements leave alone. -/
theorem history_later {a b : ℝ} {ops : List Op} {e : Elem} {st : ℝ × ℝ} {traj : List Pt} (later : List Elem)
    (hst : (history a b ops).stepsOf e = some st) (htr : (history a b ops).refTraj = some traj) (l : ℝ) :
    (history a b (ops ++ later.map .add)).stepsOf e = some st ∧
      (history a b (ops ++ later.map .add)).position e l = (history a b ops).position e l ∧
      ∃ more, (history a b (ops ++ later.map .add)).refTraj = some (traj ++ more) := by
  induction later using List.reverseRecOn with
  | nil => exact ⟨by simpa using hst, by simp, [], by simpa using htr⟩
  | append_singleton later x ih =>
    obtain ⟨h1, h2, more, h3⟩ := ih
    have hH : history a b (ops ++ (later ++ [x]).map .add) = (history a b (ops ++ later.map .add)).add x := by
      simp [history, List.foldl_append, Calc.op]
    rw [hH]
    set k := history a b (ops ++ later.map .add)
    have h4 : (k.add x).elements = k.elements ++ [x] := rfl
    have h5 : (k.add x).trajSteps = k.trajSteps ++ [computeSteps k.csrStep k.csrTrajStep x] := rfl
    unfold Calc.stepsOf at h1
    obtain ⟨i, h6, h7⟩ := Option.bind_eq_some_iff.mp h1
    refine ⟨?_, ?_, ?_⟩
    · unfold Calc.stepsOf
      have h8 : indexOf (k.elements ++ [x]) e = some i := by
        unfold indexOf at h6 ⊢
        rw [List.findIdx?_append, h6]
        rfl
      rw [h4, h5, h8, Option.bind_some, List.getElem?_append_left (List.getElem?_eq_some_iff.mp h7).1, h7]
    · rw [← h2]
      unfold Calc.position
      rw [h4, takeWhile_append_mem]
      obtain ⟨y, hy⟩ := (List.findIdx?_eq_some_iff_getElem.mp h6)
      exact ⟨_, List.getElem_mem y, by simpa using hy.1⟩
    · rw [add_refTraj, h3, Option.getD_some, List.append_assoc]
      exact ⟨_, rfl⟩

theorem lattice_add (ops : List Op) (e : Elem) : lattice (ops ++ [.add e]) = lattice ops ++ [e] := by
  simp [lattice, List.foldl_append]

/-- Elements further downstream have no influence on the energy change of a bunch. -/
theorem csr_upstream {a b : ℝ} (ha : 0 < a) (hb : 0 < b) (ops : List Op) {e : Elem} (later : List Elem)
    (hok : ∀ x, Occurs (ops ++ [.add e] ++ later.map .add) x → x.Ok) (hnew : ∀ x ∈ lattice ops, x.id ≠ e.id)
    {ds dt : ℝ} (hst : (history a b (ops ++ [.add e])).stepsOf e = some (ds, dt)) (h1 : Divides dt ds)
    (h2 : Divides ds e.length) {k : ℕ} (hk : 1 ≤ k) (hkL : k * ds ≤ e.length) (c γ : ℝ) {nBins : ℕ}
    (hn : 1 ≤ nBins) (tau q : ℕ → ℝ) (n : ℕ) :
    (history a b (ops ++ [.add e] ++ later.map .add)).applyCsr c nBins e (k * ds) γ tau q n =
      (history a b (ops ++ [.add e])).applyCsr c nBins e (k * ds) γ tau q n := by
  have hok' : ∀ x, Occurs (ops ++ [.add e]) x → x.Ok := fun x hx => hok x (List.mem_append_left _ hx)
  obtain ⟨traj, htr, p, i, hpi, hi, hs1, hs2⟩ := step_points ha hb ops hok' hst h1 h2 hk hkL
  obtain ⟨-, -, -, hC, -, -⟩ := history_inv ha hb _ hok'
  obtain ⟨-, -, -, hC', -, -⟩ := history_inv ha hb _ hok
  obtain ⟨hst', hpos, more, htr'⟩ := history_later later hst htr (k * ds)
  rw [htr, Option.getD_some] at hC
  rw [htr', Option.getD_some] at hC'
  have hp := csr_position_partial ha hb ops hok' hnew (k * ds)
  have hbs := binSize_pos (fun p => -tau p) n hn
  have hget : ∀ m < traj.length, (traj ++ more).getD m startPt = traj.getD m startPt := by
    intro m hm
    simp only [List.getD, List.getElem?_append_left hm]
  have hi' : i < (traj ++ more).length := by rw [List.length_append]; omega
  have e1 := nearest_hit hC hi
  have e2 := nearest_hit hC (hpi.trans hi)
  have e3 := nearest_hit hC' hi'
  have e4 := nearest_hit hC' (hpi.trans hi')
  rw [hs1] at e1
  rw [hs2] at e2
  rw [hget i hi, hs1] at e3
  rw [hget p (hpi.trans hi), hs2] at e4
  unfold Calc.applyCsr
  simp only [hst, htr, hst', htr', hpos, hp, Option.bind_eq_bind, Option.bind_some, e1, e2, e3, e4]
  have hmk : meanKernel c (fun m => (traj ++ more).getD m startPt) γ p i nBins (binSize (fun p => -tau p) n nBins)
      = meanKernel c (fun m => traj.getD m startPt) γ p i nBins (binSize (fun p => -tau p) n nBins) := by
    refine meanKernel_congr ⟨LinearMap.id, fun _ _ => rfl, 0, ?_⟩ c γ p hn hbs
    intro m hm
    rw [hget m (by omega)]
    exact ⟨rfl, by simp, rfl⟩
  rw [hmk]

end WakeT.CSR
