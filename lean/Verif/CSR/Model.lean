import Verif.Base.Tactics
import Mathlib.Analysis.SpecialFunctions.Trigonometric.Basic
import Mathlib.Algebra.Order.Floor.Semiring
import Mathlib.Data.Fin.VecNotation

/-!
# Model of the CSR calculator

`wake_t/physics_models/collective_effects/csr.py` without the kernel itself: the list of
lattice elements with their steps, the reference trajectory and the choice of the first
trajectory point of the kernel.
-/

set_option linter.unusedSectionVars false

namespace WakeT.CSR

/-- Attributes of a `TMElement` (tm_elements.py 51-71).  `id` is the identity of the
object, by which `list.index` and `is` compare (no `__eq__` is defined); `prints` tells
whether the class implements `_print_element_properties` (the subclasses do, 269-271 does
not). -/
structure Elem where
  id : ℕ
  length : ℝ
  theta : ℝ
  k1 : ℝ
  k2 : ℝ
  gammaRef : Option ℝ
  csrOn : Bool
  nOut : Option ℕ
  order : ℕ
  prints : Bool

/-- A column of the reference trajectory: path length, position, tangent (csr.py 163-190). -/
structure Pt where
  s : ℝ
  pos : Fin 3 → ℝ
  tan : Fin 3 → ℝ

/-- `CSRCalculator` (csr.py 19-30). -/
structure Calc where
  refTraj : Option (List Pt)
  elements : List Elem
  elementSteps : List ℕ
  trajSteps : List (ℝ × ℝ)
  csrStep : ℝ
  csrTrajStep : ℝ

/-- `__init__` with `set_settings` (csr.py 19-30). -/
def Calc.new (csrStep csrTrajStep : ℝ) : Calc := ⟨none, [], [], [], csrStep, csrTrajStep⟩

/-- `set_settings` (csr.py 26-30). -/
def Calc.setSettings (c : Calc) (csrStep csrTrajStep : ℝ) : Calc := { c with csrStep, csrTrajStep }

/-- `list.index(element)`; `none` is the `ValueError` (csr.py 40, 81, 158). -/
def indexOf (l : List Elem) (e : Elem) : Option ℕ := l.findIdx? (fun x => x.id = e.id)

/-- The steps computed by `_set_element_steps` (csr.py 130-146).  `x % d == 0` is that
`x / d` is an integer. -/
noncomputable def computeSteps (csrStep csrTrajStep : ℝ) (e : Elem) : ℝ × ℝ :=
  let ds :=
    match e.nOut with
    | some n =>
      let dsOut := e.length / n
      dsOut / ⌈dsOut / csrStep⌉₊
    | none =>
      if e.length < csrStep then e.length
      else if ¬ (e.length / csrStep = ⌊e.length / csrStep⌋₊) then
        e.length / ⌈e.length / csrStep⌉₊
      else csrStep
  (ds, ds / ⌈ds / csrTrajStep⌉₊)

/-- `_set_element_steps` (csr.py 130-147). -/
noncomputable def Calc.setElementSteps (c : Calc) (e : Elem) : Calc :=
  { c with trajSteps := c.trajSteps ++ [computeSteps c.csrStep c.csrTrajStep e] }

/-- The steps stored for an element: lines 40-41, 81-82 and 158-159 of csr.py. -/
def Calc.stepsOf (c : Calc) (e : Elem) : Option (ℝ × ℝ) :=
  (indexOf c.elements e).bind fun i => c.trajSteps[i]?

/-- `get_csr_step` (csr.py 38-42). -/
def Calc.getCsrStep (c : Calc) (e : Elem) : Option ℝ := (c.stepsOf e).map Prod.fst

/-- `np.linspace(a, b, n)[j]` (csr.py 167). -/
noncomputable def linspace (a b : ℝ) (n j : ℕ) : ℝ :=
  if n = 1 then a else a + j * ((b - a) / (n - 1 : ℝ))

/-- Start of the trajectory (csr.py 163-164). -/
def startPt : Pt := ⟨0, ![0, 0, 0], ![0, 0, 1]⟩

/-- Point of the trajectory at distance `l` behind `p` in a bend or drift
(csr.py 168-188). `np.cross((0, 1, 0), e1)` is `(e1[2], 0, -e1[0])`. -/
noncomputable def trajPoint (e : Elem) (p : Pt) (l : ℝ) : Pt :=
  if e.theta ≠ 0 then
    let rho := e.length / e.theta
    let e2 : Fin 3 → ℝ := ![p.tan 2, 0, -p.tan 0]
    let si := Real.sin (l / rho)
    let co := Real.cos (l / rho)
    let omco := 2 * Real.sin (l / (2 * rho)) ^ 2
    ⟨p.s + l, fun i => p.pos i + rho * (p.tan i * si + e2 i * omco),
      fun i => p.tan i * co + e2 i * si⟩
  else ⟨p.s + l, fun i => p.pos i + p.tan i * l, p.tan⟩

/-- `_calculate_trajectory` (csr.py 149-191); `dsTraj` is the stored step (158-159). -/
noncomputable def Calc.calculateTrajectory (c : Calc) (e : Elem) (dsTraj : ℝ) : Calc :=
  let nSteps := ⌈e.length / dsTraj⌉₊
  let ds := e.length / nSteps
  let traj := c.refTraj.getD [startPt]
  let start := traj.getLastD startPt
  let new := (List.range nSteps).map fun j => trajPoint e start (linspace ds e.length nSteps j)
  { c with refTraj := some (traj ++ new), elementSteps := c.elementSteps ++ [nSteps] }

/-- `add_lattice_element` (csr.py 32-36).  The steps are found because the element has
just been added. -/
noncomputable def Calc.add (c : Calc) (e : Elem) : Calc :=
  let c := { c with elements := c.elements ++ [e] }
  let c := c.setElementSteps e
  c.calculateTrajectory e ((c.stepsOf e).getD (0, 0)).2

/-- `clear` (csr.py 44-54). -/
def Calc.clear (c : Calc) : Calc :=
  { c with refTraj := none, elements := [], elementSteps := [] }

/-- `s_current` of `apply_csr` (csr.py 84-90): path length of the current position. -/
def Calc.position (c : Calc) (e : Elem) (elementPos : ℝ) : ℝ :=
  ((c.elements.takeWhile fun x => x.id ≠ e.id).map Elem.length).sum + elementPos

/-! ### First trajectory point of the kernel -/

/-- `w` of the trajectory point `k` seen from `i` (csr.py 268-279, 413-419). -/
noncomputable def retarded (traj : ℕ → Pt) (β : ℝ) (i k : ℕ) : ℝ :=
  (traj k).s - (traj i).s + β * √(((traj i).pos 0 - (traj k).pos 0) * ((traj i).pos 0 - (traj k).pos 0)
    + ((traj i).pos 1 - (traj k).pos 1) * ((traj i).pos 1 - (traj k).pos 1)
    + ((traj i).pos 2 - (traj k).pos 2) * ((traj i).pos 2 - (traj k).pos 2))

/-- `np.where(w <= wmin)[0][-1]` for an array of `n` values. -/
noncomputable def lastBelow (w : ℕ → ℝ) (wMin : ℝ) (n : ℕ) : Option ℕ :=
  open Classical in ((List.range n).filter fun k => w k ≤ wMin).getLast?

/-- `_estimate_start_index` (csr.py 376-423).  `np.linspace(0, i, n_test, dtype=int32)[m]`
is `⌊m i / (n_test - 1)⌋`. -/
noncomputable def estimateStart (traj : ℕ → Pt) (β wMin : ℝ) (i iMin nTest : ℕ) : ℕ :=
  if iMin < i then
    let idx := fun m => m * i / (nTest - 1)
    match lastBelow (fun m => retarded traj β i (idx m)) wMin nTest with
    | some m => idx m
    | none => 0
  else 0

/-- First index that enters the long-range kernel, when the scan starts at `i0`
(csr.py 279-293). -/
noncomputable def kernelStart (traj : ℕ → Pt) (β wMin : ℝ) (i i0 : ℕ) : ℕ :=
  match lastBelow (fun k => retarded traj β i (i0 + k)) wMin (i - i0) with
  | some j => j + i0
  | none => i0

end WakeT.CSR
