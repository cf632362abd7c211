import Verif.CSR.Model
import Verif.TransferMatrix.Model
import Verif.Diag.Model

/-!
# Model of `TMElement.track`

`wake_t/beamline_elements/tm_elements.py`.  Bunch matrices are treated column by column:
a matrix is a function from particles to the six coordinates.  Sharing of the array of
weights between the input bunch and the outputs is not modelled.
-/

set_option linter.unusedSectionVars false

namespace WakeT.Element

open CSR (Elem Calc)
open Bunch (Bunch init average)
open TransferMatrix (V6 transferMap toOcelot fromOcelot rotXZ)
open Diag (Diag)
open Matrix

/-- Columns of a bunch matrix (tm_elements.py 188-196). -/
abbrev Cols := ℕ → V6

/-- What is not modelled in detail: `c`, the speed of light; `div`, the floating-point
quotient of line 209 (in exact arithmetic `fun a b => a / b`); `kick`, the change of the
relative momentum computed by `apply_csr` (csr.py 56-127) from the calculator, the
element, the reference energy, the charges, the number of particles, the position in the
element and the matrix. -/
structure Env where
  c : ℝ
  div : ℝ → ℝ → ℝ
  kick : Calc → Elem → ℝ → (ℕ → ℝ) → ℕ → ℝ → Cols → ℕ → ℝ

/-- Exceptions (tm_elements.py 200, 209, 271; csr.py 40, 81). -/
inductive Err
  /-- `ZeroDivisionError` for `n_out=0` or `length=0`. -/
  | zeroDivision
  /-- `NotImplementedError` of `_print_element_properties`. -/
  | notImplemented
  deriving DecidableEq

/-- Arguments of `track` (tm_elements.py 73-81); `bar` is `show_progress_bar`. -/
structure Opts where
  backtrack : Bool
  outInitial : Bool
  bar : Bool

/-- `get_6D_matrix`, displaced and rotated (tm_elements.py 188-195). -/
noncomputable def localCols (b : Bunch) : Cols := fun i =>
  let v : V6 := fun r => b.get6D r i
  let v : V6 := fun r => if r = 0 then v r - b.xRef else v r
  if b.thetaRef ≠ 0 then rotXZ (-b.thetaRef) *ᵥ v else v

/-- `np.average(g, weights=w)` (bunch_manipulation.py 17-19). -/
noncomputable def averageGamma (b : Bunch) : ℝ :=
  average b.n (fun i => √(1 + localCols b i 1 ^ 2 + localCols b i 3 ^ 2 + localCols b i 5 ^ 2)) b.w

/-- `_determine_steps` (tm_elements.py 198-219): `l_step`, the number of tracking steps
and the stride of the outputs (zero: no output).  The fractions are those of line 211. -/
noncomputable def determineSteps (env : Env) (csr : Calc) (e : Elem) : ℝ × ℕ × ℕ :=
  let base : ℝ × ℕ × ℕ :=
    match e.nOut with
    | some n => (e.length / n, n, 1)
    | none => (e.length, 1, 0)
  if e.csrOn then
    let step := (csr.getCsrStep e).getD 0
    let nCsr := ⌊env.div e.length step⌋₊
    let frac :=
      match e.nOut with
      | some n => nCsr / n
      | none => 0
    (step, nCsr, frac)
  else base

/-- Whether step `i` is in `track_steps[::-frac]` (tm_elements.py 214-218). -/
def isOutput (n frac i : ℕ) : Bool := frac ≠ 0 ∧ (n - 1 - i) % frac = 0

/-- Reference angle and displacement after a distance (tm_elements.py 236-251). -/
noncomputable def reference (e : Elem) (thetaRef xRef dist : ℝ) : ℝ × ℝ :=
  if e.theta ≠ 0 then
    let thetaStep := e.theta * dist / e.length
    let rho := |e.length / e.theta|
    let theta' := thetaRef + thetaStep
    let sign := -thetaStep / |thetaStep|
    (theta', xRef + sign * rho * (Real.cos theta' - Real.cos thetaRef))
  else (thetaRef, xRef + dist * Real.sin thetaRef)

/-- `_create_new_bunch` (tm_elements.py 235-267). -/
noncomputable def createBunch (e : Elem) (old : Bunch) (M : Cols) (dist : ℝ) : Bunch :=
  let ref := reference e old.thetaRef old.xRef dist
  let M : Cols := fun i => if ref.1 ≠ 0 then rotXZ ref.1 *ᵥ M i else M i
  let M : Cols := fun i r => if r = 0 then M i r + ref.2 else M i r
  let new := (init old.n old.w
    (fun i => { x := M i 0, y := M i 2, xi := M i 4, px := M i 1, py := M i 3, pz := M i 5 })
    none (old.propDistance + dist) 0 none (some old.name) old.qSpecies old.mSpecies 0).1
  { new with thetaRef := ref.1, xRef := ref.2 }

/-- `_update_input_bunch` (tm_elements.py 221-233). -/
noncomputable def updateBunch (e : Elem) (gammaRef : ℝ) (b : Bunch) (M : Cols) (outs : List Bunch) : Bunch :=
  let last :=
    match outs.getLast? with
    | none => createBunch e b (fun i => fromOcelot gammaRef (M i)) e.length
    | some o => (o.copy 0).1
  { b with n := last.n, ph := last.ph, propDistance := last.propDistance
           thetaRef := last.thetaRef, xRef := last.xRef }

/-- State of the loop tm_elements.py 151-174. -/
structure Loop where
  M : Cols
  outs : List Bunch
  diag : Option Diag

/-- `write_diagnostics` if diagnostics are on; a single bunch has no duplicate name
(tm_elements.py 148-150, 170-172). -/
noncomputable def writeOne (env : Env) (d : Option Diag) (time dt : ℝ) (b : Bunch) : Option Diag :=
  d.map fun d => (d.write env.c time dt [b]).1

/-- One iteration of the loop (tm_elements.py 151-174). -/
noncomputable def trackStep (env : Env) (csr : Calc) (e : Elem) (gammaRef : ℝ) (b : Bunch)
    (backtrack : Bool) (steps : ℝ × ℕ × ℕ) (i : ℕ) (s : Loop) : Loop :=
  let lStep := steps.1
  let lCurr := (i + 1) * lStep * (if backtrack then -1 else 1)
  let M : Cols := fun j =>
    transferMap lStep e.length (-e.theta) e.k1 e.k2 gammaRef e.order (s.M j)
  let M : Cols :=
    if e.csrOn then
      fun j r => if r = 5 then M j r + env.kick csr e gammaRef b.q b.n lCurr M j else M j r
    else M
  if isOutput steps.2.1 steps.2.2 i then
    let new := createBunch e b (fun j => fromOcelot gammaRef (M j)) lCurr
    ⟨M, s.outs ++ [new], writeOne env s.diag (lCurr / env.c) (lStep / env.c) new⟩
  else ⟨M, s.outs, s.diag⟩

/-- The loop over the first `n` steps (tm_elements.py 151-174). -/
noncomputable def trackLoop (env : Env) (csr : Calc) (e : Elem) (gammaRef : ℝ) (b : Bunch)
    (backtrack : Bool) (steps : ℝ × ℕ × ℕ) : ℕ → Loop → Loop
  | 0, s => s
  | n + 1, s => trackStep env csr e gammaRef b backtrack steps n
      (trackLoop env csr e gammaRef b backtrack steps n s)

/-- What is left after a call of `track`: the element (its reference energy may have been
set), the shared CSR calculator, the tracked bunch, the diagnostics, and the outputs or
the exception (tm_elements.py 176-186). -/
structure Result where
  elem : Elem
  csr : Calc
  bunch : Bunch
  diag : Option Diag
  out : Except Err (List Bunch)

/-- `TMElement.track` (tm_elements.py 73-186).  `opmd_diag=True` is a new `Diag`.  For
`n_out=0` or `length=0` the exception is raised in different places (csr.py 139,
tm_elements.py 200, transfer_matrices.py 32); here it is raised in one place. -/
noncomputable def track (env : Env) (e : Elem) (csr : Calc) (b : Bunch) (diag : Option Diag)
    (o : Opts) : Result :=
  let gammaRef := e.gammaRef.getD (averageGamma b)
  let M : Cols := fun i => toOcelot gammaRef (localCols b i)
  let e := { e with gammaRef := some gammaRef }
  let csr := if e.csrOn then csr.add e else csr.clear
  if e.nOut = some 0 ∨ e.length = 0 then ⟨e, csr, b, diag, .error .zeroDivision⟩
  else
    let steps := determineSteps env csr e
    if o.bar && !e.prints then ⟨e, csr, b, diag, .error .notImplemented⟩
    else
      let s : Loop :=
        if o.outInitial then
          let b0 := (b.copy 0).1
          ⟨M, [b0], writeOne env diag 0 (steps.1 / env.c) b0⟩
        else ⟨M, [], diag⟩
      let s := trackLoop env csr e gammaRef b o.backtrack steps steps.2.1 s
      ⟨e, csr, updateBunch e gammaRef b s.M s.outs,
        s.diag.map fun d => d.increaseZ e.length, .ok s.outs⟩

end WakeT.Element
