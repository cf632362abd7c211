import Verif.Element.Model

/-!
# Model of `Beamline.track`

`wake_t/beamline_elements/beamline.py`.
-/

set_option linter.unusedSectionVars false

namespace WakeT.Beamline

open CSR (Elem Calc)
open Bunch (Bunch)
open Diag (Diag)
open Element (Env Err Opts Result track)

/-- What tracking through an element does to the state of the program (bunches, elements,
diagnostics) and what it returns or raises (call in beamline.py 55-63). -/
abbrev Item (σ ε α : Type) := σ → σ × Except ε (List α)

/-- The loop of `Beamline.track` (beamline.py 53-64): `extend` with the outputs of every
element; an exception ends the loop and discards the outputs. -/
def lineLoop {σ ε α : Type} : List (Item σ ε α) → σ → List α → σ × Except ε (List α)
  | [], w, acc => (w, .ok acc)
  | it :: its, w, acc =>
    match it w with
    | (w', .error x) => (w', .error x)
    | (w', .ok outs) => lineLoop its w' (acc ++ outs)

/-- `Beamline.track` (beamline.py 19-64) without the creation of the diagnostics. -/
def lineTrack {σ ε α : Type} (items : List (Item σ ε α)) (w : σ) : σ × Except ε (List α) :=
  lineLoop items w []

/-- State for beamlines of transfer-map elements: the element objects (the same object can
be in a beamline several times), the CSR calculator, the bunch and the diagnostics (beamline.py
14-17, 49-63). -/
structure World where
  elems : ℕ → Elem
  csr : Calc
  bunch : Bunch
  diag : Option Diag

/-- `element.track(bunches, opmd_diag=..., show_progress_bar=...)` (beamline.py 58-62) for
the transfer-map element `i`. -/
noncomputable def tm (env : Env) (bar : Bool) (i : ℕ) : Item World Err Bunch := fun w =>
  let r := track env (w.elems i) w.csr w.bunch w.diag ⟨false, false, bar⟩
  ({ elems := Function.update w.elems i r.elem, csr := r.csr, bunch := r.bunch, diag := r.diag }, r.out)

/-- `Beamline.track` for transfer-map elements (beamline.py 19-64); `opmd` is whether
`opmd_diag` is set, `diag` the diagnostics that were passed (lines 54-55). -/
noncomputable def trackLine (env : Env) (bar : Bool) (ids : List ℕ) (w : World) (opmd : Bool)
    (diag : Option Diag) : World × Except Err (List Bunch) :=
  let d := if opmd then some (diag.getD Diag.Diag.new) else none
  lineTrack (ids.map (tm env bar)) { w with diag := d }

end WakeT.Beamline
