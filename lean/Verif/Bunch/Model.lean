import Verif.Push.Model
import Mathlib.Algebra.BigOperators.Group.Finset.Basic
import Mathlib.Data.Fin.VecNotation

/-!
# Model of `ParticleBunch`

`wake_t/particles/particle_bunch.py`.  The coordinate arrays are one array of
records, of which the first `n` entries exist.  Not modelled: units, plotting,
sharing of arrays with the caller.
-/

set_option linter.unusedSectionVars false

namespace WakeT.Bunch

open Fields (EB)
open Push (Ph Bufs PField Const Sched)

/-- `ParticleBunch` (particle_bunch.py 86-111).  The preallocated arrays (323-381) are
present with their length once they have been allocated. -/
structure Bunch where
  n : ℕ
  ph : ℕ → Ph
  w : ℕ → ℝ
  tags : Option (List ℕ)
  propDistance : ℝ
  tFlight : ℝ
  zInjection : Option ℝ
  xRef : ℝ
  thetaRef : ℝ
  name : String
  qSpecies : ℝ
  mSpecies : ℝ
  fieldArrays : Option (ℕ × (ℕ → EB ℝ))
  rk4Arrays : Option (ℕ × Bufs)

/-- Ways in which methods of a bunch fail (particle_bunch.py 225, 238, 286, 291-296). -/
inductive Err
  /-- `ValueError`: unknown pusher. -/
  | unknownPusher
  /-- `ValueError`: `np.amax` of an empty array. -/
  | emptyArray
  /-- A compiled loop leaves the preallocated arrays.  The code has no such
  error: numba does not check bounds and the behaviour is undefined. -/
  | outOfBounds
  deriving DecidableEq

/-- `set_name` (particle_bunch.py 131-136): the name and the new value of the class
attribute `_n_unnamed`. -/
def setName (name : Option String) (nUnnamed : ℕ) : String × ℕ :=
  match name with
  | none => ("elec_bunch_" ++ Nat.repr nUnnamed, nUnnamed + 1)
  | some s => (s, nUnnamed)

/-- `__init__` with coordinate arrays (particle_bunch.py 66-111). -/
def init (n : ℕ) (w : ℕ → ℝ) (ph : ℕ → Ph) (tags : Option (List ℕ)) (propDistance tFlight : ℝ)
    (zInjection : Option ℝ) (name : Option String) (qSpecies mSpecies : ℝ) (nUnnamed : ℕ) :
    Bunch × ℕ :=
  let nm := setName name nUnnamed
  ({ n, ph, w, tags, propDistance, tFlight, zInjection, xRef := 0, thetaRef := 0, name := nm.1,
     qSpecies, mSpecies, fieldArrays := none, rk4Arrays := none }, nm.2)

/-- `copy` (particle_bunch.py 300-321): the new bunch and the class attribute
`_n_unnamed`. -/
def Bunch.copy (b : Bunch) (nUnnamed : ℕ) : Bunch × ℕ :=
  let r := init b.n b.w b.ph none b.propDistance 0 none (some b.name) b.qSpecies b.mSpecies nUnnamed
  ({ r.1 with xRef := b.xRef, thetaRef := b.thetaRef }, r.2)

/-! ### Charge -/

/-- Getter of `q` (particle_bunch.py 113-120). -/
def Bunch.q (b : Bunch) (i : ℕ) : ℝ := b.w i * b.qSpecies

/-- Setter of `q` (particle_bunch.py 122-129). -/
noncomputable def Bunch.setQ (b : Bunch) (qNew : ℕ → ℝ) : Bunch :=
  { b with w := fun i => |qNew i / b.qSpecies| }

/-! ### Matrices -/

/-- A matrix with `r` rows (particle_bunch.py 199-202). -/
abbrev Mat (r : ℕ) := Fin r → ℕ → ℝ

/-- `set_phase_space_from_matrix` (particle_bunch.py 147-158); `n'` is the number of
columns. -/
def Bunch.setMatrix (b : Bunch) (M : Mat 6) (n' : ℕ) : Bunch :=
  { b with
    n := n'
    ph := fun i =>
      { x := M 0 i, y := M 2 i, xi := M 4 i, px := M 1 i, py := M 3 i, pz := M 5 i } }

/-- `get_6D_matrix` (particle_bunch.py 204-209). -/
def Bunch.get6D (b : Bunch) : Mat 6 :=
  ![fun i => (b.ph i).x, fun i => (b.ph i).px, fun i => (b.ph i).y, fun i => (b.ph i).py,
    fun i => (b.ph i).xi, fun i => (b.ph i).pz]

/-- `get_6D_matrix_with_charge` (particle_bunch.py 211-217). -/
def Bunch.get6DWithCharge (b : Bunch) : Mat 7 :=
  ![fun i => (b.ph i).x, fun i => (b.ph i).px, fun i => (b.ph i).y, fun i => (b.ph i).py,
    fun i => (b.ph i).xi, fun i => (b.ph i).pz, fun i => b.w i * b.qSpecies]

/-- `set_bunch_matrix` (particle_bunch.py 189-197). -/
noncomputable def Bunch.setBunchMatrix (b : Bunch) (M : Mat 7) (n' : ℕ) : Bunch :=
  { b with
    n := n'
    ph := fun i =>
      { x := M 0 i, y := M 1 i, xi := M 2 i, px := M 3 i, py := M 4 i, pz := M 5 i }
    w := fun i => M 6 i / b.qSpecies }

/-- `get_bunch_matrix` (particle_bunch.py 199-202). -/
def Bunch.getBunchMatrix (b : Bunch) : Mat 7 :=
  ![fun i => (b.ph i).x, fun i => (b.ph i).y, fun i => (b.ph i).xi, fun i => (b.ph i).px,
    fun i => (b.ph i).py, fun i => (b.ph i).pz, fun i => b.w i * b.qSpecies]

/-- `np.average(a, weights=w)`; the caller is responsible for a nonzero total
weight (numpy raises `ZeroDivisionError` otherwise) (particle_bunch.py 225, 238). -/
noncomputable def average (n : ℕ) (a w : ℕ → ℝ) : ℝ :=
  (∑ i ∈ Finset.range n, a i * w i) / ∑ i ∈ Finset.range n, w i

/-- `get_alternative_6D_matrix` (particle_bunch.py 219-230). -/
noncomputable def Bunch.getAlternative (b : Bunch) : Mat 6 × ℝ :=
  let g := fun i => √(1 + (b.ph i).px ^ 2 + (b.ph i).py ^ 2 + (b.ph i).pz ^ 2)
  let gAvg := average b.n g b.w
  let bAvg := √(1 - 1 / gAvg ^ 2)
  let dp := fun i => (g i - gAvg) / (gAvg * bAvg)
  let pKin := fun i => √(g i ^ 2 - 1)
  (![fun i => (b.ph i).x, fun i => (b.ph i).px / pKin i, fun i => (b.ph i).y,
    fun i => (b.ph i).py / pKin i, fun i => (b.ph i).xi, dp], gAvg)

/-- `set_phase_space_from_alternative_matrix` (particle_bunch.py 160-187). -/
noncomputable def Bunch.setAlternative (b : Bunch) (M : Mat 6) (n' : ℕ) (gammaRef : ℝ) : Bunch :=
  let gamma := fun i => (M 5 i + 1) * gammaRef
  let pKin := fun i => √(gamma i ^ 2 - 1)
  { b with
    n := n'
    ph := fun i =>
      let px := M 1 i * pKin i
      let py := M 3 i * pKin i
      { x := M 0 i, px := px, y := M 2 i, py := py, xi := M 4 i
        pz := √(gamma i ^ 2 - px ^ 2 - py ^ 2 - 1) } }

/-! ### Motion -/

/-- `reposition_xi` (particle_bunch.py 236-240). -/
noncomputable def Bunch.repositionXi (b : Bunch) (xiC : ℝ) : Bunch :=
  let d := xiC - average b.n (fun i => (b.ph i).xi) b.w
  { b with ph := fun i => { b.ph i with xi := (b.ph i).xi + d } }

/-- `np.amax(self.xi)`, which raises for an empty array (particle_bunch.py 286). -/
noncomputable def amax (n : ℕ) (a : ℕ → ℝ) : Option ℝ :=
  match n with
  | 0 => none
  | n + 1 => some ((List.range n).foldl (fun m i => max m (a (i + 1))) (a 0))

/-- Species constants of the bunch (particle_bunch.py 58-60). -/
def Bunch.const (b : Bunch) (c : ℝ) : Const := ⟨c, b.qSpecies, b.mSpecies⟩

/-- `get_field_arrays` (particle_bunch.py 323-330, 345-354). -/
def Bunch.getFieldArrays (b : Bunch) : ℕ × (ℕ → EB ℝ) :=
  b.fieldArrays.getD (b.n, fun _ => ⟨0, 0, 0, 0, 0, 0⟩)

/-- `get_rk4_arrays` (particle_bunch.py 332-343, 356-381). -/
def Bunch.getRK4Arrays (b : Bunch) : ℕ × Bufs :=
  b.rk4Arrays.getD (b.n, ⟨fun _ => ⟨0, 0, 0, 0, 0, 0⟩, fun _ => ⟨0, 0, 0, 0, 0, 0⟩,
    fun _ => ⟨0, 0, 0, 0, 0, 0⟩⟩)

/-- Fields passed on to the pusher (particle_bunch.py 285-287). -/
noncomputable def Bunch.activeFields (b : Bunch) (fields : List PField) :
    Except Err (List PField) :=
  match b.zInjection with
  | none => .ok fields
  | some z =>
    match amax b.n (fun i => (b.ph i).xi) with
    | none => .error .emptyArray
    | some m => .ok (if m + b.propDistance < z then [] else fields)

/-- `evolve` (particle_bunch.py 269-298): the bunch afterwards and the exception
raised, if any.  Loops run over the coordinates and read the field arrays
(boris_pusher.py 66-76), or run over the Runge-Kutta arrays and read both
(runge_kutta_4.py 121-175), or run over the coordinates and read the Runge-Kutta
arrays (145-148); if the lengths do not fit the outcome is `outOfBounds`. -/
noncomputable def Bunch.evolve (c : ℝ) (b : Bunch) (fields : List PField) (sch : Sched)
    (t dt : ℝ) (pusher : String) : Bunch × Option Err :=
  match b.activeFields fields with
  | .error e => (b, some e)
  | .ok fields =>
    if pusher = "rk4" then
      let fa := b.getFieldArrays
      let ra := b.getRK4Arrays
      let b := { b with fieldArrays := some fa, rk4Arrays := some ra }
      if fa.1 < b.n ∨ ra.1 ≠ b.n then (b, some .outOfBounds)
      else
        let r := Push.rk4 (b.const c) fields sch t dt b.ph ra.2 fa.2
        ({ b with
            ph := r.1
            rk4Arrays := some (ra.1, r.2.1)
            fieldArrays := some (fa.1, r.2.2)
            propDistance := b.propDistance + dt * c }, none)
    else if pusher = "boris" then
      let fa := b.getFieldArrays
      let b := { b with fieldArrays := some fa }
      if fa.1 < b.n then (b, some .outOfBounds)
      else
        let r := Push.boris (b.const c) fields sch t dt b.ph fa.2
        ({ b with
            ph := r.1
            fieldArrays := some (fa.1, r.2)
            propDistance := b.propDistance + dt * c }, none)
    else (b, some .unknownPusher)

end WakeT.Bunch
