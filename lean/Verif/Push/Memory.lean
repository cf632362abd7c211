import Verif.Base.Memory
import Verif.Push.Model

/-!
# The arrays of the bunches

Files: `wake_t/particles/particle_bunch.py`, `wake_t/particles/push/boris_pusher.py`, `runge_kutta_4.py`,
`wake_t/fields/gather.py` and `wake_t/beamline_elements/tm_elements.py`.

In `Verif.Push.Model` the coordinates of a bunch are values.  In the code a bunch refers to arrays; the constructor keeps the arrays it
is given (particle_bunch.py 93-99), so that several bunches, or several coordinates of one bunch, may refer to the same array.  Here
bunches are modelled with references to arrays in one memory.

All loops of the pushers access in iteration `i` only the entries `i` of the arrays, so that they act on every row of the memory
separately and the order of the iterations does not matter, even if arrays coincide.  The arrays have as many entries as needed
(`Verif.Bunch.Model` has their lengths).
-/

set_option linter.unusedSectionVars false

namespace WakeT.Push

open Fields (EB)
open Base

/-- References to six arrays, one for each coordinate (particle_bunch.py 93-98; 337-342). -/
structure Ids where
  x : ℕ
  y : ℕ
  xi : ℕ
  px : ℕ
  py : ℕ
  pz : ℕ

/-- The numbers of the arrays (particle_bunch.py 93-98). -/
def Ids.list (a : Ids) : List ℕ := [a.x, a.y, a.xi, a.px, a.py, a.pz]

/-- Six arrays allocated one after the other (particle_bunch.py 348-353, 360-365, 367-372, 374-379). -/
def Ids.block (n : ℕ) : Ids := ⟨n, n + 1, n + 2, n + 3, n + 4, n + 5⟩

/-- Reading the six entries (boris_pusher.py 50-52, runge_kutta_4.py 155-157). -/
def Ids.get (a : Ids) (e : Row) : Ph := ⟨e a.x, e a.y, e a.xi, e a.px, e a.py, e a.pz⟩

/-- Reading the six fields from the arrays `ex`, ..., `bz` (boris_pusher.py 71-76, runge_kutta_4.py 158-163). -/
def Ids.getEB (a : Ids) (e : Row) : EB ℝ := ⟨e a.x, e a.y, e a.xi, e a.px, e a.py, e a.pz⟩

/-- Assignment of the six entries, one after the other (runge_kutta_4.py 170-175). -/
def Ids.put (a : Ids) (p : Ph) (e : Row) : Row :=
  (((((e.set a.x p.x).set a.y p.y).set a.xi p.xi).set a.px p.px).set a.py p.py).set a.pz p.pz

/-- Assignment of the six fields `ex[i]`, ..., `bz[i]` (gather.py 61-68; the `gather` of the fields, fields/base.py 19-57). -/
def Ids.putEB (a : Ids) (v : EB ℝ) (e : Row) : Row :=
  (((((e.set a.x v.ex).set a.y v.ey).set a.xi v.ez).set a.px v.bx).set a.py v.b_y).set a.pz v.bz

/-- `gather_fields(fields, x, y, xi, t, ex, ..., bz)` (gather.py 51-68): reset, then all fields in order. -/
def gatherRow (fields : List PField) (t : ℝ) (x y xi : ℕ) (eb : Ids) (e : Row) : Row :=
  fields.foldl (fun e f => eb.putEB (f t (e x) (e y) (e xi) (eb.getEB e)) e) (eb.putEB ⟨0, 0, 0, 0, 0, 0⟩ e)

/-- `apply_half_position_push` (boris_pusher.py 46-59). -/
noncomputable def halfPushRow (k : Const) (b : Ids) (dt : ℝ) (e : Row) : Row :=
  let px := e b.px
  let py := e b.py
  let pz := e b.pz
  let cg := k.c / √(1 + (px ^ 2 + py ^ 2 + pz ^ 2))
  let e := e.set b.x (e b.x + 1 / 2 * px * dt * cg)
  let e := e.set b.y (e b.y + 1 / 2 * py * dt * cg)
  e.set b.xi (e b.xi + 1 / 2 * (pz * cg - k.c) * dt)

/-- `push_momentum` (boris_pusher.py 62-99); the arithmetic is that of `pushMomentum1`. -/
noncomputable def pushMomentumRow (k : Const) (b eb : Ids) (dt : ℝ) (e : Row) : Row :=
  let p := pushMomentum1 k dt (eb.getEB e) (b.get e)
  ((e.set b.px p.px).set b.py p.py).set b.pz p.pz

/-- `apply_boris_pusher` (boris_pusher.py 28-43). -/
noncomputable def borisRow (k : Const) (fields : List PField) (t dt : ℝ) (b eb : Ids) (e : Row) : Row :=
  let e := halfPushRow k b dt e                                                   -- 33-34
  let e := gatherRow fields (t + dt / 2) b.x b.y b.xi eb e                        -- 36-37
  let e := pushMomentumRow k b eb dt e                                            -- 39-40
  halfPushRow k b dt e                                                            -- 42-43

/-- `calculate_k` (runge_kutta_4.py 151-175); the arithmetic is that of `calcK1`. -/
noncomputable def calcKRow (k : Const) (ks p eb : Ids) (e : Row) : Row := ks.put (calcK1 k (p.get e) (eb.getEB e)) e

/-- The six calls of `update_coord` (runge_kutta_4.py 90-95, 127-130). -/
def updateCoordsRow (x x0 : Ids) (dt : ℝ) (ks : Ids) (fac : ℝ) (e : Row) : Row :=
  let e := e.set x.x (e x0.x + dt * e ks.x * fac)
  let e := e.set x.y (e x0.y + dt * e ks.y * fac)
  let e := e.set x.xi (e x0.xi + dt * e ks.xi * fac)
  let e := e.set x.px (e x0.px + dt * e ks.px * fac)
  let e := e.set x.py (e x0.py + dt * e ks.py * fac)
  e.set x.pz (e x0.pz + dt * e ks.pz * fac)

/-- The six calls of `initialize_push` (runge_kutta_4.py 82-87, 133-136). -/
def initPushRow (d ks : Ids) (fac : ℝ) (e : Row) : Row :=
  let e := e.set d.x (e ks.x * fac)
  let e := e.set d.y (e ks.y * fac)
  let e := e.set d.xi (e ks.xi * fac)
  let e := e.set d.px (e ks.px * fac)
  let e := e.set d.py (e ks.py * fac)
  e.set d.pz (e ks.pz * fac)

/-- The six calls of `update_push` (runge_kutta_4.py 105-110, 139-142). -/
def updatePushRow (d ks : Ids) (fac : ℝ) (e : Row) : Row :=
  let e := e.set d.x (e d.x + e ks.x * fac)
  let e := e.set d.y (e d.y + e ks.y * fac)
  let e := e.set d.xi (e d.xi + e ks.xi * fac)
  let e := e.set d.px (e d.px + e ks.px * fac)
  let e := e.set d.py (e d.py + e ks.py * fac)
  e.set d.pz (e d.pz + e ks.pz * fac)

/-- The six calls of `apply_push` (runge_kutta_4.py 113-118, 145-148). -/
def applyPushRow (b : Ids) (dt : ℝ) (d : Ids) (e : Row) : Row :=
  let e := e.set b.x (e b.x + dt * e d.x)
  let e := e.set b.y (e b.y + dt * e d.y)
  let e := e.set b.xi (e b.xi + dt * e d.xi)
  let e := e.set b.px (e b.px + dt * e d.px)
  let e := e.set b.py (e b.py + dt * e d.py)
  e.set b.pz (e b.pz + dt * e d.pz)

/-- Stage `i` of the loop (runge_kutta_4.py 56-110). -/
noncomputable def stageRow (k : Const) (fields : List PField) (t dt : ℝ) (b x d ks eb : Ids) (i : ℕ) (e : Row) : Row :=
  let (fac1, fac2, ti) := factors i t dt
  if i = 0 then
    let e := gatherRow fields ti b.x b.y b.xi eb e                                -- 73-74
    let e := calcKRow k ks b eb e                                                 -- 77-79
    initPushRow d ks fac2 e                                                       -- 82-87
  else
    let e := updateCoordsRow x b dt ks fac1 e                                     -- 90-95
    let e := gatherRow fields ti x.x x.y x.xi eb e                                -- 98
    let e := calcKRow k ks x eb e                                                 -- 101-102
    updatePushRow d ks fac2 e                                                     -- 105-110

/-- `apply_rk4_pusher` (runge_kutta_4.py 47-118). -/
noncomputable def rk4Row (k : Const) (fields : List PField) (t dt : ℝ) (b x d ks eb : Ids) (e : Row) : Row :=
  applyPushRow b dt d ((List.range 4).foldl (fun e i => stageRow k fields t dt b x d ks eb i e) e)

/-- A bunch (particle_bunch.py 93-111): references to the arrays of its coordinates, and to the first of the preallocated arrays, if
there are any. -/
structure BunchRef where
  b : Ids
  k : Const
  fieldArr : Option ℕ
  rk4Arr : Option ℕ

/-- `ParticleBunch(w, x, y, xi, px, py, pz)` (particle_bunch.py 66-111): the arrays are not copied. -/
def BunchRef.new (k : Const) (b : Ids) : BunchRef := ⟨b, k, none, none⟩

/-- `n` calls of `np.zeros` (particle_bunch.py 345-381). -/
def zerosN (n : ℕ) (h : Heap) : Heap := n.repeat (fun h => (zeros h).2) h

/-- `get_field_arrays` (particle_bunch.py 323-330, 345-354): the number of the first of the six arrays. -/
def BunchRef.getFieldArrays (r : BunchRef) (h : Heap) : ℕ × Heap :=
  match r.fieldArr with
  | some n => (n, h)
  | none => (h.next, zerosN 6 h)

/-- `get_rk4_arrays` (particle_bunch.py 332-343, 356-381): the number of the first of the eighteen arrays, `k_x`, ..., `x_rk4`, ...,
`dx_rk4`, .... -/
def BunchRef.getRk4Arrays (r : BunchRef) (h : Heap) : ℕ × Heap :=
  match r.rk4Arr with
  | some n => (n, h)
  | none => (h.next, zerosN 18 h)

/-- The pushers (particle_bunch.py 289-292). -/
inductive PusherName where
  | rk4
  | boris

/-- `evolve` (particle_bunch.py 269-298) with the fields that act on the bunch. -/
noncomputable def BunchRef.evolve (r : BunchRef) (p : PusherName) (fields : List PField) (t dt : ℝ) (h : Heap) : BunchRef × Heap :=
  match p with
  | .rk4 =>
    let (n, h) := r.getRk4Arrays h                                                -- runge_kutta_4.py 48-49
    let (f, h) := r.getFieldArrays h                                              -- 50
    ({ r with rk4Arr := some n, fieldArr := some f },
      { h with mem := fun i => rk4Row r.k fields t dt r.b (.block (n + 6)) (.block (n + 12)) (.block n) (.block f) (h.mem i) })
  | .boris =>
    let (f, h) := r.getFieldArrays h                                              -- boris_pusher.py 31
    ({ r with fieldArr := some f }, { h with mem := fun i => borisRow r.k fields t dt r.b (.block f) (h.mem i) })

/-- `copy` (particle_bunch.py 300-321); the weights, which are copied too (307), are not modelled here: no method changes them in place. -/
def BunchRef.copy (r : BunchRef) (h : Heap) : BunchRef × Heap :=
  let copy1 := fun a (h : Heap) => newArray (h.mem.arr a) h
  let (x, h) := copy1 r.b.x h                                                     -- 308
  let (y, h) := copy1 r.b.y h
  let (xi, h) := copy1 r.b.xi h
  let (px, h) := copy1 r.b.px h
  let (py, h) := copy1 r.b.py h
  let (pz, h) := copy1 r.b.pz h                                                   -- 313
  (.new r.k ⟨x, y, xi, px, py, pz⟩, h)

/-- The coordinates of the bunch (particle_bunch.py 93-98). -/
def BunchRef.coords (r : BunchRef) (h : Heap) (i : ℕ) : Ph := r.b.get (h.mem i)

/-- `self.xi += dxi` in `reposition_xi` (particle_bunch.py 236-240); `dxi` is computed before from the coordinates. -/
def BunchRef.addXi (r : BunchRef) (dxi : ℝ) (h : Heap) : Heap :=
  { h with mem := fun i => (h.mem i).set r.b.xi (h.mem i r.b.xi + dxi) }

/-- The rows of a new matrix as coordinates: `np.array([...])` and `set_phase_space_from_matrix` (bunch_manipulation.py 52-54, tm_elements.py
257-261, particle_bunch.py 147-158).  The rows are modelled as arrays of their own. -/
def newIds (v : ℕ → Ph) (h : Heap) : Ids × Heap :=
  let (x, h) := newArray (fun i => (v i).x) h
  let (y, h) := newArray (fun i => (v i).y) h
  let (xi, h) := newArray (fun i => (v i).xi) h
  let (px, h) := newArray (fun i => (v i).px) h
  let (py, h) := newArray (fun i => (v i).py) h
  let (pz, h) := newArray (fun i => (v i).pz) h
  (⟨x, y, xi, px, py, pz⟩, h)

/-- Calls of methods of bunches and of `TMElement.track`; bunches have a number (particle_bunch.py 236, 269, 300, tm_elements.py 73).
For an element, `outs` are the coordinates of the outputs and `last` those at the end of the element, as functions of those of
the incoming bunch (they are modelled in `Verif.Element.Model`). -/
inductive Op where
  | evolve (j : ℕ) (p : PusherName) (fields : List PField) (t dt : ℝ)
  | copy (j : ℕ)
  | addXi (j : ℕ) (dxi : ℝ)
  | element (j : ℕ) (outs : List ((ℕ → Ph) → ℕ → Ph)) (last : (ℕ → Ph) → ℕ → Ph)

/-- The bunches of a script and the memory (particle_bunch.py 93-111). -/
structure World where
  n : ℕ
  bunch : ℕ → BunchRef
  heap : Heap

/-- A new bunch with the given coordinates, which gets the next number (tm_elements.py 147, 260-264). -/
def World.add (w : World) (k : Const) (v : ℕ → Ph) : World :=
  let (b, h) := newIds v w.heap
  ⟨w.n + 1, Function.update w.bunch w.n (.new k b), h⟩

/-- `set_phase_space` with new arrays; the preallocated arrays are kept (tm_elements.py 229-230, particle_bunch.py 138-145). -/
def World.rebind (w : World) (j : ℕ) (v : ℕ → Ph) : World :=
  let (b, h) := newIds v w.heap
  { w with bunch := Function.update w.bunch j { w.bunch j with b := b }, heap := h }

/-- One call (tm_elements.py 113-175, particle_bunch.py 236-240, 269-321); the copy of a bunch gets the next number. -/
noncomputable def World.call (w : World) : Op → World
  | .evolve j p fields t dt =>
    if j < w.n then
      let (r, h) := (w.bunch j).evolve p fields t dt w.heap
      { w with bunch := Function.update w.bunch j r, heap := h }
    else w
  | .copy j =>
    if j < w.n then
      let (r, h) := (w.bunch j).copy w.heap
      ⟨w.n + 1, Function.update w.bunch w.n r, h⟩
    else w
  | .addXi j dxi => if j < w.n then { w with heap := (w.bunch j).addXi dxi w.heap } else w
  | .element j outs last =>
    if j < w.n then
      let mat := (w.bunch j).coords w.heap                                        -- tm_elements.py 113, 189 (`np.array`)
      let w' := outs.foldl (fun w' g => w'.add (w.bunch j).k (g mat)) w           -- 146-169
      if outs.length = 0 then w'.rebind j (last mat)                              -- 222-226, 229-230
      else w'.rebind j fun i => (w'.bunch (w'.n - 1)).coords w'.heap i            -- 228-230
    else w

end WakeT.Push
