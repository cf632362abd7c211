import Verif.Base.Loop
import Verif.Fields.Model
import Mathlib.Analysis.SpecialFunctions.Sqrt

/-!
# Model of the particle pushers

`wake_t/particles/push/boris_pusher.py` and `runge_kutta_4.py`.  The six
coordinate arrays are kept as one array of records; every `prange` loop of the
code is one `prange` here, with its own order of execution.  A field is
represented by the effect of its `gather` on one particle (see
`Verif.Fields.Model` for the library's fields): it may depend on time and
position, and on what is already in the field arrays.
-/

set_option linter.unusedSectionVars false

namespace WakeT.Push

open Fields (EB)

/-- Phase space coordinates of a particle (particle_bunch.py 27-32). -/
@[ext] structure Ph where
  x : ℝ
  y : ℝ
  xi : ℝ
  px : ℝ
  py : ℝ
  pz : ℝ

/-- Effect of `field.gather(x, y, z, t, ...)` (fields/base.py 19-57) on the field
values of one particle: `f t x y xi v`. -/
abbrev PField := ℝ → ℝ → ℝ → ℝ → EB ℝ → EB ℝ

/-- Species constants: `c`, `q_species`, `m_species` (particle_bunch.py 58-60). -/
structure Const where
  c : ℝ
  q : ℝ
  m : ℝ

/-- `q_over_mc` (boris_pusher.py 29, runge_kutta_4.py 53). -/
noncomputable def Const.qmc (k : Const) : ℝ := k.q / (k.m * k.c)

/-- Orders of execution: `sch a b` is that of loop `b` in part `a` of a push. The loops are
those with `prange` in boris_pusher.py 48-59 and fields/gather.py 59-68. -/
abbrev Sched := ℕ → ℕ → List ℕ

/-- `gather_fields` (fields/gather.py 51-56, 59-68): reset, then all fields in
order.  Loop `0` of the given orders is the reset, loop `k + 1` that of field `k`. -/
def gatherFields (fields : List PField) (sch : ℕ → List ℕ) (t : ℝ) (pos : ℕ → Ph)
    (a : ℕ → EB ℝ) : ℕ → EB ℝ :=
  let a := prange (sch 0) (at1 fun _ _ => ⟨0, 0, 0, 0, 0, 0⟩) a
  (fields.zipIdx.foldl (fun a fk => prange (sch (fk.2 + 1))
    (at1 fun i v => fk.1 t (pos i).x (pos i).y (pos i).xi v) a) a)

/-! ### Boris pusher -/

/-- Body of `apply_half_position_push` (boris_pusher.py 48-59). -/
noncomputable def halfPush1 (k : Const) (dt : ℝ) (p : Ph) : Ph :=
  let cg := k.c / √(1 + (p.px ^ 2 + p.py ^ 2 + p.pz ^ 2))
  { p with
    x := p.x + 1 / 2 * p.px * dt * cg
    y := p.y + 1 / 2 * p.py * dt * cg
    xi := p.xi + 1 / 2 * (p.pz * cg - k.c) * dt }

/-- Body of `push_momentum` (boris_pusher.py 64-99). -/
noncomputable def pushMomentum1 (k : Const) (dt : ℝ) (f : EB ℝ) (p : Ph) : Ph :=
  let k' := k.qmc * dt / 2
  let pmx := p.px + k' * f.ex
  let pmy := p.py + k' * f.ey
  let pmz := p.pz + k' * f.ez
  let cgm := k.c / √(1 + (pmx ^ 2 + pmy ^ 2 + pmz ^ 2))
  let tx := k' * cgm * f.bx
  let ty := k' * cgm * f.b_y
  let tz := k' * cgm * f.bz
  let cs := 2 / (1 + tx ^ 2 + ty ^ 2 + tz ^ 2)
  let sx := cs * tx
  let sy := cs * ty
  let sz := cs * tz
  let pxc := pmx + pmy * tz - pmz * ty
  let pyc := pmy + pmz * tx - pmx * tz
  let pzc := pmz + pmx * ty - pmy * tx
  { p with
    px := pmx + pyc * sz - pzc * sy + k' * f.ex
    py := pmy + pzc * sx - pxc * sz + k' * f.ey
    pz := pmz + pxc * sy - pyc * sx + k' * f.ez }

/-- `apply_boris_pusher` (boris_pusher.py 14-43): new coordinates and new contents
of the field arrays. -/
noncomputable def boris (k : Const) (fields : List PField) (sch : Sched) (t dt : ℝ)
    (b : ℕ → Ph) (eb : ℕ → EB ℝ) : (ℕ → Ph) × (ℕ → EB ℝ) :=
  let b := prange (sch 0 0) (at1 fun _ p => halfPush1 k dt p) b
  let eb := gatherFields fields (sch 1) (t + dt / 2) b eb
  let b := prange (sch 2 0) (at1 fun i p => pushMomentum1 k dt (eb i) p) b
  let b := prange (sch 3 0) (at1 fun _ p => halfPush1 k dt p) b
  (b, eb)

/-! ### Runge-Kutta pusher -/

/-- The preallocated arrays of the RK4 pusher (particle_bunch.py 332-343): shifted
coordinates, accumulated push and last slopes. -/
structure Bufs where
  pos : ℕ → Ph
  d : ℕ → Ph
  k : ℕ → Ph

/-- Body of `calculate_k` (runge_kutta_4.py 155-175).  `fastmath` is ignored. -/
noncomputable def calcK1 (k : Const) (p : Ph) (f : EB ℝ) : Ph :=
  let cg := k.c / √(1 + p.px ^ 2 + p.py ^ 2 + p.pz ^ 2)
  let vx := p.px * cg
  let vy := p.py * cg
  let vz := p.pz * cg
  { x := vx
    y := vy
    xi := vz - k.c
    px := k.qmc * (f.ex + vy * f.bz - vz * f.b_y)
    py := k.qmc * (f.ey - vx * f.bz + vz * f.bx)
    pz := k.qmc * (f.ez + vx * f.b_y - vy * f.bx) }

/-- `calculate_k` (runge_kutta_4.py 151-175). -/
noncomputable def calculateK (k : Const) (ord : List ℕ) (pos : ℕ → Ph) (eb : ℕ → EB ℝ)
    (ks : ℕ → Ph) : ℕ → Ph :=
  prange ord (at1 fun i _ => calcK1 k (pos i) (eb i)) ks

/-- The six calls of `update_coord` (runge_kutta_4.py 90-95, 127-130). -/
def updateCoords (sch : ℕ → List ℕ) (b : ℕ → Ph) (dt fac : ℝ) (ks pos : ℕ → Ph) : ℕ → Ph :=
  let pos := prange (sch 0) (at1 fun i v => { v with x := (b i).x + dt * (ks i).x * fac }) pos
  let pos := prange (sch 1) (at1 fun i v => { v with y := (b i).y + dt * (ks i).y * fac }) pos
  let pos := prange (sch 2) (at1 fun i v => { v with xi := (b i).xi + dt * (ks i).xi * fac }) pos
  let pos := prange (sch 3) (at1 fun i v => { v with px := (b i).px + dt * (ks i).px * fac }) pos
  let pos := prange (sch 4) (at1 fun i v => { v with py := (b i).py + dt * (ks i).py * fac }) pos
  prange (sch 5) (at1 fun i v => { v with pz := (b i).pz + dt * (ks i).pz * fac }) pos

/-- The six calls of `initialize_push` (runge_kutta_4.py 82-87, 133-136). -/
def initPush (sch : ℕ → List ℕ) (fac : ℝ) (ks d : ℕ → Ph) : ℕ → Ph :=
  let d := prange (sch 0) (at1 fun i v => { v with x := (ks i).x * fac }) d
  let d := prange (sch 1) (at1 fun i v => { v with y := (ks i).y * fac }) d
  let d := prange (sch 2) (at1 fun i v => { v with xi := (ks i).xi * fac }) d
  let d := prange (sch 3) (at1 fun i v => { v with px := (ks i).px * fac }) d
  let d := prange (sch 4) (at1 fun i v => { v with py := (ks i).py * fac }) d
  prange (sch 5) (at1 fun i v => { v with pz := (ks i).pz * fac }) d

/-- The six calls of `update_push` (runge_kutta_4.py 105-110, 139-142). -/
def updatePush (sch : ℕ → List ℕ) (fac : ℝ) (ks d : ℕ → Ph) : ℕ → Ph :=
  let d := prange (sch 0) (at1 fun i v => { v with x := v.x + (ks i).x * fac }) d
  let d := prange (sch 1) (at1 fun i v => { v with y := v.y + (ks i).y * fac }) d
  let d := prange (sch 2) (at1 fun i v => { v with xi := v.xi + (ks i).xi * fac }) d
  let d := prange (sch 3) (at1 fun i v => { v with px := v.px + (ks i).px * fac }) d
  let d := prange (sch 4) (at1 fun i v => { v with py := v.py + (ks i).py * fac }) d
  prange (sch 5) (at1 fun i v => { v with pz := v.pz + (ks i).pz * fac }) d

/-- The six calls of `apply_push` (runge_kutta_4.py 113-118, 145-148). -/
def applyPush (sch : ℕ → List ℕ) (dt : ℝ) (d b : ℕ → Ph) : ℕ → Ph :=
  let b := prange (sch 0) (at1 fun i v => { v with x := v.x + dt * (d i).x }) b
  let b := prange (sch 1) (at1 fun i v => { v with y := v.y + dt * (d i).y }) b
  let b := prange (sch 2) (at1 fun i v => { v with xi := v.xi + dt * (d i).xi }) b
  let b := prange (sch 3) (at1 fun i v => { v with px := v.px + dt * (d i).px }) b
  let b := prange (sch 4) (at1 fun i v => { v with py := v.py + dt * (d i).py }) b
  prange (sch 5) (at1 fun i v => { v with pz := v.pz + dt * (d i).pz }) b

/-- `fac1`, `fac2` and `t_i` of stage `i` (runge_kutta_4.py 57-68). -/
noncomputable def factors (i : ℕ) (t dt : ℝ) : ℝ × ℝ × ℝ :=
  if i = 0 ∨ i = 3 then (1, 1 / 6, if i = 3 then t + dt else t)
  else (1 / 2, 2 / 6, t + dt / 2)

/-- Stage `i` of the loop (runge_kutta_4.py 56-110). -/
noncomputable def rk4Stage (k : Const) (fields : List PField) (sch : Sched) (t dt : ℝ)
    (b : ℕ → Ph) (i : ℕ) (s : Bufs × (ℕ → EB ℝ)) : Bufs × (ℕ → EB ℝ) :=
  let (bu, eb) := s
  let (fac1, fac2, ti) := factors i t dt
  if i = 0 then
    let eb := gatherFields fields (sch (4 * i)) ti b eb
    let ks := calculateK k (sch (4 * i + 1) 0) b eb bu.k
    let d := initPush (sch (4 * i + 2)) fac2 ks bu.d
    ({ bu with k := ks, d := d }, eb)
  else
    let pos := updateCoords (sch (4 * i + 3)) b dt fac1 bu.k bu.pos
    let eb := gatherFields fields (sch (4 * i)) ti pos eb
    let ks := calculateK k (sch (4 * i + 1) 0) pos eb bu.k
    let d := updatePush (sch (4 * i + 2)) fac2 ks bu.d
    ({ pos := pos, k := ks, d := d }, eb)

/-- `apply_rk4_pusher` (runge_kutta_4.py 11-118). -/
noncomputable def rk4 (k : Const) (fields : List PField) (sch : Sched) (t dt : ℝ)
    (b : ℕ → Ph) (bu : Bufs) (eb : ℕ → EB ℝ) : (ℕ → Ph) × Bufs × (ℕ → EB ℝ) :=
  let s := (List.range 4).foldl (fun s i => rk4Stage k fields sch t dt b i s) (bu, eb)
  (applyPush (sch 16) dt s.1.d b, s.1, s.2)

end WakeT.Push
