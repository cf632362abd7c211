import Verif.Push.Model

/-! # Specification vocabulary for the pushers -/

set_option linter.unusedSectionVars false

namespace WakeT.Push

open Fields (EB)

/-- All loops of a push run through the particles `0 .. n-1` in some order. -/
def Sched.Valid (sch : Sched) (n : ℕ) : Prop := ∀ a b, IsSchedule (sch a b) n

/-- The field a particle at `p` feels at time `t`: all fields applied in order to
zero. -/
def felt (fields : List PField) (t : ℝ) (p : Ph) : EB ℝ :=
  fields.foldl (fun v f => f t p.x p.y p.xi v) ⟨0, 0, 0, 0, 0, 0⟩

/-- Lorentz factor. -/
noncomputable def Ph.gamma (p : Ph) : ℝ := √(1 + p.px ^ 2 + p.py ^ 2 + p.pz ^ 2)

/-- `p + h * d`, component by component. -/
def Ph.shift (p : Ph) (h : ℝ) (d : Ph) : Ph :=
  ⟨p.x + h * d.x, p.y + h * d.y, p.xi + h * d.xi, p.px + h * d.px, p.py + h * d.py, p.pz + h * d.pz⟩

/-- Equations of motion in the co-moving frame: velocity `c p / gamma` (minus `c`
longitudinally) and Lorentz force `q (E + v × B) / (m c)`. -/
noncomputable def motion (k : Const) (fields : List PField) (t : ℝ) (p : Ph) : Ph :=
  let f := felt fields t p
  let vx := k.c * p.px / p.gamma
  let vy := k.c * p.py / p.gamma
  let vz := k.c * p.pz / p.gamma
  { x := vx, y := vy, xi := vz - k.c
    px := k.q / (k.m * k.c) * (f.ex + (vy * f.bz - vz * f.b_y))
    py := k.q / (k.m * k.c) * (f.ey + (vz * f.bx - vx * f.bz))
    pz := k.q / (k.m * k.c) * (f.ez + (vx * f.b_y - vy * f.bx)) }

/-- The classical fourth-order Runge-Kutta step of `y' = f t y`. -/
noncomputable def classicalRK4 (f : ℝ → Ph → Ph) (t dt : ℝ) (y : Ph) : Ph :=
  let k1 := f t y
  let k2 := f (t + dt / 2) (y.shift (dt / 2) k1)
  let k3 := f (t + dt / 2) (y.shift (dt / 2) k2)
  let k4 := f (t + dt) (y.shift dt k3)
  (((y.shift (dt / 6) k1).shift (dt / 3) k2).shift (dt / 3) k3).shift (dt / 6) k4

/-- One Boris step of one particle in the field `F` (time, position): half a drift,
momentum update, half a drift. -/
noncomputable def borisStep (k : Const) (fields : List PField) (t dt : ℝ) (p : Ph) : Ph :=
  let p1 := halfPush1 k dt p
  halfPush1 k dt (pushMomentum1 k dt (felt fields (t + dt / 2) p1) p1)

end WakeT.Push

namespace WakeT.Push

open Fields (EB)

/-- A call of one of the pushers. -/
structure Call where
  isRK4 : Bool
  t : ℝ
  dt : ℝ
  sch : Sched

/-- A pusher call on the coordinates and the preallocated arrays. -/
noncomputable def Call.run (k : Const) (fields : List PField) (cl : Call)
    (s : (ℕ → Ph) × Bufs × (ℕ → EB ℝ)) : (ℕ → Ph) × Bufs × (ℕ → EB ℝ) :=
  if cl.isRK4 then Push.rk4 k fields cl.sch cl.t cl.dt s.1 s.2.1 s.2.2
  else
    let r := boris k fields cl.sch cl.t cl.dt s.1 s.2.2
    (r.1, s.2.1, r.2)

/-- The particle after moving for a time `dt` with constant momentum, in the frame
moving with `c`. -/
noncomputable def Ph.drift (k : Const) (dt : ℝ) (p : Ph) : Ph :=
  { p with
    x := p.x + dt * (k.c * p.px / p.gamma)
    y := p.y + dt * (k.c * p.py / p.gamma)
    xi := p.xi + dt * (k.c * p.pz / p.gamma - k.c) }

/-- The momentum of `p'` solves the centred equation of motion in the field `f`:
`p' - p = q dt / (m c) (E + u × B)`, where `u` is `c` times the mean of both
momenta over the Lorentz factor after the first half of the electric kick. -/
def Centred (k : Const) (dt : ℝ) (f : EB ℝ) (p p' : Ph) : Prop :=
  let a := k.q * dt / (k.m * k.c)
  let g := √(1 + (p.px + a / 2 * f.ex) ^ 2 + (p.py + a / 2 * f.ey) ^ 2 + (p.pz + a / 2 * f.ez) ^ 2)
  let ux := k.c * (p.px + p'.px) / (2 * g)
  let uy := k.c * (p.py + p'.py) / (2 * g)
  let uz := k.c * (p.pz + p'.pz) / (2 * g)
  p'.px - p.px = a * (f.ex + (uy * f.bz - uz * f.b_y)) ∧
  p'.py - p.py = a * (f.ey + (uz * f.bx - ux * f.bz)) ∧
  p'.pz - p.pz = a * (f.ez + (ux * f.b_y - uy * f.bx))

end WakeT.Push
