import Verif.Push.Model

/-!
# The Boris pusher with rounding

`wake_t/particles/push/boris_pusher.py` with a rounding `rnd` after each operation on floating point numbers, for one particle (the loops
over the particles are independent, see `Verif.Push.Props`).  Squares and the product with `0.5` of a number are one operation.
-/

set_option linter.unusedSectionVars false

namespace WakeT.Push.Rounded

open Fields (EB)

variable (rnd : ℝ → ℝ)

/-- `ct.c / np.sqrt(1 + (px_i**2 + py_i**2 + pz_i**2))` (boris_pusher.py 54, 82-83). -/
noncomputable def cOverGamma (c px py pz : ℝ) : ℝ :=
  rnd (c / rnd √(rnd (1 + rnd (rnd (rnd (px ^ 2) + rnd (py ^ 2)) + rnd (pz ^ 2)))))

/-- Body of `apply_half_position_push` (boris_pusher.py 48-59). -/
noncomputable def halfPush1 (c dt : ℝ) (p : Ph) : Ph :=
  let cg := cOverGamma rnd c p.px p.py p.pz
  { p with
    x := rnd (p.x + rnd (rnd (rnd (1 / 2 * p.px) * dt) * cg))
    y := rnd (p.y + rnd (rnd (rnd (1 / 2 * p.py) * dt) * cg))
    xi := rnd (p.xi + rnd (rnd (1 / 2 * rnd (rnd (p.pz * cg) - c)) * dt)) }

/-- `a + b * c - d * e` (boris_pusher.py 92-99). -/
noncomputable def cross (a b c d e : ℝ) : ℝ := rnd (rnd (a + rnd (b * c)) - rnd (d * e))

/-- Body of `push_momentum` (boris_pusher.py 64-99). -/
noncomputable def pushMomentum1 (c qmc dt : ℝ) (f : EB ℝ) (p : Ph) : Ph :=
  let k := rnd (rnd (qmc * dt) / 2)
  let pmx := rnd (p.px + rnd (k * f.ex))
  let pmy := rnd (p.py + rnd (k * f.ey))
  let pmz := rnd (p.pz + rnd (k * f.ez))
  let cgm := cOverGamma rnd c pmx pmy pmz
  let tx := rnd (rnd (k * cgm) * f.bx)
  let ty := rnd (rnd (k * cgm) * f.b_y)
  let tz := rnd (rnd (k * cgm) * f.bz)
  let cs := rnd (2 / rnd (rnd (rnd (1 + rnd (tx ^ 2)) + rnd (ty ^ 2)) + rnd (tz ^ 2)))
  let sx := rnd (cs * tx)
  let sy := rnd (cs * ty)
  let sz := rnd (cs * tz)
  let pxc := cross rnd pmx pmy tz pmz ty
  let pyc := cross rnd pmy pmz tx pmx tz
  let pzc := cross rnd pmz pmx ty pmy tx
  { p with
    px := rnd (cross rnd pmx pyc sz pzc sy + rnd (k * f.ex))
    py := rnd (cross rnd pmy pzc sx pxc sz + rnd (k * f.ey))
    pz := rnd (cross rnd pmz pxc sy pyc sx + rnd (k * f.ez)) }

/-- `apply_boris_pusher` for one particle (boris_pusher.py 14-43); `f x y xi` are the gathered fields. -/
noncomputable def boris1 (c qmc dt : ℝ) (f : ℝ → ℝ → ℝ → EB ℝ) (p : Ph) : Ph :=
  let p := halfPush1 rnd c dt p
  halfPush1 rnd c dt (pushMomentum1 rnd c qmc dt (f p.x p.y p.xi) p)

/-- Successive steps; each has its own length and fields (tracker.py 212-221, 290 for one particle). -/
noncomputable def steps (c qmc : ℝ) (L : List (ℝ × (ℝ → ℝ → ℝ → EB ℝ))) (p : Ph) : Ph :=
  L.foldl (fun p s => boris1 rnd c qmc s.1 s.2 p) p

end WakeT.Push.Rounded
