import Verif.Fields.Model

/-! # Specification vocabulary for fields -/

set_option linter.unusedSectionVars false

namespace WakeT.Fields

variable {K : Type*} [Field K]

instance : Zero (EB K) := ⟨⟨0, 0, 0, 0, 0, 0⟩⟩
instance : Add (EB K) :=
  ⟨fun a b => ⟨a.ex + b.ex, a.ey + b.ey, a.ez + b.ez, a.bx + b.bx, a.b_y + b.b_y, a.bz + b.bz⟩⟩

/-- The field at `(x, y, xi)` each class documents:
`b_theta = k r` (linear_b_theta.py 24-34), `b_x = -k y, b_y = -k x`
(quadrupole.py 25-29), and the blowout fields. -/
def LibField.value (fl : LibField K) (x y xi : K) : EB K :=
  match fl with
  | .none => ⟨0, 0, 0, 0, 0, 0⟩
  | .linearBTheta k => ⟨0, 0, 0, -(k * y), k * x, 0⟩
  | .quadrupole k => ⟨0, 0, 0, -(k * y), -(k * x), 0⟩
  | .simpleBlowout c g ezp off => ⟨c * g * x, c * g * y, ezp * (xi + off), 0, 0, 0⟩
  | .customBlowout c k ez0 ezp off => ⟨c * k * x, c * k * y, ez0 + ezp * (xi + off), 0, 0, 0⟩
  | .focusingBlowout c k => ⟨c * k xi * x, c * k xi * y, 0, 0, 0, 0⟩
  | .rz f => ⟨(f x y xi).ex, (f x y xi).ey, (f x y xi).ez, (f x y xi).bx, (f x y xi).b_y, 0⟩

/-- The blowout models write the electric field with `=`. -/
def LibField.assignsE : LibField K → Bool
  | .simpleBlowout .. | .customBlowout .. | .focusingBlowout .. => true
  | _ => false

/-- Fields that have an electric field. -/
def LibField.electric : LibField K → Bool
  | .none | .linearBTheta _ | .quadrupole _ => false
  | _ => true

/-- No blowout model comes after another electric field. -/
def BlowoutFirst (l : List (LibField K)) : Prop :=
  l.Pairwise fun a b => a.electric = true → b.assignsE = false

end WakeT.Fields
