import Verif.TransferMatrix.Model

/-! # Specification vocabulary for transfer maps -/

set_option linter.unusedSectionVars false

namespace WakeT.TransferMatrix

open Matrix

/-- Symplectic form of the coordinates `(x, x', y, y', xi, dp)`; `xi` is counted
backwards, hence the sign in the last block. -/
def sympl : Matrix (Fin 6) (Fin 6) ℝ :=
  !![0, 1, 0, 0, 0, 0;
     -1, 0, 0, 0, 0, 0;
     0, 0, 0, 1, 0, 0;
     0, 0, -1, 0, 0, 0;
     0, 0, 0, 0, 0, -1;
     0, 0, 0, 0, 1, 0]

/-- Linear equations of motion along an element with curvature `h` and gradient
`k1`, for a reference particle with velocity `β c` and Lorentz factor with inverse
square `ig`: `x'' = -(k1 + h²) x + h dp / β`, `y'' = k1 y`,
`xi' = h x / β - ig dp / β²`, `dp' = 0`. -/
noncomputable def generator (h k1 β ig : ℝ) : Matrix (Fin 6) (Fin 6) ℝ :=
  !![0, 1, 0, 0, 0, 0;
     -(k1 + h ^ 2), 0, 0, 0, 0, h / β;
     0, 0, 0, 1, 0, 0;
     0, 0, k1, 0, 0, 0;
     h / β, 0, 0, 0, 0, -ig / β ^ 2;
     0, 0, 0, 0, 0, 0]

/-- Quadratic part of the equations of motion of a bend without gradients. -/
noncomputable def quadraticBend (h β ig : ℝ) (v : V6) : V6 :=
  ![h * v 0 * v 1 - v 1 * v 5 / β,
    -(h / 2) * (v 1 ^ 2 + v 3 ^ 2) - h * ig / (2 * β ^ 2) * v 5 ^ 2,
    h * v 0 * v 3 - v 3 * v 5 / β,
    0,
    (v 1 ^ 2 + v 3 ^ 2) / (2 * β) - h * ig / β ^ 2 * v 0 * v 5 + 3 * ig / (2 * β ^ 3) * v 5 ^ 2,
    0]

/-- Quadratic part of the equations of motion of a straight element with sextupole
strength `K`: the kick is `-K/2 (x² - y²)` in `x` and `K x y` in `y`. -/
noncomputable def quadraticStraight (K β ig : ℝ) (v : V6) : V6 :=
  ![-(v 1 * v 5) / β,
    -(K / 2) * (v 0 ^ 2 - v 2 ^ 2),
    -(v 3 * v 5) / β,
    K * v 0 * v 2,
    (v 1 ^ 2 + v 3 ^ 2) / (2 * β) + 3 * ig / (2 * β ^ 3) * v 5 ^ 2,
    0]

/-- Quadratic part of the equations of motion of a magnet with curvature `h`, gradient `k1`
and sextupole strength `k2`. In a curved magnet the gradient also contributes: the vector
potential of a combined-function magnet has the cubic term
`k2/6 (x³ - 3 x y²) + h k1 (x³/3 - x y²/2)`. -/
noncomputable def quadraticMagnet (h k1 k2 β ig : ℝ) (v : V6) : V6 :=
  ![h * v 0 * v 1 - v 1 * v 5 / β,
    -(k2 / 2) * (v 0 ^ 2 - v 2 ^ 2) - h * k1 * (v 0 ^ 2 - v 2 ^ 2 / 2)
      - (h / 2) * (v 1 ^ 2 + v 3 ^ 2) - h * ig / (2 * β ^ 2) * v 5 ^ 2,
    h * v 0 * v 3 - v 3 * v 5 / β,
    (k2 + h * k1) * v 0 * v 2,
    (v 1 ^ 2 + v 3 ^ 2) / (2 * β) - h * ig / β ^ 2 * v 0 * v 5 + 3 * ig / (2 * β ^ 3) * v 5 ^ 2,
    0]

/-- Two maps agree to second order in the coordinates: on the ray through any `v` they
differ by terms of third and fourth order only. -/
def AgreeToSecondOrder (f g : V6 → V6) : Prop :=
  ∀ v : V6, ∃ w3 w4 : V6, ∀ ε : ℝ, f (ε • v) = g (ε • v) + ε ^ 3 • w3 + ε ^ 4 • w4

/-- The same for one component and one ray. -/
def AgreeToSecondOrderAt (f g : V6 → V6) (v : V6) (i : Fin 6) : Prop :=
  ∃ w3 w4 : ℝ, ∀ ε : ℝ, f (ε • v) i = g (ε • v) i + ε ^ 3 * w3 + ε ^ 4 * w4

/-- Motion in the horizontal plane. -/
def Planar (v : V6) : Prop := v 2 = 0 ∧ v 3 = 0

/-- Reference energies for which the maps are defined: a Lorentz factor above one,
or zero, which stands for the ultra-relativistic limit. -/
def GammaOk (gamma : ℝ) : Prop := gamma = 0 ∨ 1 < gamma

end WakeT.TransferMatrix
