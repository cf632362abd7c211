import Mathlib.Analysis.SpecialFunctions.Trigonometric.Basic
import Mathlib.Data.Matrix.Mul
import Mathlib.LinearAlgebra.Matrix.Notation

/-!
# Model of the transfer maps

`wake_t/physics_models/beam_optics/transfer_matrices.py`,
`wake_t/particles/push/transfer_matrix.py` and
`wake_t/utilities/bunch_manipulation.py`.  A bunch matrix is treated column by
column: a column is the vector of the six coordinates of a particle.
-/

set_option linter.unusedSectionVars false

namespace WakeT.TransferMatrix

open Matrix

/-- Coordinates of a particle: a column of a bunch matrix (tm_elements.py 188-196). -/
abbrev V6 := Fin 6 → ℝ

/-- `np.sqrt(x + 0.j)` for real `x` (transfer_matrices.py 36-37, 113-114). -/
noncomputable def csqrt (x : ℝ) : ℂ :=
  if 0 ≤ x then (√x : ℂ) else √(-x) * Complex.I

/-- `cx`, `cy` (transfer_matrices.py 38-39, 115, 117). -/
noncomputable def cosK (k2 z : ℝ) : ℝ := (Complex.cos (z * csqrt k2)).re

/-- `sx`, `sy` (transfer_matrices.py 40, 45-46, 50, 116, 119). -/
noncomputable def sinK (k2 z : ℝ) : ℝ :=
  if csqrt k2 ≠ 0 then (Complex.sin (csqrt k2 * z) / csqrt k2).re else z

/-- `igamma2` (transfer_matrices.py 41-43, 97-101). -/
noncomputable def igamma2 (gamma : ℝ) : ℝ := if gamma ≠ 0 then 1 / (gamma * gamma) else 0

/-- `beta` (transfer_matrices.py 44, 103). -/
noncomputable def beta (gamma : ℝ) : ℝ := √(1 - igamma2 gamma)

/-- `first_order_matrix` (transfer_matrices.py 4-60). -/
noncomputable def firstOrder (z L theta k1 gammaRef : ℝ) : Matrix (Fin 6) (Fin 6) ℝ :=
  let hx := theta / L
  let kx2 := k1 + hx * hx
  let ky2 := -k1
  let cx := cosK kx2 z
  let cy := cosK ky2 z
  let sy := sinK ky2 z
  let ig := igamma2 gammaRef
  let β := beta gammaRef
  let sx := sinK kx2 z
  let dx := if csqrt kx2 ≠ 0 then hx / kx2 * (1 - cx) else z * z * hx / 2
  let r56 := if csqrt kx2 ≠ 0 then hx * hx * (z - sx) / kx2 / β ^ 2
    else hx * hx * z ^ 3 / 6 / β ^ 2
  let r56 := r56 - z / (β * β) * ig
  !![cx, sx, 0, 0, 0, dx / β;
     -kx2 * sx, cx, 0, 0, 0, sx * hx / β;
     0, 0, cy, sy, 0, 0;
     0, 0, -ky2 * sy, cy, 0, 0;
     hx * sx / β, dx / β, 0, 0, 1, r56;
     0, 0, 0, 0, 0, 1]

/-- The numbers from which the coefficients of second order are built
(transfer_matrices.py 97-149). -/
structure Coef where
  ig : ℝ
  β : ℝ
  h : ℝ
  L : ℝ
  kx2 : ℝ
  cx : ℝ
  sx : ℝ
  cy : ℝ
  sy : ℝ
  dx : ℝ
  J1 : ℝ
  J2 : ℝ
  J3 : ℝ
  Jc : ℝ
  Js : ℝ
  Jd : ℝ
  Jf : ℝ
  K1 : ℝ
  K2 : ℝ
  khk : ℝ

/-- Lines 97-149 of transfer_matrices.py. -/
noncomputable def coef (z L theta k1 k2 gammaRef : ℝ) : Coef :=
  let ig := igamma2 gammaRef
  let β := beta gammaRef
  let h := theta / L
  let L := z
  let kx2 := k1 + h * h
  let ky2 := -k1
  let kx4 := kx2 * kx2
  let cx := cosK kx2 L
  let sx := sinK kx2 L
  let cy := cosK ky2 L
  let sy := sinK ky2 L
  let sx2 := sx * sx
  let L2 := L * L
  let L3 := L2 * L
  let L4 := L3 * L
  let L5 := L4 * L
  let dx := if csqrt kx2 ≠ 0 then (1 - cx) / kx2 else L * L / 2
  let d2y := 1 / 2 * sy * sy
  let s2y := sy * cy
  let c2y := (Complex.cos (2 * csqrt (-k1) * L)).re
  let fx := if kx2 ≠ 0 then (L - sx) / kx2 else L3 / 6
  let f2y := if ky2 ≠ 0 then (L - s2y) / ky2 else L3 / 6
  let J1 := if kx2 ≠ 0 then (L - sx) / kx2 else L3 / 6
  let J2 := if csqrt kx2 ≠ 0 then (3 * L - 4 * sx + sx * cx) / (2 * kx4) else L ^ 5 / 20
  let J3 := if csqrt kx2 ≠ 0 then
      (15 * L - 45 / 2 * sx + 9 * sx * cx - 3 / 2 * sx * cx * cx + kx2 * sx2 * sx) /
        (6 * kx4 * kx2)
    else L ^ 7 / 56
  let Jden := kx2 - 4 * ky2
  let Jc := if Jden ≠ 0 then (c2y - cx) / Jden else 1 / 2 * L2
  let Js := if Jden ≠ 0 then (cy * sy - sx) / Jden else L3 / 6
  let Jd := if Jden ≠ 0 then (d2y - dx) / Jden else L4 / 24
  let Jf := if Jden ≠ 0 then (f2y - fx) / Jden else L5 / 120
  let khk := k2 + 2 * h * k1
  { ig, β, h, L, kx2, cx, sx, cy, sy, dx, J1, J2, J3, Jc, Js, Jd, Jf, K1 := k1, K2 := k2, khk }

/-- Lines 152-257 of transfer_matrices.py: the entries of `T`. -/
noncomputable def Coef.T (q : Coef) (i j k : Fin 6) : ℝ :=
  let ⟨ig, β, h, L, kx2, cx, sx, cy, sy, dx, J1, J2, J3, Jc, Js, Jd, Jf, K1, K2, khk⟩ := q
  let h2 := h * h
  let h3 := h2 * h
  let beta2 := β * β
  let beta3 := beta2 * β
  let sx2 := sx * sx
  let sy2 := sy * sy
  let dx2 := dx * dx
  let T111 := -1/6*khk*(sx2 + dx) - 1/2*h*kx2*sx2
  let T112 := -1/6*khk*sx*dx + 1/2*h*sx*cx
  let T122 := -1/6*khk*dx2 + 1/2*h*dx*cx
  let T116 := -h/12/β*khk*(3*sx*J1 - dx2) + 1/2*h2/β*sx2 + 1/4/β*K1*L*sx
  let T126 := -h/12/β*khk*(sx*dx2 - 2*cx*J2) + 1/4*h2/β*(sx*dx + cx*J1) - 1/4/β*(sx + L*cx)
  let T166 := -h2/6/beta2*khk*(dx2*dx - 2*sx*J2) + 1/2*h3/beta2*sx*J1 - 1/2*h/beta2*L*sx
    - 1/2*h/beta2*ig*dx
  let T133 := K1*K2*Jd + 1/2*(K2 + h*K1)*dx
  let T134 := 1/2*K2*Js
  let T144 := K2*Jd - 1/2*h*dx
  let T211 := -1/6*khk*sx*(1 + 2*cx)
  let T212 := -1/6*khk*dx*(1 + 2*cx)
  let T222 := -1/3*khk*sx*dx - 1/2*h*sx
  let T216 := -h/12/β*khk*(3*cx*J1 + sx*dx) - 1/4/β*K1*(sx - L*cx)
  let T226 := -h/12/β*khk*(3*sx*J1 + dx2) + 1/4/β*K1*L*sx
  let T266 := -h2/6/beta2*khk*(sx*dx2 - 2*cx*J2) - 1/2*h/beta2*K1*(cx*J1 - sx*dx)
    - 1/2*h/beta2*ig*sx
  let T233 := K1*K2*Js + 1/2*(K2 + h*K1)*sx
  let T234 := 1/2*K2*Jc
  let T244 := K2*Js - 1/2*h*sx
  let T313 := 1/2*K2*(cy*Jc - 2*K1*sy*Js) + 1/2*h*K1*sx*sy
  let T314 := 1/2*K2*(sy*Jc - 2*cy*Js) + 1/2*h*sx*cy
  let T323 := 1/2*K2*(cy*Js - 2*K1*sy*Jd) + 1/2*h*K1*dx*sy
  let T324 := 1/2*K2*(sy*Js - 2*cy*Jd) + 1/2*h*dx*cy
  let T336 := 1/2*h/β*K2*(cy*Jd - 2*K1*sy*Jf) + 1/2*h2/β*K1*J1*sy - 1/4/β*K1*L*sy
  let T346 := 1/2*h/β*K2*(sy*Jd - 2*cy*Jf) + 1/2*h2/β*J1*cy - 1/4/β*(sy + L*cy)
  let T413 := 1/2*K1*K2*(2*cy*Js - sy*Jc) + 1/2*(K2 + h*K1)*sx*cy
  let T414 := 1/2*K2*(2*K1*sy*Js - cy*Jc) + 1/2*(K2 + h*K1)*sx*sy
  let T423 := 1/2*K1*K2*(2*cy*Jd - sy*Js) + 1/2*(K2 + h*K1)*dx*cy
  let T424 := 1/2*K2*(2*K1*sy*Jd - cy*Js) + 1/2*(K2 + h*K1)*dx*sy
  let T436 := 1/2*h/β*K1*K2*(2*cy*Jf - sy*Jd) + 1/2*h/β*(K2 + h*K1)*J1*cy + 1/4/β*K1*(sy - L*cy)
  let T446 := 1/2*h/β*K2*(2*K1*sy*Jf - cy*Jd) + 1/2*h/β*(K2 + h*K1)*J1*sy - 1/4/β*K1*L*sy
  let T511 := h/12/β*khk*(sx*dx + 3*J1) - 1/4/β*K1*(L - sx*cx)
  let T512 := h/12/β*khk*dx2 + 1/4/β*K1*sx2
  let T522 := h/6/β*khk*J2 - 1/2/β*sx - 1/4/β*K1*(J1 - sx*dx)
  let T516 := h2/12/beta2*khk*(3*dx*J1 - 4*J2) + 1/4*h/beta2*K1*J1*(1 + cx) + 1/2*h/beta2*ig*sx
  let T526 := h2/12/beta2*khk*(dx*dx2 - 2*sx*J2) + 1/4*h/beta2*K1*sx*J1 + 1/2*h/beta2*ig*dx
  let T566 := h3/6/beta3*khk*(3*J3 - 2*dx*J2) + h2/6/beta3*K1*(sx*dx2 - J2*(1 + 2*cx))
    + 3/2/beta3*ig*(h2*J1 - L)
  let T533 := -h/β*K1*K2*Jf - 1/2*h/β*(K2 + h*K1)*J1 + 1/4/β*K1*(L - cy*sy)
  let T534 := -1/2*h/β*K2*Jd - 1/4/β*K1*sy2
  let T544 := -h/β*K2*Jf + 1/2*h2/β*J1 - 1/4/β*(L + cy*sy)
  match i.val, j.val, k.val with
  | 0, 0, 0 => T111
  | 0, 0, 1 => T112 * 2
  | 0, 1, 1 => T122
  | 0, 0, 5 => T116 * 2
  | 0, 1, 5 => T126 * 2
  | 0, 5, 5 => T166
  | 0, 2, 2 => T133
  | 0, 2, 3 => T134 * 2
  | 0, 3, 3 => T144
  | 1, 0, 0 => T211
  | 1, 0, 1 => T212 * 2
  | 1, 1, 1 => T222
  | 1, 0, 5 => T216 * 2
  | 1, 1, 5 => T226 * 2
  | 1, 5, 5 => T266
  | 1, 2, 2 => T233
  | 1, 2, 3 => T234 * 2
  | 1, 3, 3 => T244
  | 2, 0, 2 => T313 * 2
  | 2, 0, 3 => T314 * 2
  | 2, 1, 2 => T323 * 2
  | 2, 1, 3 => T324 * 2
  | 2, 2, 5 => T336 * 2
  | 2, 3, 5 => T346 * 2
  | 3, 0, 2 => T413 * 2
  | 3, 0, 3 => T414 * 2
  | 3, 1, 2 => T423 * 2
  | 3, 1, 3 => T424 * 2
  | 3, 2, 5 => T436 * 2
  | 3, 3, 5 => T446 * 2
  | 4, 0, 0 => -T511
  | 4, 0, 1 => -T512 * 2
  | 4, 1, 1 => -T522
  | 4, 0, 5 => -T516 * 2
  | 4, 1, 5 => -T526 * 2
  | 4, 5, 5 => -T566
  | 4, 2, 2 => -T533
  | 4, 2, 3 => -T534 * 2
  | 4, 3, 3 => -T544
  | _, _, _ => 0

/-- `second_order_matrix` (transfer_matrices.py 63-258). -/
noncomputable def secondOrder (z L theta k1 k2 gammaRef : ℝ) (i j k : Fin 6) : ℝ :=
  (coef z L theta k1 k2 gammaRef).T i j k

/-- `track_with_transfer_map` (particles/push/transfer_matrix.py 10-52) on one particle. -/
noncomputable def transferMap (z L theta k1 k2 gammaRef : ℝ) (order : ℕ) (v : V6) : V6 :=
  let r := firstOrder z L theta k1 gammaRef *ᵥ v
  if order = 2 then
    fun i => r i + ∑ j, ∑ k, secondOrder z L theta k1 k2 gammaRef i j k * v j * v k
  else r

/-! ### Coordinates -/

/-- `convert_to_ocelot_matrix` (bunch_manipulation.py 6-23) on one particle, with the
reference energy given or already determined (lines 18-19). -/
noncomputable def toOcelot (gammaRef : ℝ) (v : V6) : V6 :=
  let g := √(1 + v 1 ^ 2 + v 3 ^ 2 + v 5 ^ 2)
  let bRef := √(1 - 1 / gammaRef ^ 2)
  let dp := (g - gammaRef) / (gammaRef * bRef)
  let pKin := √(gammaRef ^ 2 - 1)
  ![v 0, v 1 / pKin, v 2, v 3 / pKin, -v 4, dp]

/-- `convert_from_ocelot_matrix` (bunch_manipulation.py 26-54) on one particle. -/
noncomputable def fromOcelot (gammaRef : ℝ) (v : V6) : V6 :=
  let bRef := √(1 - 1 / gammaRef ^ 2)
  let gamma := v 5 * gammaRef * bRef + gammaRef
  let pKin := √(gammaRef ^ 2 - 1)
  let px := v 1 * pKin
  let py := v 3 * pKin
  ![v 0, px, v 2, py, -v 4, √(gamma ^ 2 - px ^ 2 - py ^ 2 - 1)]

/-- `rotation_matrix_xz` (bunch_manipulation.py 57-66). -/
noncomputable def rotXZ (angle : ℝ) : Matrix (Fin 6) (Fin 6) ℝ :=
  let cs := Real.cos angle
  let sn := Real.sin angle
  !![cs, 0, 0, 0, sn, 0;
     0, cs, 0, 0, 0, sn;
     0, 0, 1, 0, 0, 0;
     0, 0, 0, 1, 0, 0;
     -sn, 0, 0, 0, cs, 0;
     0, -sn, 0, 0, 0, cs]

end WakeT.TransferMatrix
