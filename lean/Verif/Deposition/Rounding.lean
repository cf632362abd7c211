import Verif.Base.Tactics
import Verif.Deposition.Model
import Mathlib.Analysis.SpecialFunctions.Pow.Real

/-!
# Deposition with rounding

The loops of `wake_t/particles/deposition.py` with a rounding after each operation on floating point numbers.  `rnd` is the rounding;
what is required of it is stated with the theorems (`Verif.Deposition.RoundingProps`).  Comparisons, `ceil` and operations on integers
are exact.  Powers are products (`x ** 3` as `x * x * x`).  Literals are exact, except for `1. / 6.`.  The coefficients of the Ruyten
correction (70-80, 157-168) are a parameter; see `Verif.Deposition.RoundingCoef` for them.
-/

set_option linter.unusedSectionVars false

namespace WakeT.Deposition.Rounded

/-- A macroparticle (deposition.py 88-91, 176-179). -/
structure Part where
  x : ℝ
  y : ℝ
  z : ℝ
  w : ℝ

variable (rnd : ℝ → ℝ)

/-- `z_max` (deposition.py 82, 170). -/
noncomputable def zMax (g : Grid ℝ) : ℝ := rnd (g.zMin + rnd (((g.nz : ℝ) - 1) * g.dz))

/-- `r_max` (deposition.py 83, 171). -/
noncomputable def rMax (g : Grid ℝ) : ℝ := rnd (g.nr * g.dr)

/-- `r_i` (deposition.py 94, 182). -/
noncomputable def radius (p : Part) : ℝ := rnd √(rnd (rnd (p.x ^ 2) + rnd (p.y ^ 2)))

/-- The test of deposition.py 97, 185. -/
def Inside (g : Grid ℝ) (p : Part) : Prop := g.zMin ≤ p.z ∧ p.z ≤ zMax rnd g ∧ radius rnd p ≤ rMax rnd g

/-- `r_cell` (deposition.py 99, 187). -/
noncomputable def rCell (g : Grid ℝ) (p : Part) : ℝ := rnd (rnd (radius rnd p - g.rMin) / g.dr)

/-- `z_cell` (deposition.py 100, 188). -/
noncomputable def zCell (g : Grid ℝ) (p : Part) : ℝ := rnd (rnd (p.z - g.zMin) / g.dz)

/-- Position in a cell (deposition.py 114, 124, 195-196). -/
noncomputable def frac (c : ℝ) : ℝ := rnd (rnd (c - ⌈c⌉) + 1)

/-! ### Linear shape -/

open Classical in
/-- `u_r` (deposition.py 106-114). -/
noncomputable def uR (g : Grid ℝ) (p : Part) : ℝ :=
  if rCell rnd g p < 0 then 1 else if rCell rnd g p > (g.nr : ℝ) - 1 then 0 else frac rnd (rCell rnd g p)

open Classical in
/-- `u_z` (deposition.py 116-124). -/
noncomputable def uZ (g : Grid ℝ) (p : Part) : ℝ :=
  if zCell rnd g p < 0 then 1 else if rCell rnd g p > (g.nz : ℝ) - 1 then 0 else frac rnd (zCell rnd g p)

/-- `zsl_0`, `zsl_1` (deposition.py 127-128). -/
noncomputable def zLinear (u : ℝ) : List ℝ := [rnd (1 - u), u]

/-- `rsl_0`, `rsl_1` (deposition.py 129-138); `rc` is the coefficient of the correction, if it is used. -/
noncomputable def rLinear (rc : Option ℝ) (u : ℝ) : List ℝ :=
  match rc with
  | none => [rnd (1 - u), u]
  | some c =>
    let d := rnd (rnd (c * rnd (1 - u)) * u)
    [rnd (rnd (1 - u) + d), rnd (u - d)]

/-- Statements `deposition_array[i + a, j + b] += zs[a] * rs[b] * w` (deposition.py 141-144, 260-275): cell and summand. -/
noncomputable def writes (i j : ℤ) (zs rs : List ℝ) (w : ℝ) : List (Write ℝ) :=
  zs.zipIdx.flatMap fun s => rs.zipIdx.map fun t => ⟨i + s.2, j + t.2, rnd (rnd (s.1 * t.1) * w)⟩

open Classical in
/-- One particle of `deposit_3d_distribution_linear` (deposition.py 87-144). -/
noncomputable def writesLinear (coef : Option (ℕ → ℝ)) (g : Grid ℝ) (p : Part) : List (Write ℝ) :=
  if Inside rnd g p then
    let ir := min (⌈rCell rnd g p⌉ + 1) ((g.nr : ℤ) + 2)                          -- 103
    let iz := ⌈zCell rnd g p⌉ + 1                                                 -- 104
    let rc := coef.map fun c => c (min ⌈rCell rnd g p⌉ g.nr).toNat                -- 134-135
    writes rnd iz ir (zLinear rnd (uZ rnd g p)) (rLinear rnd rc (uR rnd g p)) p.w
  else []

/-! ### Cubic shape -/

/-- `inv_6 * v ** 3` (deposition.py 204, 207, 208, 211). -/
noncomputable def outer (v : ℝ) : ℝ := rnd (rnd (1 / 6) * rnd (rnd (v * v) * v))

/-- `inv_6 * (3. * u**3 - 6. * u**2 + 4.)` (deposition.py 205, 206, 209, 210). -/
noncomputable def inner (u : ℝ) : ℝ :=
  rnd (rnd (1 / 6) * rnd (rnd (rnd (3 * rnd (rnd (u * u) * u)) - rnd (6 * rnd (u * u))) + 4))

/-- The four coefficients (deposition.py 199-211). -/
noncomputable def cubic (u : ℝ) : S4 ℝ :=
  let v := rnd (1 - u)
  ⟨outer rnd v, inner rnd u, inner rnd v, outer rnd u⟩

/-- The correction in `r` (deposition.py 213-219). -/
noncomputable def correct (rc : Option ℝ) (u : ℝ) (s : S4 ℝ) : S4 ℝ :=
  match rc with
  | none => s
  | some c =>
    let d := rnd (rnd (c * rnd (1 - u)) * u)
    { s with s1 := rnd (s.s1 + d), s2 := rnd (s.s2 - d) }

open Classical in
/-- Folding of the coefficients into the grid (deposition.py 223-257). -/
noncomputable def fold (cell : ℝ) (n : ℕ) (s : S4 ℝ) : S4 ℝ :=
  if cell ≤ 0 then ⟨0, 0, rnd (s.s2 + s.s1), rnd (s.s3 + s.s0)⟩
  else if cell ≤ 1 then ⟨0, rnd (s.s1 + s.s0), s.s2, s.s3⟩
  else if cell > (n : ℝ) - 1 then ⟨rnd (s.s0 + s.s3), rnd (s.s1 + s.s2), 0, 0⟩
  else if cell > (n : ℝ) - 2 then ⟨s.s0, s.s1, rnd (s.s2 + s.s3), 0⟩
  else s

/-- The coefficients as a list (deposition.py 260-275). -/
def toList (s : S4 ℝ) : List ℝ := [s.s0, s.s1, s.s2, s.s3]

open Classical in
/-- One particle of `deposit_3d_distribution_cubic` (deposition.py 175-275). -/
noncomputable def writesCubic (coef : Option (ℕ → ℝ)) (g : Grid ℝ) (p : Part) : List (Write ℝ) :=
  if Inside rnd g p then
    let ir := min ⌈rCell rnd g p⌉ ((g.nr : ℤ) + 2)                                -- 191
    let iz := ⌈zCell rnd g p⌉                                                     -- 192
    let rc := coef.map fun c => c (min ⌈rCell rnd g p⌉ g.nr).toNat                -- 215-216
    let zs := fold rnd (zCell rnd g p) g.nz (cubic rnd (frac rnd (zCell rnd g p)))
    let rs := fold rnd (rCell rnd g p) g.nr (correct rnd rc (frac rnd (rCell rnd g p)) (cubic rnd (frac rnd (rCell rnd g p))))
    writes rnd iz ir (toList zs) (toList rs) p.w
  else []

/-- `deposition_array[i, j] += v` (deposition.py 141-144, 260-275). -/
noncomputable def addTo (a : ℤ → ℤ → ℝ) (w : Write ℝ) : ℤ → ℤ → ℝ :=
  fun i j => if i = w.i ∧ j = w.j then rnd (a i j + w.v) else a i j

/-- The writes of one particle (deposition.py 48-56). -/
noncomputable def writesOf (sh : Shape) (coef : Option (ℕ → ℝ)) (g : Grid ℝ) (p : Part) : List (Write ℝ) :=
  match sh with
  | .linear => writesLinear rnd coef g p
  | .cubic => writesCubic rnd coef g p

/-- The loop over the particles (deposition.py 86-144, 174-275). -/
noncomputable def deposit (sh : Shape) (coef : Option (ℕ → ℝ)) (g : Grid ℝ) (ps : List Part) (a : ℤ → ℤ → ℝ) : ℤ → ℤ → ℝ :=
  ps.foldl (fun a p => (writesOf rnd sh coef g p).foldl (addTo rnd) a) a

end WakeT.Deposition.Rounded
