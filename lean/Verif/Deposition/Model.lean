import Mathlib.Algebra.Order.Field.Basic
import Mathlib.Algebra.Order.Floor.Ring
import Mathlib.Algebra.BigOperators.Group.Finset.Basic

/-!
# Model of `wake_t/particles/deposition.py`

The deposition array is a function of two integer indices; its allocated part
is `0 ≤ i < nz + 4`, `0 ≤ j < nr + 4` (deposition.py 40-43).  The statements
`deposition_array[i, j] += v` executed for one particle are produced as a list
of writes, so that out-of-bounds accesses are visible in the model.

Simplification: the particle is given by its radius `r` instead of `x, y`; the
code computes `r = sqrt(x**2 + y**2)` (94, 182) and uses `x, y` nowhere else.
-/

set_option linter.unusedSectionVars false

namespace WakeT.Deposition

/-- Grid parameters of `deposit_3d_distribution` (deposition.py 16-18, 31-39). -/
structure Grid (K : Type*) where
  zMin : K
  rMin : K
  nz : ℕ
  nr : ℕ
  dz : K
  dr : K

/-- A macroparticle: `z`, `r = sqrt(x**2 + y**2)`, weight (deposition.py 87-94). -/
structure Part (K : Type*) where
  z : K
  r : K
  w : K

/-- One statement `deposition_array[i, j] += v` (particles/deposition.py 141-144, 260-275). -/
structure Write (K : Type*) where
  i : ℤ
  j : ℤ
  v : K

variable {K : Type*} [Field K] [LinearOrder K] [IsStrictOrderedRing K] [FloorRing K]

/-- `z_i >= z_min and z_i <= z_max and r_i <= r_max` (deposition.py 82-83, 97 and 170-171,
185). -/
def Grid.Inside (g : Grid K) (p : Part K) : Prop :=
  g.zMin ≤ p.z ∧ p.z ≤ g.zMin + ((g.nz : K) - 1) * g.dz ∧ p.r ≤ g.nr * g.dr

instance (g : Grid K) (p : Part K) : Decidable (g.Inside p) := by
  unfold Grid.Inside; infer_instance

/-- `r_cell` (deposition.py 99, 187). -/
def Grid.rCell (g : Grid K) (p : Part K) : K := (p.r - g.rMin) / g.dr

/-- `z_cell` (deposition.py 100, 188). -/
def Grid.zCell (g : Grid K) (p : Part K) : K := (p.z - g.zMin) / g.dz

/-- `cell_volume_norm[k]` (deposition.py 74-77, 161-164).  The factor `pi * dz` of the volume
and of the normalisation is cancelled. -/
def cellVolumeNorm (g : Grid K) (k : ℕ) : K :=
  let r := ((k : K) + 1 / 2) * g.dr
  ((r + 1 / 2 * g.dr) ^ 2 - (r - 1 / 2 * g.dr) ^ 2) / (2 * g.dr ^ 2)

/-- `ruyten_coef[ir]` for linear shapes (deposition.py 73-80): `np.cumsum` is the sum of the
first `ir` volumes. -/
def ruytenLinear (g : Grid K) (ir : ℕ) : K :=
  if ir = 0 then 0
  else 6 / (ir : K) *
    ((∑ k ∈ Finset.range ir, cellVolumeNorm g k) - 1 / 2 * (ir : K) ^ 2 - 1 / 24)

/-- `ruyten_coef[ir]` for cubic shapes (deposition.py 160-168). -/
def ruytenCubic (g : Grid K) (ir : ℕ) : K :=
  if ir = 0 then 0
  else if ir = 1 then 6 * (cellVolumeNorm g 0 - 1 / 2 - 239 / (15 * 2 ^ 7))
  else 6 / (ir : K) *
    ((∑ k ∈ Finset.range ir, cellVolumeNorm g k) - 1 / 2 * (ir : K) ^ 2 - 1 / 8)

/-- Index into `ruyten_coef` (deposition.py 134, 215). -/
def ruytenIndex (g : Grid K) (p : Part K) : ℤ := min ⌈g.rCell p⌉ g.nr

/-! ### Linear shape -/

/-- `u_r` (deposition.py 106-114). -/
def uR (g : Grid K) (p : Part K) : K :=
  if g.rCell p < 0 then 1
  else if g.rCell p > (g.nr : K) - 1 then 0
  else g.rCell p - ⌈g.rCell p⌉ + 1

/-- `u_z` (deposition.py 116-124).  The second test is on `r_cell`, as in line 120. -/
def uZ (g : Grid K) (p : Part K) : K :=
  if g.zCell p < 0 then 1
  else if g.rCell p > (g.nz : K) - 1 then 0
  else g.zCell p - ⌈g.zCell p⌉ + 1

/-- Writes of one particle in `deposit_3d_distribution_linear` (deposition.py 86-144). -/
def writesLinear (ruyten : Bool) (g : Grid K) (p : Part K) : List (Write K) :=
  if g.Inside p then
    let ir := min (⌈g.rCell p⌉ + 1) ((g.nr : ℤ) + 2)
    let iz := ⌈g.zCell p⌉ + 1
    let ur := uR g p
    let uz := uZ g p
    let zsl0 := 1 - uz
    let zsl1 := uz
    let rc := if ruyten then ruytenLinear g (ruytenIndex g p).toNat else 0
    let rsl0 := 1 - ur + rc * (1 - ur) * ur
    let rsl1 := ur - rc * (1 - ur) * ur
    [⟨iz, ir, zsl0 * rsl0 * p.w⟩, ⟨iz, ir + 1, zsl0 * rsl1 * p.w⟩,
     ⟨iz + 1, ir, zsl1 * rsl0 * p.w⟩, ⟨iz + 1, ir + 1, zsl1 * rsl1 * p.w⟩]
  else []

/-! ### Cubic shape -/

/-- The four shape coefficients of one direction (particles/deposition.py 199-211). -/
structure S4 (K : Type*) where
  s0 : K
  s1 : K
  s2 : K
  s3 : K

/-- Cubic shape coefficients for the offset `u` (deposition.py 199-211; the same formulas in
z and r). -/
def cubicShape (u : K) : S4 K :=
  let v := 1 - u
  ⟨1 / 6 * v ^ 3, 1 / 6 * (3 * u ^ 3 - 6 * u ^ 2 + 4), 1 / 6 * (3 * v ^ 3 - 6 * v ^ 2 + 4),
    1 / 6 * u ^ 3⟩

/-- Folding of the coefficients into the grid (deposition.py 223-239 for r, 241-257 for z;
the two blocks are the same code). -/
def foldShape (cell : K) (n : ℕ) (s : S4 K) : S4 K :=
  if cell ≤ 0 then ⟨0, 0, s.s2 + s.s1, s.s3 + s.s0⟩
  else if cell ≤ 1 then ⟨0, s.s1 + s.s0, s.s2, s.s3⟩
  else if cell > (n : K) - 1 then ⟨s.s0 + s.s3, s.s1 + s.s2, 0, 0⟩
  else if cell > (n : K) - 2 then ⟨s.s0, s.s1, s.s2 + s.s3, 0⟩
  else s

/-- Writes of one particle in `deposit_3d_distribution_cubic` (deposition.py 174-275). -/
def writesCubic (ruyten : Bool) (g : Grid K) (p : Part K) : List (Write K) :=
  if g.Inside p then
    let ir := min ⌈g.rCell p⌉ ((g.nr : ℤ) + 2)
    let iz := ⌈g.zCell p⌉
    let uz := g.zCell p - ⌈g.zCell p⌉ + 1
    let ur := g.rCell p - ⌈g.rCell p⌉ + 1
    let zs := cubicShape uz
    let rs := cubicShape ur
    let rc := if ruyten then ruytenCubic g (ruytenIndex g p).toNat else 0
    let rs : S4 K := { rs with s1 := rs.s1 + rc * (1 - ur) * ur, s2 := rs.s2 - rc * (1 - ur) * ur }
    let rs := foldShape (g.rCell p) g.nr rs
    let zs := foldShape (g.zCell p) g.nz zs
    let w := p.w
    [⟨iz, ir, zs.s0 * rs.s0 * w⟩, ⟨iz, ir + 1, zs.s0 * rs.s1 * w⟩,
     ⟨iz, ir + 2, zs.s0 * rs.s2 * w⟩, ⟨iz, ir + 3, zs.s0 * rs.s3 * w⟩,
     ⟨iz + 1, ir, zs.s1 * rs.s0 * w⟩, ⟨iz + 1, ir + 1, zs.s1 * rs.s1 * w⟩,
     ⟨iz + 1, ir + 2, zs.s1 * rs.s2 * w⟩, ⟨iz + 1, ir + 3, zs.s1 * rs.s3 * w⟩,
     ⟨iz + 2, ir, zs.s2 * rs.s0 * w⟩, ⟨iz + 2, ir + 1, zs.s2 * rs.s1 * w⟩,
     ⟨iz + 2, ir + 2, zs.s2 * rs.s2 * w⟩, ⟨iz + 2, ir + 3, zs.s2 * rs.s3 * w⟩,
     ⟨iz + 3, ir, zs.s3 * rs.s0 * w⟩, ⟨iz + 3, ir + 1, zs.s3 * rs.s1 * w⟩,
     ⟨iz + 3, ir + 2, zs.s3 * rs.s2 * w⟩, ⟨iz + 3, ir + 3, zs.s3 * rs.s3 * w⟩]
  else []

/-! ### The deposition -/

/-- Execution of `deposition_array[i, j] += v` (particles/deposition.py 141-144, 260-275). -/
def addAt (a : ℤ → ℤ → K) (wr : Write K) : ℤ → ℤ → K :=
  fun i j => if i = wr.i ∧ j = wr.j then a i j + wr.v else a i j

/-- The argument `p_shape` (deposition.py 44-45, 48-59). -/
inductive Shape where
  | linear
  | cubic
  deriving DecidableEq

/-- Dispatch on the string `p_shape` (deposition.py 48-59); `none` is the `ValueError`. -/
def parseShape (s : String) : Option Shape :=
  if s = "linear" then some .linear else if s = "cubic" then some .cubic else none

/-- The writes of one particle (particles/deposition.py 48-56). -/
def writes (sh : Shape) (ruyten : Bool) (g : Grid K) (p : Part K) : List (Write K) :=
  match sh with
  | .linear => writesLinear ruyten g p
  | .cubic => writesCubic ruyten g p

/-- The loop over particles for a recognised shape (deposition.py 86-144, 174-275).  Although
the loop is written with `prange`, the functions are compiled with
`njit_serial` (62, 149), so it is sequential. -/
def depositShape (sh : Shape) (ruyten : Bool) (g : Grid K) (ps : List (Part K))
    (a : ℤ → ℤ → K) : ℤ → ℤ → K :=
  ps.foldl (fun a p => (writes sh ruyten g p).foldl addAt a) a

/-- `deposit_3d_distribution` (deposition.py 16-59). -/
def deposit (pShape : String) (ruyten : Bool) (g : Grid K) (ps : List (Part K))
    (a : ℤ → ℤ → K) : Option (ℤ → ℤ → K) :=
  (parseShape pShape).map fun sh => depositShape sh ruyten g ps a

end WakeT.Deposition
