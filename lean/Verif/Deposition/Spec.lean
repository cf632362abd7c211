import Verif.Deposition.Model
import Mathlib.Order.Interval.Finset.Defs
import Mathlib.Data.Int.Interval

/-! # Specification vocabulary for the deposition -/

set_option linter.unusedSectionVars false

namespace WakeT.Deposition

variable {K : Type*} [Field K] [LinearOrder K] [IsStrictOrderedRing K] [FloorRing K]

/-- The grids used by the library: positive spacings and cell-centred in `r`
(rz_wakefield.py: `r_fld[0] = dr / 2`; deposition.py 74 assumes it). -/
structure Grid.Regular (g : Grid K) : Prop where
  dz : 0 < g.dz
  dr : 0 < g.dr
  rMin : g.rMin = g.dr / 2

/-- Sum of `φ i j * a i j` over the allocated array of shape `(nz+4, nr+4)`. -/
def weighted (g : Grid K) (φ : ℤ → ℤ → K) (a : ℤ → ℤ → K) : K :=
  ∑ i ∈ Finset.Ico (0 : ℤ) (g.nz + 4), ∑ j ∈ Finset.Ico (0 : ℤ) (g.nr + 4), φ i j * a i j

/-- Total of the allocated array. -/
def total (g : Grid K) (a : ℤ → ℤ → K) : K := weighted g (fun _ _ => 1) a

/-- Total weight of a list of particles. -/
def weight (ps : List (Part K)) : K := (ps.map Part.w).sum

/-- The particles inside the box: between the first and last longitudinal node
and not beyond the outer radius. -/
def Grid.inside (g : Grid K) (ps : List (Part K)) : List (Part K) :=
  ps.filter fun p => decide (g.zMin ≤ p.z ∧ p.z ≤ g.zMin + ((g.nz : K) - 1) * g.dz ∧
    p.r ≤ g.nr * g.dr)

/-- Linear (triangular) shape function. -/
def hat (x : K) : K := max 0 (1 - |x|)

/-- Cubic B-spline. -/
def bspline (x : K) : K :=
  if |x| ≤ 1 then (4 - 6 * |x| ^ 2 + 3 * |x| ^ 3) / 6
  else if |x| ≤ 2 then (2 - |x|) ^ 3 / 6
  else 0

/-- Cubic B-spline of a particle at `x` on the cells `0 .. n-1`, with the parts
beyond the two ends reflected back (the ends are half a cell outside of the
first and the last cell). -/
def bsplineFolded (n : ℕ) (c : ℤ) (x : K) : K :=
  if 0 ≤ c ∧ c < n then
    bspline (c - x) + bspline (-1 - c - x) + bspline (2 * n - 1 - c - x)
  else 0

/-- Longitudinal position of array row `i` (two guard cells). -/
def Grid.zNode (g : Grid K) (i : ℤ) : K := g.zMin + ((i : K) - 2) * g.dz

/-- Radial position of array column `j` (two guard cells). -/
def Grid.rNode (g : Grid K) (j : ℤ) : K := g.rMin + ((j : K) - 2) * g.dr

/-- A row and column that belong to the physical grid. -/
def Grid.Physical (g : Grid K) (i j : ℤ) : Prop :=
  2 ≤ i ∧ i < g.nz + 2 ∧ 2 ≤ j ∧ j < g.nr + 2

end WakeT.Deposition
