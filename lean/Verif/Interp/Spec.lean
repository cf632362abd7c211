import Verif.Interp.Model

/-! # Specification vocabulary for interpolation and gathering -/

set_option linter.unusedSectionVars false

namespace WakeT.Interp

/-- The box of a grid with `nz` longitudinal nodes from `zMin` to `zMax` and `nr`
cell-centred radial nodes, as `RZWakefield` passes it (rz_wakefield.py 127-128,
149-155): `r_min = dr/2` and `r_max = r_fld[-1]` are the first and the
last radial node. -/
structure Box.IsGrid (b : Box) (nz nr : ℕ) : Prop where
  dz : 0 < b.dz
  dr : 0 < b.dr
  zMax : b.zMax = b.zMin + ((nz : ℝ) - 1) * b.dz
  rMin : b.rMin = b.dr / 2
  rMax : b.rMax = ((nr : ℝ) - 1 / 2) * b.dr

/-- Array of the grid: two guard cells at each end. -/
def OnGrid (a : Arr ℝ) (nz nr : ℕ) : Prop := a.ni = nz + 4 ∧ a.nj = nr + 4

/-- Position of longitudinal node `i` of the array (first node is `i = 2`). -/
def Box.zNode (b : Box) (i : ℤ) : ℝ := b.zMin + ((i : ℝ) - 2) * b.dz

/-- Position of radial node `j` of the array. -/
def Box.rNode (b : Box) (j : ℤ) : ℝ := b.rMin + ((j : ℝ) - 2) * b.dr

/-- The array holds the values of `f` at the nodes of the physical grid (the guard
cells may hold anything). -/
def Holds (b : Box) (nz nr : ℕ) (a : Arr ℝ) (f : ℝ → ℝ → ℝ) : Prop :=
  ∀ i j : ℤ, 2 ≤ i → i < nz + 2 → 2 ≤ j → j < nr + 2 → a.val i j = f (b.zNode i) (b.rNode j)

end WakeT.Interp
