import Verif.Base.Tactics
import Mathlib.Analysis.SpecialFunctions.Log.Basic
import Mathlib.Algebra.BigOperators.Intervals
import Mathlib.Algebra.Order.Round

/-!
# Model of the quasistatic plasma column: particles, wake potential

Files: `wake_t/physics_models/plasma_wakefields/qs_rz_baxevanis/`
`plasma_particles.py` and `psi_and_derivatives.py`.

The arrays of the plasma particles are functions of the index.  `idx` is the
result of `np.argsort(r)`: a permutation of `0 .. n-1` along which `r` does not
decrease.  Functions that visit the particles in sorted order are modelled on
the sorted sequences `k ↦ x (idx k)`: since `idx` is a permutation, the entry
`idx k` of an output array is written exactly once, in iteration `k`.
-/

set_option linter.unusedSectionVars false

namespace WakeT.Plasma

/-! ### The initial column -/

/-- `int(np.round(x))`: round half to even (plasma_particles.py 32). -/
noncomputable def npRound (x : ℝ) : ℤ :=
  if x - ⌊x⌋ < 1 / 2 then ⌊x⌋
  else if 1 / 2 < x - ⌊x⌋ then ⌊x⌋ + 1
  else if ⌊x⌋ % 2 = 0 then ⌊x⌋ else ⌊x⌋ + 1

/-- The parameters stored by `PlasmaParticles.__init__` that matter here (plasma_particles.py
40-58). -/
structure Column where
  rMaxPlasma : ℝ
  pc : ℝ
  drP : ℝ
  nPart : ℤ

/-- `PlasmaParticles.__init__` (plasma_particles.py 29-46). -/
noncomputable def Column.init (rMaxPlasma pc dr : ℝ) (ppc : ℕ) : Column :=
  let nPart := npRound (rMaxPlasma / dr * ppc)
  let drP := dr / ppc
  { rMaxPlasma := nPart * drP, pc := pc, drP := dr / ppc, nPart := nPart }

/-- `np.linspace(start, stop, n)[i]`: for `n = 1` the single value is `start`. -/
noncomputable def linspace (start stop : ℝ) (n : ℤ) (i : ℕ) : ℝ :=
  if n = 1 then start else start + i * ((stop - start) / ((n : ℝ) - 1))

/-- `self.r[i]` after `initialize` (plasma_particles.py 52-53). -/
noncomputable def Column.r (c : Column) (i : ℕ) : ℝ :=
  linspace (c.drP / 2) (c.rMaxPlasma - c.drP / 2) c.nPart i

/-- `self.q[i]` after `initialize` (plasma_particles.py 57-58). -/
noncomputable def Column.q (c : Column) (i : ℕ) : ℝ :=
  c.drP * c.r i + c.drP * c.pc * c.r i ^ 3

/-- `self.pr[i]` after `initialize` (plasma_particles.py 54). -/
def Column.pr (_ : Column) (_ : ℕ) : ℝ := 0

/-! ### Potential of the enclosed charge -/

/-- `delta_psi_eq` (psi_and_derivatives.py 336-346). -/
noncomputable def deltaPsi (r s1 s2 rMax pc : ℝ) : ℝ :=
  let elec := s1 * Real.log r - s2
  let ion :=
    if r ≤ rMax then 1 / 4 * r ^ 2 + pc * r ^ 4 / 16
    else 1 / 4 * rMax ^ 2 + pc * rMax ^ 4 / 16 +
      (1 / 2 * rMax ^ 2 + 1 / 4 * pc * rMax ^ 4) * (Real.log r - Real.log rMax)
  elec - ion

/-- `dr_psi_eq` (psi_and_derivatives.py 350-357). -/
noncomputable def drPsi (r s1 rMax pc : ℝ) : ℝ :=
  let elec := s1 / r
  let ion :=
    if r ≤ rMax then 1 / 2 * r + 1 / 4 * pc * r ^ 3
    else (1 / 2 * rMax ^ 2 + 1 / 4 * pc * rMax ^ 4) / r
  elec - ion

/-! ### Potential at the particles -/

/-- Arguments of `calculate_psi_and_derivatives_at_particles`
(psi_and_derivatives.py 13-14); the arrays in sorted order. -/
structure Slice where
  n : ℕ
  r : ℕ → ℝ
  pr : ℕ → ℝ
  q : ℕ → ℝ
  rMax : ℝ
  drP : ℝ
  pc : ℝ

namespace Slice
variable (s : Slice)

/-- `sum_1` before iteration `k` (psi_and_derivatives.py 45, 60, 100). -/
noncomputable def sum1 (k : ℕ) : ℝ := ∑ i ∈ Finset.range k, s.q i

/-- `sum_2` before iteration `k` (psi_and_derivatives.py 46, 61, 101). -/
noncomputable def sum2 (k : ℕ) : ℝ := ∑ i ∈ Finset.range k, s.q i * Real.log (s.r i)

/-- `r_left` (psi_and_derivatives.py 65-72, 130-135). -/
noncomputable def rLeft (k : ℕ) : ℝ := if 0 < k then (s.r (k - 1) + s.r k) / 2 else 0

/-- `r_right` (psi_and_derivatives.py 78-84, 139-143). -/
noncomputable def rRight (k : ℕ) : ℝ :=
  if k + 1 < s.n then (s.r k + s.r (k + 1)) / 2 else s.r k + s.drP / 2

/-- `psi_left` (psi_and_derivatives.py 68, 73). -/
noncomputable def psiLeft (k : ℕ) : ℝ :=
  if 0 < k then deltaPsi (s.rLeft k) (s.sum1 k) (s.sum2 k) s.rMax s.pc else 0

/-- `psi_right` (psi_and_derivatives.py 86). -/
noncomputable def psiRight (k : ℕ) : ℝ :=
  deltaPsi (s.rRight k) (s.sum1 (k + 1)) (s.sum2 (k + 1)) s.rMax s.pc

/-- `dr_psi_left` (psi_and_derivatives.py 69, 74). -/
noncomputable def drPsiLeft (k : ℕ) : ℝ :=
  if 0 < k then drPsi (s.rLeft k) (s.sum1 k) s.rMax s.pc else 0

/-- `dr_psi_right` (psi_and_derivatives.py 87). -/
noncomputable def drPsiRight (k : ℕ) : ℝ := drPsi (s.rRight k) (s.sum1 (k + 1)) s.rMax s.pc

/-- The linear interpolation between the left and right point (psi_and_derivatives.py 90-92, 95-97,
147-149). -/
noncomputable def interp (left right : ℝ) (k : ℕ) : ℝ :=
  let b := (right - left) / (s.rRight k - s.rLeft k)
  let a := left - b * s.rLeft k
  a + b * s.r k

/-- The radius where the potential is set to zero (psi_and_derivatives.py 105).  `r_right` is the one of
the last iteration; without particles the code fails at this point. -/
noncomputable def rFurthest : ℝ := max (s.rRight (s.n - 1)) s.rMax

/-- `psi_pp[idx[k]]` before it is limited (psi_and_derivatives.py 92, 106). -/
noncomputable def psiRaw (k : ℕ) : ℝ :=
  s.interp (s.psiLeft k) (s.psiRight k) k -
    deltaPsi s.rFurthest (s.sum1 s.n) (s.sum2 s.n) s.rMax s.pc

/-- Final `psi_pp[idx[k]]` (psi_and_derivatives.py 114-117). -/
noncomputable def psi (k : ℕ) : ℝ := if s.psiRaw k < -(9 / 10) then -(9 / 10) else s.psiRaw k

/-- Final `dr_psi_pp[idx[k]]` (psi_and_derivatives.py 97). -/
noncomputable def drPsiAt (k : ℕ) : ℝ := s.interp (s.drPsiLeft k) (s.drPsiRight k) k

/-- `sum_3` before iteration `k` of the second loop (psi_and_derivatives.py 47, 127, 150). -/
noncomputable def sum3 (k : ℕ) : ℝ :=
  ∑ i ∈ Finset.range k, s.q i * s.pr i / (s.r i * (1 + s.psi i))

/-- The term added to `dxi_psi_pp` for the boundary condition (psi_and_derivatives.py 153-157).  `r_right`,
`pr_i`, `psi_i` are the values of the last iteration. -/
noncomputable def dxiBoundary : ℝ :=
  let l := s.n - 1
  if s.rRight l ≤ s.rMax then s.sum3 s.n
  else s.sum3 s.n - (s.sum1 s.n - s.rMax ^ 2 / 2 - s.pc * s.rMax / 4) * s.pr l /
    (s.rRight l * (1 + s.psi l))

/-- `dxi_psi_left` (psi_and_derivatives.py 133, 136) without the boundary term. -/
noncomputable def dxiLeft (k : ℕ) : ℝ := if 0 < k then -s.sum3 k else 0

/-- `dxi_psi_right` (psi_and_derivatives.py 144) without the boundary term. -/
noncomputable def dxiRight (k : ℕ) : ℝ := -s.sum3 (k + 1)

/-- Limit to `[-3, 3]` (psi_and_derivatives.py 162-166). -/
noncomputable def limit3 (x : ℝ) : ℝ :=
  let x := if x > 3 then 3 else x
  if x < -3 then -3 else x

/-- Final `dxi_psi_pp[idx[k]]` (psi_and_derivatives.py 147-166). -/
noncomputable def dxiPsi (k : ℕ) : ℝ :=
  limit3 (s.interp (s.dxiLeft k) (s.dxiRight k) k + s.dxiBoundary)

end Slice

/-! ### Potential on the grid -/

/-- The search loop (psi_and_derivatives.py 225-231, b_theta.py 130-136) from
position `i` with `m` particles left: position of the last particle before the
first one with `r_j ≤ r`. -/
noncomputable def scan (r : ℕ → ℝ) (rj : ℝ) : ℕ → ℕ → ℤ
  | 0, i => (i : ℤ) - 1
  | m + 1, i => if rj ≤ r i then (i : ℤ) - 1 else scan r rj m (i + 1)

/-- The loop over the radii `r_fld` (psi_and_derivatives.py 220-241, b_theta.py
125-143), from `i_last = iLast`.  `out (-1) r_j` is the value written if no particle is
inside of `r_j`, `out k r_j` the one for sorted position `k`. -/
noncomputable def gridLoop (n : ℕ) (r : ℕ → ℝ) (out : ℤ → ℝ → ℝ) : ℕ → List ℝ → List ℝ
  | _, [] => []
  | iLast, rj :: rest =>
    let k := scan r rj (n - iLast) iLast
    out k rj :: gridLoop n r out (if k = -1 then 0 else k.toNat) rest

/-- `calculate_psi` (psi_and_derivatives.py 170-245): the values written to
`psi[k+2, 2:2+n_points]`.  `sum_1_arr[idx[k]]` is the sum of the charges up to sorted
position `k` (204-212).  The code subtracts the boundary value from the whole row
(245), including its four guard cells; these are not modelled. -/
noncomputable def calculatePsi (rFld : List ℝ) (n : ℕ) (r q : ℕ → ℝ) (idx : ℕ → ℕ)
    (rMax pc : ℝ) : List ℝ :=
  let rs := fun k => r (idx k)
  let sum1 := fun k : ℕ => ∑ i ∈ Finset.range k, q (idx i)
  let sum2 := fun k : ℕ => ∑ i ∈ Finset.range k, q (idx i) * Real.log (r (idx i))
  let out := fun (k : ℤ) rj =>
    if k = -1 then deltaPsi rj 0 0 rMax pc
    else deltaPsi rj (sum1 (k.toNat + 1)) (sum2 (k.toNat + 1)) rMax pc
  let rFurthest := max (rs (n - 1)) rMax
  (gridLoop n rs out 0 rFld).map fun v => v - deltaPsi rFurthest (sum1 n) (sum2 n) rMax pc

end WakeT.Plasma
