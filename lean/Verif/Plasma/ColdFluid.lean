import Verif.Base.Gradient
import Verif.Interp.Lemmas

/-!
# Model of the one-dimensional cold fluid wakefield

File: `wake_t/physics_models/plasma_wakefields/qs_cold_fluid_1x3p.py`.
-/

set_option linter.unusedSectionVars false

namespace WakeT.ColdFluid

open WakeT.Interp

/-- The inputs of `_calculate_wakefield` (qs_cold_fluid_1x3p.py 146-185), in units of the skin depth.

* `laser`: modulus of the envelope, divided by `sqrt 2` for linear polarization (148-153), or
  `None`;
* `beam`: `beam_hist` after the removal of guard cells and the normalisation (166-181). -/
structure Cold where
  nXi : ℕ
  nR : ℕ
  xiMin : ℝ
  dz : ℝ
  dr : ℝ
  beamWakefields : Bool
  laser : Option (ℕ → ℕ → ℝ)
  beam : ℕ → ℕ → ℝ

variable (m : Cold)

/-- `a_env` (qs_cold_fluid_1x3p.py 148-155). -/
noncomputable def Cold.aEnv : ℕ → ℕ → ℝ := m.laser.getD fun _ _ => 0

/-- `a_rz` with guard cells (qs_cold_fluid_1x3p.py 158-159). -/
noncomputable def Cold.aRz : Arr ℝ :=
  ⟨m.nXi + 4, m.nR + 4, fun i j =>
    if 2 ≤ i ∧ i < m.nXi + 2 ∧ 2 ≤ j ∧ j < m.nR + 2 then m.aEnv (i - 2).toNat (j - 2).toNat else 0⟩

/-- `r_fld` (qs_cold_fluid_1x3p.py 164; rz_wakefield.py 127). -/
noncomputable def Cold.rFld (j : ℕ) : ℝ := m.dr / 2 + j * m.dr

/-- `z_fld` (qs_cold_fluid_1x3p.py 185; rz_wakefield.py 128). -/
noncomputable def Cold.zFld (k : ℕ) : ℝ := m.xiMin + k * m.dz

/-- The grid arguments of the gathering (qs_cold_fluid_1x3p.py 194-202). -/
noncomputable def Cold.box : Box :=
  ⟨m.xiMin, m.xiMin + ((m.nXi : ℝ) - 1) * m.dz, m.dr / 2, m.dr / 2 + ((m.nR : ℝ) - 1) * m.dr,
    m.dz, m.dr⟩

/-- The laser at radial cell `j` and position `z` (qs_cold_fluid_1x3p.py 190-206).  The gathering never reads out of
the array (`gather_ok`), so the default value is not used. -/
noncomputable def Cold.a0 (j : ℕ) (z : ℝ) : ℝ :=
  match m.laser with
  | none => 0
  | some _ => (gatherField1 m.box m.aRz (m.rFld j) 0 z).getD 0

/-- `__wakefield_ode_system` (qs_cold_fluid_1x3p.py 139-144). -/
noncomputable def Cold.ode (u : ℝ × ℝ) (a0 nBeam : ℝ) : ℝ × ℝ :=
  if m.beamWakefields then (u.2, (1 + a0 ^ 2) / (2 * (1 + u.1) ^ 2) - nBeam - 1 / 2)
  else (u.2, (1 + a0 ^ 2) / (2 * (1 + u.1) ^ 2) - 1 / 2)

/-- One iteration of the loop (qs_cold_fluid_1x3p.py 187-217) at radial cell `j`: from slice `k` to slice `k - 1`. -/
noncomputable def Cold.step (k j : ℕ) (u : ℝ × ℝ) : ℝ × ℝ :=
  let z := m.zFld k
  let a0 := m.a0 j z
  let a1 := m.a0 j (z - m.dz / 2)
  let a2 := m.a0 j (z - m.dz)
  let n := m.beam k j
  let sc := fun v : ℝ × ℝ => (m.dz * v.1, m.dz * v.2)
  let A := sc (m.ode (u.1, u.2) a0 n)
  let B := sc (m.ode (u.1 + A.1 / 2, u.2 + A.2 / 2) a1 n)
  let C := sc (m.ode (u.1 + B.1 / 2, u.2 + B.2 / 2) a1 n)
  let D := sc (m.ode (u.1 + C.1, u.2 + C.2) a2 n)
  (u.1 + 1 / 6 * (A.1 + 2 * B.1 + 2 * C.1 + D.1), u.2 + 1 / 6 * (A.2 + 2 * B.2 + 2 * C.2 + D.2))

/-- `(u_1, u_2)` at slice `-1 - i` and radial cell `j` (qs_cold_fluid_1x3p.py 183-184, 187-217). -/
noncomputable def Cold.uBack (j : ℕ) : ℕ → ℝ × ℝ
  | 0 => (0, 0)
  | i + 1 => m.step (m.nXi - 1 - i) j (Cold.uBack j i)

/-- `(u_1[k, j], u_2[k, j])`. -/
noncomputable def Cold.u (k j : ℕ) : ℝ × ℝ := m.uBack j (m.nXi - 1 - k)

/-- `E_z` in units of `E_0` (qs_cold_fluid_1x3p.py 218). -/
noncomputable def Cold.Ez (k j : ℕ) : ℝ := -Base.gradient m.nXi m.dz (fun l => (m.u l j).1) k

/-- `W_r` in units of `E_0` (qs_cold_fluid_1x3p.py 219). -/
noncomputable def Cold.Wr (k j : ℕ) : ℝ := -Base.gradient m.nR m.dr (fun l => (m.u k l).1) j

/-- `gamma_fl` (qs_cold_fluid_1x3p.py 224). -/
noncomputable def Cold.gamma (k j : ℕ) : ℝ :=
  (1 + m.aEnv k j ^ 2 + (1 + (m.u k j).1) ^ 2) / (2 * (1 + (m.u k j).1))

/-- `rho_fl` (qs_cold_fluid_1x3p.py 225). -/
noncomputable def Cold.rho (k j : ℕ) : ℝ := m.gamma k j / (1 + (m.u k j).1)

/-- `chi` (qs_cold_fluid_1x3p.py 227). -/
noncomputable def Cold.chi (k j : ℕ) : ℝ := m.rho k j / m.gamma k j

/-- `u_z` (qs_cold_fluid_1x3p.py 230). -/
noncomputable def Cold.uz (k j : ℕ) : ℝ :=
  (1 + m.aEnv k j ^ 2 - (1 + (m.u k j).1) ^ 2) / (2 * (1 + (m.u k j).1))

/-- `v_z` (qs_cold_fluid_1x3p.py 232). -/
noncomputable def Cold.vz (k j : ℕ) : ℝ := m.uz k j / m.gamma k j

/-- `integrand` (qs_cold_fluid_1x3p.py 231-234). -/
noncomputable def Cold.integrand (k j : ℕ) : ℝ :=
  (Base.gradient m.nXi m.dz (fun l => m.Ez l j) k - m.rho k j * m.vz k j + m.beam k j) * m.rFld j

/-- `B_theta` in units of `E_0 / c` (qs_cold_fluid_1x3p.py 235-236). -/
noncomputable def Cold.Bt (k j : ℕ) : ℝ :=
  ((∑ l ∈ Finset.range (j + 1), m.integrand k l) - m.integrand k j / 2) * m.dr / |m.rFld j|

/-- `E_r` in units of `E_0` (qs_cold_fluid_1x3p.py 237). -/
noncomputable def Cold.Er (k j : ℕ) : ℝ := m.Wr k j + m.Bt k j

/-- The stored arrays `e_z`, `e_r`, `b_t` (qs_cold_fluid_1x3p.py 240-242) at physical cell `(k, j)`. -/
noncomputable def Cold.fields (E0 c : ℝ) (k j : ℕ) : ℝ × ℝ × ℝ :=
  (m.Ez k j * E0, m.Er k j * E0, m.Bt k j * E0 / c)

end WakeT.ColdFluid
