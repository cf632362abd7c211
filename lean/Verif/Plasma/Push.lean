import Verif.Plasma.Model
import Mathlib.Algebra.Order.BigOperators.Group.Finset

/-!
# Model of the plasma particle pushers and of the update of gamma

Files: `solver.py` (update of gamma, pz), `plasma_push/ab5.py`, `plasma_push/rk4.py` of
`wake_t/physics_models/plasma_wakefields/qs_rz_baxevanis/`.

The quantities that the code keeps in one array each are kept per particle in one
record.
-/

set_option linter.unusedSectionVars false

namespace WakeT.Plasma

/-! ### Gamma and longitudinal momentum -/

/-- Energy and momentum of a plasma particle (solver.py 464-466). -/
structure Kin where
  pr : ℝ
  gamma : ℝ
  pz : ℝ

/-- One iteration of `update_gamma_and_pz` (solver.py 464-466). -/
noncomputable def updateGamma (pr a2 psi : ℝ) : Kin :=
  { pr := pr
    gamma := (1 + pr ^ 2 + a2 + (1 + psi) ^ 2) / (2 * (1 + psi))
    pz := (1 + pr ^ 2 + a2 - (1 + psi) ^ 2) / (2 * (1 + psi)) }

open Classical in
/-- Particles with `gamma >= max_gamma` are put at rest (solver.py 427-431). -/
noncomputable def slowDown (maxGamma : ℝ) (k : Kin) : Kin :=
  if k.gamma ≥ maxGamma then { pr := 0, gamma := 1, pz := 0 } else k

/-- `w_rho` (solver.py 441). -/
noncomputable def wRho (q dr r : ℝ) (k : Kin) : ℝ := q / (dr * r * (1 - k.pz / k.gamma))

/-- `w_chi` (solver.py 442). -/
noncomputable def wChi (q dr r : ℝ) (k : Kin) : ℝ := wRho q dr r k / k.gamma

/-! ### Derivatives -/

/-- Fields at a plasma particle that enter its motion (ab5.py 36-39). -/
@[ext] structure PFields where
  gamma : ℝ
  psi : ℝ
  drPsi : ℝ
  bT : ℝ
  bT0 : ℝ
  nablaA2 : ℝ

/-- Radial position and momentum (also used for their derivatives) (plasma_particles.py 52-56;
the derivatives in ab5.py 104-110). -/
@[ext] structure RP where
  r : ℝ
  pr : ℝ

/-- One iteration of `calculate_derivatives` (ab5.py 104-110, rk4.py 202-208). -/
noncomputable def derivs (f : PFields) (pr : ℝ) : RP :=
  { r := pr / (1 + f.psi)
    pr := f.gamma * f.drPsi / (1 + f.psi) - f.bT - f.bT0 - f.nablaA2 / (2 * (1 + f.psi)) }

/-! ### Adams-Bashforth -/

/-- `apply_ab5` for one particle (ab5.py 126-130). -/
noncomputable def applyAb5 (x dt d1 d2 d3 d4 d5 : ℝ) : ℝ :=
  x + dt * (1901 * d1 - 2774 * d2 + 2616 * d3 - 1274 * d4 + 251 * d5) * (1 / 720)

/-- A plasma particle with its history of derivatives `dr_2 .. dr_5`, `dpr_2 .. dpr_5`.
(`dr_1`, `dpr_1` are overwritten at the beginning of each push before they are read.) -/
@[ext] structure AbPart where
  x : RP
  d2 : RP
  d3 : RP
  d4 : RP
  d5 : RP

/-- A particle as initialised (plasma_particles.py 102-111). -/
noncomputable def AbPart.init (x : RP) : AbPart := ⟨x, ⟨0, 0⟩, ⟨0, 0⟩, ⟨0, 0⟩, ⟨0, 0⟩⟩

/-- Push and shift of the history (ab5.py 36-56) for one particle. -/
noncomputable def ab5Push (dxi : ℝ) (f : PFields) (p : AbPart) : AbPart :=
  let d1 := derivs f p.x.pr
  { x := ⟨applyAb5 p.x.r dxi d1.r p.d2.r p.d3.r p.d4.r p.d5.r,
          applyAb5 p.x.pr dxi d1.pr p.d2.pr p.d3.pr p.d4.pr p.d5.pr⟩
    d5 := p.d4, d4 := p.d3, d3 := p.d2, d2 := d1 }

/-- `*= -1` on position and momentum (ab5.py 61-62, rk4.py 84-85, 132-133), and on a pair of
derivatives (ab5.py 63-72, rk4.py 169-170). -/
noncomputable def RP.neg (x : RP) : RP := ⟨x.r * -1, x.pr * -1⟩

/-- Mirror of a particle with its history (ab5.py 61-72). -/
noncomputable def AbPart.neg (p : AbPart) : AbPart :=
  ⟨p.x.neg, p.d2.neg, p.d3.neg, p.d4.neg, p.d5.neg⟩

open Classical in
/-- `evolve_plasma_ab5` (ab5.py 10-72) for all particles.  `fields` are the fields of all
particles, computed from their current positions and momenta. -/
noncomputable def evolveAb5 (dxi : ℝ) (fields : (ℕ → RP) → ℕ → PFields) (ps : ℕ → AbPart) :
    ℕ → AbPart :=
  fun i =>
    let p := ab5Push dxi (fields (fun j => (ps j).x) i) (ps i)
    if p.x.r < 0 then p.neg else p

/-! ### Runge-Kutta -/

/-- `apply_rk4` for one particle (rk4.py 224-226). -/
noncomputable def applyRk4 (x dt k1 k2 k3 k4 : ℝ) : ℝ :=
  x + dt * (k1 + 2 * (k2 + k3) + k4) * (1 / 6)

/-- `x + dxi * d * s` (rk4.py 59, 65, 71). -/
noncomputable def RP.moved (x : RP) (dxi : ℝ) (d : RP) (s : ℝ) : RP :=
  ⟨x.r + dxi * d.r * s, x.pr + dxi * d.pr * s⟩

open Classical in
/-- `derivatives_substep` (rk4.py 89-170).  `fields` computes the fields (including gamma, 150)
of all particles from their positions and momenta; the arrays `r`, `pr` are temporaries of the
caller. -/
noncomputable def substep (fields : (ℕ → RP) → ℕ → PFields) (x : ℕ → RP) : ℕ → RP :=
  let y := fun i => if (x i).r < 0 then (x i).neg else x i
  fun i =>
    let d := derivs (fields y i) (y i).pr
    if (x i).r < 0 then d.neg else d

open Classical in
/-- The end of `evolve_plasma_rk4` (rk4.py 78-85): combination of the four derivatives and
reflection at the axis. -/
noncomputable def rk4Combine (dxi : ℝ) (x k1 k2 k3 k4 : ℕ → RP) : ℕ → RP :=
  fun i =>
    let y : RP := ⟨applyRk4 (x i).r dxi (k1 i).r (k2 i).r (k3 i).r (k4 i).r,
      applyRk4 (x i).pr dxi (k1 i).pr (k2 i).pr (k3 i).pr (k4 i).pr⟩
    if y.r < 0 then y.neg else y

/-- `evolve_plasma_rk4` (rk4.py 10-85).  `f1` are the fields at the current slice, `half` and
`full` the field computations at `xi - dxi/2` and `xi - dxi`.  (Here the field computation is a
function of positions and momenta; the full one, with the gathered sources, is in
`Verif.Plasma.Solver`.) -/
noncomputable def evolveRk4 (dxi : ℝ) (f1 : ℕ → PFields)
    (half full : (ℕ → RP) → ℕ → PFields) (x : ℕ → RP) : ℕ → RP :=
  let k1 := fun i => derivs (f1 i) (x i).pr
  let k2 := substep half fun i => (x i).moved dxi (k1 i) (1 / 2)
  let k3 := substep half fun i => (x i).moved dxi (k2 i) (1 / 2)
  let k4 := substep full fun i => (x i).moved dxi (k3 i) 1
  rk4Combine dxi x k1 k2 k3 k4

end WakeT.Plasma
