import Verif.Plasma.Push
import Verif.Plasma.BTheta
import Verif.Plasma.Deposit
import Verif.Interp.Model
import Verif.Util.RadialGradient

/-!
# Model of the complete quasistatic solver

File: `wake_t/physics_models/plasma_wakefields/qs_rz_baxevanis/solver.py`, with the callers
`plasma_push/rk4.py` and `wakefield.py`.  The parts are modelled in the other files of this
directory; this file puts them together: the plasma column in one slice, the loop over the
slices with both pushers, and the fields derived from the potential.

All quantities are in normalised units.  A result `none` means that the gathering reads outside
of the arrays or that the loop in `b_theta.py` has not ended after as many iterations as there are
particles.  Divisions by zero (a particle on the axis) are not detected in this file.
-/

set_option linter.unusedSectionVars false

namespace WakeT.Plasma

open WakeT.Interp WakeT.Base WakeT.Util WakeT.Deposition

/-- Parameters of the solver: number, initial radii and charges of the plasma particles, extent and
spacing of the column, profile coefficient, grid, limit for gamma, shape, and `np.argsort` (which
sorting permutation it returns for equal radii is not specified by numpy) (solver.py 78-126). -/
structure QS where
  n : ℕ
  r0 : ℕ → ℝ
  q : ℕ → ℝ
  rMaxP : ℝ
  drP : ℝ
  pc : ℝ
  nXi : ℕ
  nR : ℕ
  xiMin : ℝ
  dxi : ℝ
  dr : ℝ
  maxGamma : ℝ
  pShape : String
  argsort : (ℕ → ℝ) → ℕ → ℕ

/-- The source arrays `a2`, `nabla_a2`, `b_t_0`, with guard cells. -/
structure Sources where
  a2 : Arr ℝ
  nablaA2 : Arr ℝ
  bT0 : Arr ℝ

/-- An array with two guard cells at each end, which are zero (solver.py 100-101, 111-112, 116). -/
def padded (nXi nR : ℕ) (f : ℕ → ℕ → ℝ) : Arr ℝ where
  ni := nXi + 4
  nj := nR + 4
  val i j := if 2 ≤ i ∧ i < nXi + 2 ∧ 2 ≤ j ∧ j < nR + 2 then f (i - 2).toNat (j - 2).toNat else 0

namespace QS
variable (c : QS)

/-- `xi_fld[k]` (rz_wakefield.py 128). -/
noncomputable def xi (k : ℕ) : ℝ := c.xiMin + k * c.dxi

/-- `r_fld` (rz_wakefield.py 127). -/
noncomputable def rFld : List ℝ := (List.range c.nR).map fun j : ℕ => ((j : ℝ) + 1 / 2) * c.dr

/-- The box passed to the gathering function (solver.py 403-404, rk4.py 137-138). -/
noncomputable def box : Box where
  zMin := c.xiMin
  zMax := c.xiMin + ((c.nXi : ℝ) - 1) * c.dxi
  rMin := c.dr / 2
  rMax := ((c.nR : ℝ) - 1 / 2) * c.dr
  dz := c.dxi
  dr := c.dr

/-- `QS` for the arguments of `calculate_wakefields` (solver.py 26-29, 84-97), in normalised units. -/
noncomputable def ofArgs (rMax xiMin xiMax : ℝ) (nR nXi ppc : ℕ) (rMaxPlasma : Option ℝ) (pc : ℝ)
    (pShape : String) (maxGamma : ℝ) (argsort : (ℕ → ℝ) → ℕ → ℕ) : QS :=
  let dr := rMax / nR                                                             -- 84
  let col := Column.init (rMaxPlasma.getD rMax) pc dr ppc                         -- 89-97
  { n := col.nPart.toNat, r0 := col.r, q := col.q, rMaxP := col.rMaxPlasma, drP := col.drP, pc := pc
    nXi := nXi, nR := nR, xiMin := xiMin, dxi := (xiMax - xiMin) / ((nXi : ℝ) - 1), dr := dr -- 85
    maxGamma := maxGamma, pShape := pShape, argsort := argsort }

/-- The grid passed to the deposition of the beam (solver.py 118-119, 489-490). -/
noncomputable def grid : Grid ℝ := ⟨c.xiMin, c.dr / 2, c.nXi, c.nR, c.dxi, c.dr⟩

/-- `b_t_beam` without guard cells (solver.py 116-119): the beam field of all bunches; `none` if
the shape is not known (`ValueError` of the deposition). -/
noncomputable def beamField (bunches : List (List (Deposition.Part ℝ))) : Option (ℕ → ℕ → ℝ) :=
  match bunches with
  | [] => some fun _ _ => 0
  | _ => (parseShape c.pShape).map fun sh i k =>
      (bunches.map fun ps => calculateBeamSource sh c.grid ps i k).sum

/-- The sources of a laser and a beam field on the grid (solver.py 100-119). -/
noncomputable def sources (laserA2 bTBeam : ℕ → ℕ → ℝ) : Sources where
  a2 := padded c.nXi c.nR laserA2
  nablaA2 := padded c.nXi c.nR fun i => radialGradient c.nR c.dr (laserA2 i)
  bT0 := padded c.nXi c.nR bTBeam

open Classical in
/-- `gather_sources_qs_baxevanis` for all particles (solver.py 402-405, rk4.py 136-139); `old`
are the contents of the arrays. -/
noncomputable def gather (s : Sources) (r : ℕ → ℝ) (xi : ℝ) (old : ℕ → Src) : Option (ℕ → Src) :=
  let g := fun i => gatherSources1 c.box s.a2 s.nablaA2 s.bT0 (r i) xi (old i)
  if ∀ i < c.n, (g i).isSome then some fun i => (g i).getD (old i) else none

end QS

open Classical in
/-- Content of entry `i` of an array that is written in the order `idx[0], idx[1], ...` with the
values `f 0, f 1, ...` (solver.py 411-422). -/
noncomputable def scatter (n : ℕ) (idx : ℕ → ℕ) (f : ℕ → ℝ) (i : ℕ) : ℝ :=
  if h : ∃ k, k < n ∧ idx k = i then f (Nat.find h) else 0

/-- The values computed for one plasma particle (arrays of plasma_particles.py 79-89). -/
structure AtPart where
  src : Src
  psi : ℝ
  drPsi : ℝ
  dxiPsi : ℝ
  bT : ℝ
  kin : Kin

/-- The part of them that enters the motion (arguments in ab5.py 36-39). -/
def AtPart.pf (a : AtPart) : PFields :=
  ⟨a.kin.gamma, a.psi, a.drPsi, a.bT, a.src.bTheta0, a.src.nablaA2⟩

namespace QS
variable (c : QS)

/-- The arguments of the magnetic field routines in sorted order (solver.py 420-422). -/
noncomputable def bParts (idx : ℕ → ℕ) (x : ℕ → RP) (gamma psi drPsi dxiPsi : ℕ → ℝ)
    (src : ℕ → Src) (k : ℕ) : BPart :=
  let i := idx k
  ⟨(x i).r, (x i).pr, c.q i, gamma i, psi i, drPsi i, dxiPsi i, (src i).bTheta0, (src i).nablaA2⟩

/-- Fields at the particles (solver.py 407-422, rk4.py 142-157). -/
noncomputable def atParticles (x : ℕ → RP) (src : ℕ → Src) : Option (ℕ → AtPart) :=
  let idx := c.argsort fun i => (x i).r                                           -- 408
  let sl : Slice := ⟨c.n, fun k => (x (idx k)).r, fun k => (x (idx k)).pr, fun k => c.q (idx k),
    c.rMaxP, c.drP, c.pc⟩
  let psi := scatter c.n idx sl.psi                                               -- 411-413
  let drPsi := scatter c.n idx sl.drPsiAt
  let dxiPsi := scatter c.n idx sl.dxiPsi
  let kin := fun i => updateGamma (x i).pr (src i).a2 (psi i)                     -- 416
  let parts := c.bParts idx x (fun i => (kin i).gamma) psi drPsi dxiPsi src
  (aiBiFromAxis precise c.n parts c.n).map fun res i =>                           -- 420-422
    ⟨src i, psi i, drPsi i, dxiPsi i, scatter c.n idx (bThetaAt c.n parts c.drP res) i, kin i⟩

/-- The arrays filled in by the solver: rows of `psi` and `b_t_bar` (without guard cells), `rho`
and `chi` (with guard cells) (solver.py 100-126). -/
structure Grids where
  psi : ℕ → List ℝ
  bTBar : ℕ → List ℝ
  rho : ℤ → ℤ → ℝ
  chi : ℤ → ℤ → ℝ

/-- `calculate_and_deposit_plasma_column` (solver.py 356-446) at slice `k`: the particles
(slowed down where necessary), the values at the particles, and the arrays. -/
noncomputable def column (s : Sources) (k : ℕ) (x : ℕ → RP) (old : ℕ → Src) (g : Grids) :
    Option ((ℕ → RP) × (ℕ → AtPart) × Grids) := do
  let r := fun i => (x i).r
  let src ← c.gather s r (c.xi k) old                                             -- 402-405
  let f ← c.atParticles x src                                                     -- 407-422
  let f := fun i => { f i with kin := slowDown c.maxGamma (f i).kin }             -- 427-431
  let x := fun i => (⟨(x i).r, (f i).kin.pr⟩ : RP)
  let idx := c.argsort r
  let psiRow := calculatePsi c.rFld c.n r c.q idx c.rMaxP c.pc                    -- 434-435
  let bRow ← calculateBTheta precise c.rFld c.n (c.bParts idx x (fun i => (f i).kin.gamma)
    (fun i => (f i).psi) (fun i => (f i).drPsi) (fun i => (f i).dxiPsi) src) c.n  -- 436-438
  let rings := fun (w : ℝ → ℝ → ℝ → Kin → ℝ) => (List.range c.n).map fun i =>
    (⟨r i, w (c.q i) c.dr (r i) (f i).kin⟩ : PRing ℝ)                             -- 441-442
  some (x, f,
    { psi := Function.update g.psi k psiRow
      bTBar := Function.update g.bTBar k bRow
      rho := depositPlasma c.pShape (k : ℝ) (c.dr / 2) c.nXi c.nR c.dr (rings wRho) g.rho   -- 443
      chi := depositPlasma c.pShape (k : ℝ) (c.dr / 2) c.nXi c.nR c.dr (rings wChi) g.chi }) -- 445

/-- State of the particles between slices: positions and histories of derivatives, and the
arrays of gathered sources of the slice and of the three Runge-Kutta substeps
(plasma_particles.py 79-89, 102-116, 153-183). -/
structure PState where
  ps : ℕ → AbPart
  o1 : ℕ → Src
  o2 : ℕ → Src
  o3 : ℕ → Src
  o4 : ℕ → Src

open Classical in
/-- Mirror of particles with negative radius (rk4.py 130-133). -/
noncomputable def mirrorNeg (x : ℕ → RP) : ℕ → RP :=
  fun i => if (x i).r < 0 then (x i).neg else x i

/-- `derivatives_substep` (rk4.py 89-170) at position `xi`: gathered sources and derivatives. -/
noncomputable def rkSub (s : Sources) (xi : ℝ) (old : ℕ → Src) (x : ℕ → RP) :
    Option ((ℕ → Src) × (ℕ → RP)) := do
  let y := mirrorNeg x                                                            -- 130-133
  let src ← c.gather s (fun i => (y i).r) xi old                                  -- 136-139
  let f ← c.atParticles y src                                                     -- 142-157
  some (src, substep (fun _ i => (f i).pf) x)                                     -- 161-170

/-- The argument `plasma_pusher` (solver.py 170, 183). -/
inductive Pusher where
  | ab5
  | rk4
  deriving DecidableEq

/-- One iteration of the loop over the slices (solver.py 251-273, 326-352). -/
noncomputable def slice (p : Pusher) (s : Sources) (k : ℕ) (st : PState × Grids) :
    Option (PState × Grids) := do
  let x := fun i => (st.1.ps i).x
  let (x, f, g) ← c.column s k x st.1.o1 st.2
  let o1 := fun i => (f i).src
  let ps := fun i => { st.1.ps i with x := x i }
  if k = 0 then some ({ st.1 with ps := ps, o1 := o1 }, g)                        -- 267, 342
  else match p with
    | .ab5 => some ({ st.1 with ps := evolveAb5 c.dxi (fun _ i => (f i).pf) ps, o1 := o1 }, g)
    | .rk4 => do
      let k1 := fun i => derivs (f i).pf (x i).pr                                 -- rk4.py 52-55
      let (o2, k2) ← c.rkSub s (c.xi k - c.dxi * (1 / 2)) st.1.o2
        fun i => (x i).moved c.dxi (k1 i) (1 / 2)                                 -- 58-63
      let (o3, k3) ← c.rkSub s (c.xi k - c.dxi * (1 / 2)) st.1.o3
        fun i => (x i).moved c.dxi (k2 i) (1 / 2)                                 -- 64-69
      let (o4, k4) ← c.rkSub s (c.xi k - c.dxi) st.1.o4
        fun i => (x i).moved c.dxi (k3 i) 1                                       -- 70-75
      let y := rk4Combine c.dxi x k1 k2 k3 k4                                     -- 78-85
      some (⟨fun i => { ps i with x := y i }, o1, o2, o3, o4⟩, g)

/-- The loop over the slices `n_xi - 1, n_xi - 2, ...` (solver.py 251-252, 326-327), after `m`
iterations. -/
noncomputable def loop (p : Pusher) (s : Sources) (st : PState × Grids) : ℕ → Option (PState × Grids)
  | 0 => some st
  | m + 1 => do
    let st' ← loop p s st m
    c.slice p s (c.nXi - m - 1) st'

/-- Particles as initialised (plasma_particles.py 52-56, 79-85, 102-111, 153-173). -/
noncomputable def startState : PState where
  ps i := AbPart.init ⟨c.r0 i, 0⟩
  o1 _ := ⟨0, 0, 0⟩
  o2 _ := ⟨0, 0, 0⟩
  o3 _ := ⟨0, 0, 0⟩
  o4 _ := ⟨0, 0, 0⟩

/-- Errors of the solver (solver.py 199-201; particles/deposition.py 59). -/
inductive QErr where
  | unknownPusher
  | unknownShape
  /-- see the head of this file -/
  | undefined
  deriving DecidableEq

/-- `evolve_plasma_and_calculate_fields` (solver.py 137-201). -/
noncomputable def evolve (pusher : String) (s : Sources) (g : Grids) : Except QErr Grids :=
  let go := fun p => match c.loop p s (c.startState, g) c.nXi with
    | none => .error .undefined
    | some st => .ok st.2
  if pusher = "ab5" then go .ab5                                                  -- 170
  else if pusher = "rk4" then go .rk4                                             -- 183
  else .error .unknownPusher                                                      -- 199-201

/-- The field arrays of a wakefield, with two guard cells at each end (rz_wakefield.py 119-126). -/
@[ext] structure Fld where
  rho : ℤ → ℤ → ℝ
  chi : ℤ → ℤ → ℝ
  er : ℤ → ℤ → ℝ
  ez : ℤ → ℤ → ℝ
  bt : ℤ → ℤ → ℝ

/-- Assignment to `a[2:-2, 2:-2]`. -/
def setInner (nXi nR : ℕ) (a : ℤ → ℤ → ℝ) (f : ℕ → ℕ → ℝ) : ℤ → ℤ → ℝ := fun i j =>
  if 2 ≤ i ∧ i < nXi + 2 ∧ 2 ≤ j ∧ j < nR + 2 then f (i - 2).toNat (j - 2).toNat else a i j

/-- `calculate_wakefields` (solver.py 78-134) for a laser (its `a**2` on the grid) and bunches, with
the field arrays `f` passed by the caller; `e0` is the wave-breaking field, `cc` the speed of
light.  The guard cells of `psi` do not enter and are not modelled. -/
noncomputable def calculate (pusher : String) (laserA2 : ℕ → ℕ → ℝ)
    (bunches : List (List (Deposition.Part ℝ))) (e0 cc : ℝ) (f : Fld) : Except QErr Fld :=
  match c.beamField bunches with
  | none => .error .unknownShape
  | some beam => do
    let g ← c.evolve pusher (c.sources laserA2 beam) ⟨fun _ => [], fun _ => [], f.rho, f.chi⟩
    let psi := fun i j => (g.psi i).getD j 0
    let bTBar := (padded c.nXi c.nR fun i j => (g.bTBar i).getD j 0).val
    let bTBeam := (padded c.nXi c.nR beam).val
    let wr := (padded c.nXi c.nR fun i j => -gradient c.nR c.dr (psi i) j * e0).val -- 130, 132
    let bt := fun i j => (bTBar i j + bTBeam i j) * e0 / cc                         -- 133
    .ok
      { rho := g.rho
        chi := g.chi
        ez := setInner c.nXi c.nR f.ez fun i j =>
          -gradient c.nXi c.dxi (fun i' => psi i' j) i * e0                         -- 130-131
        bt := bt
        er := fun i j => wr i j + bt i j * cc }                                     -- 134

/-- `RZWakefield._calculate_field` (rz_wakefield.py 136-143) for `Quasistatic2DWakefield`: the
arrays are set to zero before the calculation.  `f` are their old contents. -/
noncomputable def calculateField (pusher : String) (laserA2 : ℕ → ℕ → ℝ)
    (bunches : List (List (Deposition.Part ℝ))) (e0 cc : ℝ) (f : Fld) : Except QErr Fld :=
  c.calculate pusher laserA2 bunches e0 cc
    { f with
      rho := fun _ _ => 0                                                           -- 138
      chi := fun _ _ => 0                                                           -- 139
      ez := fun _ _ => 0                                                            -- 140
      er := fun _ _ => 0                                                            -- 141
      bt := fun _ _ => 0 }                                                          -- 142

end QS

end WakeT.Plasma
