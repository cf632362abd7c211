import Verif.Base.Memory
import Verif.Plasma.Solver

/-!
# The arrays of the plasma particles

Files: `plasma_particles.py`, `solver.py`, `plasma_push/ab5.py` and `plasma_push/rk4.py` of
`wake_t/physics_models/plasma_wakefields/qs_rz_baxevanis/`.

In `Verif.Plasma.Solver` every intermediate result has its own name.  The code keeps the coordinates of the particles, their
histories and the fields at the particles in arrays, which are allocated once, handed over as positional arguments and
overwritten in place.  Here the solver is modelled with these arrays.

Arrays have a number; the memory holds the contents of all of them.  Loops over the particles whose iteration `i` accesses
only the entries `i` are modelled as acting on all entries at once; inside of an iteration the assignments are in the order of the
code, so that arrays that are not distinct would interfere.
-/

set_option linter.unusedSectionVars false

namespace WakeT.Plasma

open WakeT.Interp WakeT.Base WakeT.Util WakeT.Deposition

/-! ### Allocation -/

/-- The attributes of `PlasmaParticles` that hold arrays (plasma_particles.py 52-56, 86-89, 112-116, 137-139, 174-183). -/
structure PArrays where
  r : ℕ
  pr : ℕ
  pz : ℕ
  gamma : ℕ
  q : ℕ
  fields : List ℕ
  dr : List ℕ
  dpr : List ℕ
  rk4Flds : List (List ℕ)

/-- `PlasmaParticles.allocate_field_arrays` (plasma_particles.py 71-89). -/
def allocFields : StateM Heap (List ℕ) := do
  let a2 ← zeros
  let nablaA2 ← zeros
  let bT0 ← zeros
  let bT ← zeros
  let psi ← zeros
  let drPsi ← zeros
  let dxiPsi ← zeros
  return [a2, nablaA2, bT0, bT, psi, drPsi, dxiPsi]

/-- `PlasmaParticles.allocate_ab5_arrays` (plasma_particles.py 95-116). -/
def allocAb5 : StateM Heap (List ℕ × List ℕ) := do
  let dr1 ← zeros
  let dr2 ← zeros
  let dr3 ← zeros
  let dr4 ← zeros
  let dr5 ← zeros
  let dpr1 ← zeros
  let dpr2 ← zeros
  let dpr3 ← zeros
  let dpr4 ← zeros
  let dpr5 ← zeros
  return ([dr1, dr2, dr3, dr4, dr5], [dpr1, dpr2, dpr3, dpr4, dpr5])

/-- `PlasmaParticles.allocate_rk4_arrays` (plasma_particles.py 122-139). -/
def allocRk4 : StateM Heap (List ℕ × List ℕ) := do
  let dr1 ← zeros
  let dr2 ← zeros
  let dr3 ← zeros
  let dr4 ← zeros
  let dpr1 ← zeros
  let dpr2 ← zeros
  let dpr3 ← zeros
  let dpr4 ← zeros
  return ([dr1, dr2, dr3, dr4], [dpr1, dpr2, dpr3, dpr4])

/-- `PlasmaParticles.allocate_rk4_field_arrays` (plasma_particles.py 145-183): the fields of the first substep are those at
the particles. -/
def allocRk4Fields (fields : List ℕ) : StateM Heap (List (List ℕ)) := do
  let f2 ← allocFields                                                            -- 153-159
  let f3 ← allocFields                                                            -- 160-166
  let f4 ← allocFields                                                            -- 167-173
  return [fields, f2, f3, f4]

namespace QS
variable (c : QS)

/-- `PlasmaParticles.initialize` (plasma_particles.py 48-69). -/
noncomputable def allocate (pusher : String) : StateM Heap PArrays := do
  let r ← newArray c.r0                                                           -- 52-53
  let pr ← zeros                                                                  -- 54
  let pz ← zeros                                                                  -- 55
  let gamma ← newArray fun _ => 1                                                 -- 56
  let q ← newArray c.q                                                            -- 57-58
  let fields ← allocFields                                                        -- 62
  if pusher = "ab5" then                                                          -- 65
    let d ← allocAb5
    return ⟨r, pr, pz, gamma, q, fields, d.1, d.2, []⟩
  else if pusher = "rk4" then                                                     -- 67
    let d ← allocRk4
    let f ← allocRk4Fields fields
    return ⟨r, pr, pz, gamma, q, fields, d.1, d.2, f⟩
  else return ⟨r, pr, pz, gamma, q, fields, [], [], []⟩

end QS

/-! ### Pushers -/

/-- `calculate_derivatives` (ab5.py 75-110, rk4.py 173-208). -/
noncomputable def derivsM (pr gamma bT0 nablaA2 bT psi drPsi dr dpr : ℕ) (m : Mem) : Mem := fun i =>
  let e := m i
  let psiI := e psi
  let e := e.set dpr (e gamma * e drPsi / (1 + psiI) - e bT - e bT0 - e nablaA2 / (2 * (1 + psiI)))
  e.set dr (e pr / (1 + psiI))

/-- `apply_ab5` (ab5.py 113-130). -/
noncomputable def applyAb5M (x : ℕ) (dt : ℝ) (d1 d2 d3 d4 d5 : ℕ) (m : Mem) : Mem := fun i =>
  let e := m i
  e.set x (e x + dt * (1901 * e d1 - 2774 * e d2 + 2616 * e d3 - 1274 * e d4 + 251 * e d5) * (1 / 720))

/-- `a[:] = b` (ab5.py 49-56). -/
def copyM (a b : ℕ) (m : Mem) : Mem := m.write a (m.arr b)

open Classical in
/-- `a[idx_neg] *= -1.` for some arrays, where `idx_neg = np.where(r < 0.)` was found before (ab5.py 59-72, rk4.py 81-85). -/
noncomputable def mirrorM (r : ℕ) (arrays : List ℕ) (m : Mem) : Mem := fun i =>
  if m i r < 0 then arrays.foldl (fun e a => e.set a (e a * -1)) (m i) else m i

/-- `evolve_plasma_ab5` (ab5.py 10-72). -/
noncomputable def evolveAb5M (dxi : ℝ) (r pr gamma nablaA2 bT0 bT psi drPsi dr1 dr2 dr3 dr4 dr5 dpr1 dpr2 dpr3 dpr4 dpr5 : ℕ) (m : Mem) : Mem :=
  let m := derivsM pr gamma bT0 nablaA2 bT psi drPsi dr1 dpr1 m                   -- 36-39
  let m := applyAb5M r dxi dr1 dr2 dr3 dr4 dr5 m                                  -- 42
  let m := applyAb5M pr dxi dpr1 dpr2 dpr3 dpr4 dpr5 m                            -- 45
  let m := copyM dr2 dr1 (copyM dr3 dr2 (copyM dr4 dr3 (copyM dr5 dr4 m)))        -- 49-52
  let m := copyM dpr2 dpr1 (copyM dpr3 dpr2 (copyM dpr4 dpr3 (copyM dpr5 dpr4 m))) -- 53-56
  mirrorM r [r, pr, dr1, dr2, dr3, dr4, dr5, dpr1, dpr2, dpr3, dpr4, dpr5] m      -- 59-72

/-- `apply_rk4` (rk4.py 211-226). -/
noncomputable def applyRk4M (x : ℕ) (dt : ℝ) (k1 k2 k3 k4 : ℕ) (m : Mem) : Mem := fun i =>
  let e := m i
  e.set x (e x + dt * (e k1 + 2 * (e k2 + e k3) + e k4) * (1 / 6))

namespace QS
variable (c : QS)

/-- Numbers of the arrays with the fields at the particles (positional arguments `a2_pp`, ..., `dxi_psi_pp`, solver.py 209). -/
structure FArr where
  a2 : ℕ
  nablaA2 : ℕ
  bT0 : ℕ
  bT : ℕ
  psi : ℕ
  drPsi : ℕ
  dxiPsi : ℕ

/-- `*pp.get_field_arrays()`, `*pp.get_rk4_field_arrays(i)` as seven arguments (solver.py 175, 192-195); a list of another length is
an error. -/
def FArr.ofList : List ℕ → Option FArr
  | [a2, nablaA2, bT0, bT, psi, drPsi, dxiPsi] => some ⟨a2, nablaA2, bT0, bT, psi, drPsi, dxiPsi⟩
  | _ => none

/-- `gather_sources_qs_baxevanis` into three arrays (solver.py 402-405, rk4.py 136-139). -/
noncomputable def gatherM (s : Sources) (r : ℕ) (xi : ℝ) (a2 nablaA2 bT0 : ℕ) (m : Mem) : Option Mem := do
  let src ← c.gather s (m.arr r) xi fun i => ⟨m i a2, m i nablaA2, m i bT0⟩
  some (((m.write a2 fun i => (src i).a2).write nablaA2 fun i => (src i).nablaA2).write bT0 fun i => (src i).bTheta0)

/-- `calculate_psi_and_derivatives_at_particles` (solver.py 411-413, rk4.py 145-147). -/
noncomputable def psiM (r pr q : ℕ) (idx : ℕ → ℕ) (psi drPsi dxiPsi : ℕ) (m : Mem) : Mem :=
  let sl : Slice := ⟨c.n, fun k => m (idx k) r, fun k => m (idx k) pr, fun k => m (idx k) q, c.rMaxP, c.drP, c.pc⟩
  ((m.write psi (scatter c.n idx sl.psi)).write drPsi (scatter c.n idx sl.drPsiAt)).write dxiPsi (scatter c.n idx sl.dxiPsi)

/-- Arguments of the magnetic field routines, in sorted order (solver.py 420-422, 436-438, rk4.py 155-157). -/
def bPartsM (idx : ℕ → ℕ) (r pr q gamma psi drPsi dxiPsi bT0 nablaA2 : ℕ) (m : Mem) (k : ℕ) : BPart :=
  let e := m (idx k)
  ⟨e r, e pr, e q, e gamma, e psi, e drPsi, e dxiPsi, e bT0, e nablaA2⟩

/-- `calculate_b_theta_at_particles` (solver.py 420-422, rk4.py 155-157). -/
noncomputable def bThetaM (r pr q gamma psi drPsi dxiPsi bT0 nablaA2 : ℕ) (idx : ℕ → ℕ) (bT : ℕ) (m : Mem) : Option Mem := do
  let parts := bPartsM idx r pr q gamma psi drPsi dxiPsi bT0 nablaA2 m
  let res ← aiBiFromAxis precise c.n parts c.n
  some (m.write bT (scatter c.n idx (bThetaAt c.n parts c.drP res)))

/-- `update_gamma_and_pz` (solver.py 449-466). -/
noncomputable def gammaM (gamma pz pr a2 psi : ℕ) (m : Mem) : Mem := fun i =>
  let e := m i
  let e := e.set gamma ((1 + e pr ^ 2 + e a2 + (1 + e psi) ^ 2) / (2 * (1 + e psi)))
  e.set pz ((1 + e pr ^ 2 + e a2 - (1 + e psi) ^ 2) / (2 * (1 + e psi)))

open Classical in
/-- Particles with `gamma >= max_gamma` are put at rest (solver.py 427-431). -/
noncomputable def slowM (pz gamma pr : ℕ) (m : Mem) : Mem := fun i =>
  if m i gamma ≥ c.maxGamma then (((m i).set pz 0).set gamma 1).set pr 0 else m i

/-- `calculate_and_deposit_plasma_column` (solver.py 356-446) at slice `k`. -/
noncomputable def columnM (s : Sources) (k : ℕ) (r pr pz gamma q : ℕ) (F : FArr) (st : Mem × Grids) : Option (Mem × Grids) := do
  let (m, g) := st
  let m ← c.gatherM s r (c.xi k) F.a2 F.nablaA2 F.bT0 m                           -- 402-405
  let idx := c.argsort (m.arr r)                                                  -- 408
  let m := c.psiM r pr q idx F.psi F.drPsi F.dxiPsi m                             -- 411-413
  let m := gammaM gamma pz pr F.a2 F.psi m                                        -- 416
  let m ← c.bThetaM r pr q gamma F.psi F.drPsi F.dxiPsi F.bT0 F.nablaA2 idx F.bT m -- 420-422
  let m := c.slowM pz gamma pr m                                                  -- 427-431
  let psiRow := calculatePsi c.rFld c.n (m.arr r) (m.arr q) idx c.rMaxP c.pc      -- 434-435
  let bRow ← calculateBTheta precise c.rFld c.n (bPartsM idx r pr q gamma F.psi F.drPsi F.dxiPsi F.bT0 F.nablaA2 m) c.n -- 436-438
  let rings := fun (w : ℝ → ℝ → ℝ → Kin → ℝ) => (List.range c.n).map fun i =>
    (⟨m i r, w (m i q) c.dr (m i r) ⟨m i pr, m i gamma, m i pz⟩⟩ : PRing ℝ)       -- 441-442
  some (m,
    { psi := Function.update g.psi k psiRow
      bTBar := Function.update g.bTBar k bRow
      rho := depositPlasma c.pShape (k : ℝ) (c.dr / 2) c.nXi c.nR c.dr (rings wRho) g.rho   -- 443
      chi := depositPlasma c.pShape (k : ℝ) (c.dr / 2) c.nXi c.nR c.dr (rings wChi) g.chi }) -- 445

/-- The body of the loop of `calculate_with_ab5` (solver.py 251-273). -/
noncomputable def sliceAb5 (s : Sources) (k : ℕ) (r pr pz gamma q : ℕ) (F : FArr) (dr1 dr2 dr3 dr4 dr5 dpr1 dpr2 dpr3 dpr4 dpr5 : ℕ)
    (st : Mem × Grids) : Option (Mem × Grids) := do
  let (m, g) ← c.columnM s k r pr pz gamma q F st                                 -- 258-265
  if k = 0 then some (m, g)                                                       -- 267
  else some (evolveAb5M c.dxi r pr gamma F.nablaA2 F.bT0 F.bT F.psi F.drPsi
    dr1 dr2 dr3 dr4 dr5 dpr1 dpr2 dpr3 dpr4 dpr5 m, g)                            -- 269-273

open Classical in
/-- `derivatives_substep` (rk4.py 89-170).  The arguments `r`, `pr` and the array `gamma` (150-151) are temporary arrays. -/
noncomputable def substepM (s : Sources) (xi : ℝ) (r pr gamma q : ℕ) (F : FArr) (dr dpr : ℕ) (m : Mem) : Option Mem := do
  let neg := fun i => m i r
  let m := mirrorM r [r, pr] m                                                    -- 130-133
  let m ← c.gatherM s r xi F.a2 F.nablaA2 F.bT0 m                                 -- 136-139
  let idx := c.argsort (m.arr r)                                                  -- 142
  let m := c.psiM r pr q idx F.psi F.drPsi F.dxiPsi m                             -- 145-147
  let m := m.write gamma fun i =>
    (1 + m i pr ^ 2 + m i F.a2 + (1 + m i F.psi) ^ 2) / (2 * (1 + m i F.psi))     -- 150-151
  let m ← c.bThetaM r pr q gamma F.psi F.drPsi F.dxiPsi F.bT0 F.nablaA2 idx F.bT m -- 155-157
  let m := derivsM pr gamma F.bT0 F.nablaA2 F.bT F.psi F.drPsi dr dpr m           -- 161-164
  some fun i => if neg i < 0 then ((m i).set dr (m i dr * -1)).set dpr (m i dpr * -1) else m i -- 168-170

/-- `evolve_plasma_rk4` (rk4.py 10-85); `t` is the number of a free array: `t`, `t + 1`, `t + 2` hold the temporaries `r`, `pr` and
`gamma` of the substeps. -/
noncomputable def evolveRk4M (s : Sources) (xi : ℝ) (t r pr gamma q : ℕ) (dr1 dr2 dr3 dr4 dpr1 dpr2 dpr3 dpr4 : ℕ) (F1 F2 F3 F4 : FArr)
    (m : Mem) : Option Mem := do
  let m := derivsM pr gamma F1.bT0 F1.nablaA2 F1.bT F1.psi F1.drPsi dr1 dpr1 m    -- 52-55
  let m := (m.write t fun i => m i r + c.dxi * m i dr1 * (1 / 2)).write (t + 1) fun i => m i pr + c.dxi * m i dpr1 * (1 / 2)
  let m ← c.substepM s (xi - c.dxi * (1 / 2)) t (t + 1) (t + 2) q F2 dr2 dpr2 m   -- 58-63
  let m := (m.write t fun i => m i r + c.dxi * m i dr2 * (1 / 2)).write (t + 1) fun i => m i pr + c.dxi * m i dpr2 * (1 / 2)
  let m ← c.substepM s (xi - c.dxi * (1 / 2)) t (t + 1) (t + 2) q F3 dr3 dpr3 m   -- 64-69
  let m := (m.write t fun i => m i r + c.dxi * m i dr3).write (t + 1) fun i => m i pr + c.dxi * m i dpr3
  let m ← c.substepM s (xi - c.dxi) t (t + 1) (t + 2) q F4 dr4 dpr4 m             -- 70-75
  let m := applyRk4M r c.dxi dr1 dr2 dr3 dr4 m                                    -- 78
  let m := applyRk4M pr c.dxi dpr1 dpr2 dpr3 dpr4 m                               -- 79
  some (mirrorM r [r, pr] m)                                                      -- 81-85

/-- The body of the loop of `calculate_with_rk4` (solver.py 326-352). -/
noncomputable def sliceRk4 (s : Sources) (k : ℕ) (t r pr pz gamma q : ℕ) (dr1 dr2 dr3 dr4 dpr1 dpr2 dpr3 dpr4 : ℕ) (F1 F2 F3 F4 : FArr)
    (st : Mem × Grids) : Option (Mem × Grids) := do
  let (m, g) ← c.columnM s k r pr pz gamma q F1 st                                -- 333-340
  if k = 0 then some (m, g)                                                       -- 342
  else
    let m ← c.evolveRk4M s (c.xi k) t r pr gamma q dr1 dr2 dr3 dr4 dpr1 dpr2 dpr3 dpr4 F1 F2 F3 F4 m -- 344-352
    some (m, g)

/-- The loop over the slices (solver.py 251-252, 326-327), after `j` iterations. -/
def loopM (body : ℕ → Mem × Grids → Option (Mem × Grids)) (st : Mem × Grids) : ℕ → Option (Mem × Grids)
  | 0 => some st
  | j + 1 => do
    let st' ← loopM body st j
    body (c.nXi - j - 1) st'

/-- `evolve_plasma_and_calculate_fields` with the arrays of the particles, which are allocated before (solver.py 95-97, 137-201).
`garbage` are the contents of the memory before. -/
noncomputable def evolveM (pusher : String) (s : Sources) (garbage : Mem) (g : Grids) : Except QErr Grids :=
  let (pp, h) := (c.allocate pusher).run ⟨0, garbage⟩                             -- 95-97
  let go := fun body => match c.loopM body (h.mem, g) c.nXi with
    | none => .error .undefined
    | some st => .ok st.2
  if pusher = "ab5" then                                                          -- 170
    match FArr.ofList pp.fields, pp.dr, pp.dpr with
    | some F, [dr1, dr2, dr3, dr4, dr5], [dpr1, dpr2, dpr3, dpr4, dpr5] =>
      go fun k => c.sliceAb5 s k pp.r pp.pr pp.pz pp.gamma pp.q F dr1 dr2 dr3 dr4 dr5 dpr1 dpr2 dpr3 dpr4 dpr5 -- 172-180
    | _, _, _ => .error .undefined
  else if pusher = "rk4" then                                                     -- 183
    match pp.rk4Flds.map FArr.ofList, pp.dr, pp.dpr with
    | [some F1, some F2, some F3, some F4], [dr1, dr2, dr3, dr4], [dpr1, dpr2, dpr3, dpr4] =>
      go fun k => c.sliceRk4 s k h.next pp.r pp.pr pp.pz pp.gamma pp.q dr1 dr2 dr3 dr4 dpr1 dpr2 dpr3 dpr4 F1 F2 F3 F4 -- 185-196
    | _, _, _ => .error .undefined
  else .error .unknownPusher                                                      -- 199-201

/-- `RZWakefield._calculate_field` with `calculate_wakefields` (rz_wakefield.py 136-143, solver.py 78-134), with the arrays of the
particles; apart from them it is `QS.calculateField`. -/
noncomputable def calculateFieldM (pusher : String) (laserA2 : ℕ → ℕ → ℝ) (bunches : List (List (Deposition.Part ℝ))) (e0 cc : ℝ)
    (garbage : Mem) : Except QErr Fld :=
  match c.beamField bunches with
  | none => .error .unknownShape
  | some beam => do
    let g ← c.evolveM pusher (c.sources laserA2 beam) garbage ⟨fun _ => [], fun _ => [], fun _ _ => 0, fun _ _ => 0⟩
    let psi := fun i j => (g.psi i).getD j 0
    let bTBar := (padded c.nXi c.nR fun i j => (g.bTBar i).getD j 0).val
    let bTBeam := (padded c.nXi c.nR beam).val
    let wr := (padded c.nXi c.nR fun i j => -gradient c.nR c.dr (psi i) j * e0).val -- solver.py 130, 132
    let bt := fun i j => (bTBar i j + bTBeam i j) * e0 / cc                         -- 133
    .ok
      { rho := g.rho
        chi := g.chi
        ez := setInner c.nXi c.nR (fun _ _ => 0) fun i j => -gradient c.nXi c.dxi (fun i' => psi i' j) i * e0 -- 130-131
        bt := bt
        er := fun i j => wr i j + bt i j * cc }                                     -- 134

end QS

end WakeT.Plasma
