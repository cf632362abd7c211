import Verif.Bunch.Model

/-!
# Generation, loading and saving of bunches

Files: `wake_t/utilities/bunch_generation.py`, `wake_t/utilities/bunch_saving.py`.

Random numbers are parameters: the arrays returned by numpy and scipy.  Reading and writing of
files (aptools) are parameters too.
-/

set_option linter.unusedSectionVars false

namespace WakeT.BunchGen

open WakeT.Bunch WakeT.Push

/-- Beam parameters of one transverse plane: normalised emittance, Twiss alpha and beta,
offset and pointing angle (bunch_generation.py 15-35). -/
structure Plane where
  en : ℝ
  a : ℝ
  b : ℝ
  off : ℝ
  theta : ℝ

/-- Position and slope of a particle in one plane (bunch_generation.py 82-93, 101-104, 109-110), for the
normal random numbers `u`, `v`. -/
noncomputable def Plane.sample (p : Plane) (ene u v : ℝ) : ℝ × ℝ :=
  let em := p.en / ene                                       -- 82-83
  let g := (1 + p.a ^ 2) / p.b                               -- 84-85
  let s := √(em * p.b)                                       -- 86-87
  let sp := √(em * g)                                        -- 88-89
  let rho := -p.a * em / (s * sp)                            -- 90-91
  (s * u + p.off, sp * (rho * u + √(1 - rho ^ 2) * v))       -- 101-104

/-- Random numbers of one particle (bunch_generation.py 96-99, 106-107): normals for the two planes, `xi` and
`pz`. -/
structure Rnd where
  ux : ℝ
  vx : ℝ
  uy : ℝ
  vy : ℝ
  xi : ℝ
  pz : ℝ

/-- `get_gaussian_bunch_from_twiss` (bunch_generation.py 15-114).  `nPart` is `int(n_part)`
(78); the charge is in pC. -/
noncomputable def fromTwiss (px py : Plane) (ene qTot : ℝ) (nPart : ℕ) (rnd : ℕ → Rnd)
    (name : Option String) (qSpecies mSpecies : ℝ) (nUnnamed : ℕ) : Bunch × ℕ :=
  let qTot := qTot / 10 ^ 12                                                    -- 94
  let w := fun _ : ℕ => |1 * qTot / ((nPart : ℝ) * qSpecies)|                   -- 112
  let ph := fun i =>
    let r := rnd i
    let sx := px.sample ene r.ux r.vx
    let sy := py.sample ene r.uy r.vy
    { x := sx.1, y := sy.1, xi := r.xi, px := sx.2 * r.pz + px.theta * ene,     -- 92-93, 109-110
      py := sy.2 * r.pz + py.theta * ene, pz := r.pz : Ph }
  WakeT.Bunch.init nPart w ph none 0 0 none name qSpecies mSpecies nUnnamed     -- 113-114

/-- `get_gaussian_bunch_from_size` (bunch_generation.py 117-180). -/
noncomputable def fromSize (enX enY sX sY ene qTot : ℝ) (nPart : ℕ)
    (xOff yOff thetaX thetaY : ℝ) (rnd : ℕ → Rnd) (name : Option String) (qSpecies mSpecies : ℝ)
    (nUnnamed : ℕ) : Bunch × ℕ :=
  let bX := sX ^ 2 * ene / enX                                                  -- 175
  let bY := sY ^ 2 * ene / enY                                                  -- 176
  fromTwiss ⟨enX, 0, bX, xOff, thetaX⟩ ⟨enY, 0, bY, yOff, thetaY⟩ ene qTot nPart rnd name
    qSpecies mSpecies nUnnamed

/-- `get_matched_bunch` (bunch_generation.py 183-249); `bM` is the result of
`ge.matched_plasma_beta_function` (245). -/
noncomputable def matched (bM enX enY ene qTot : ℝ) (nPart : ℕ)
    (xOff yOff thetaX thetaY : ℝ) (rnd : ℕ → Rnd) (name : Option String) (qSpecies mSpecies : ℝ)
    (nUnnamed : ℕ) : Bunch × ℕ :=
  fromTwiss ⟨enX, 0, bM, xOff, thetaX⟩ ⟨enY, 0, bM, yOff, thetaY⟩ ene qTot nPart rnd name
    qSpecies mSpecies nUnnamed

/-! ### Files -/

/-- The data that aptools stores (`ParticleDistribution`) (constructed in bunch_saving.py 42,
read in bunch_generation.py 252-337). -/
@[ext] structure Dist where
  n : ℕ
  x : ℕ → ℝ
  y : ℕ → ℝ
  z : ℕ → ℝ
  px : ℕ → ℝ
  py : ℕ → ℝ
  pz : ℕ → ℝ
  w : ℕ → ℝ
  qSpecies : ℝ
  mSpecies : ℝ

/-- Errors of `get_from_file` (bunch_generation.py 302, 308). -/
inductive FErr where
  | noSpecies
  | severalSpecies
  /-- `np.average` with zero total weight -/
  | zeroDivision
  deriving DecidableEq

/-- Selection of the species (bunch_generation.py 297-315): new `name` and `species_name`. -/
def pickSpecies (openpmd : Bool) (available : List String) (name species : Option String) :
    Except FErr (Option String × Option String) :=
  if openpmd then
    let sp : Except FErr String := match species with
      | some s => .ok s
      | none => match available with
        | [] => .error .noSpecies
        | [s] => .ok s
        | _ => .error .severalSpecies
    match sp with
    | .error e => .error e
    | .ok s => .ok (some (name.getD s), some s)
  else .ok (name, species)

open Classical in
/-- `get_from_file` (bunch_generation.py 252-337).  `read` is `read_distribution` as a function
of the keyword `species_name`, which is passed on only for openPMD files (314). -/
noncomputable def getFromFile (openpmd : Bool) (available : List String)
    (read : Option String → Dist) (preserve : Bool) (name species : Option String)
    (nUnnamed : ℕ) : Except FErr (Bunch × ℕ) :=
  match pickSpecies openpmd available name species with
  | .error e => .error e
  | .ok (name, sp) =>
    let d := read (if openpmd then sp else none)                                -- 317
    if ∑ i ∈ Finset.range d.n, d.w i = 0 then .error .zeroDivision
    else
      let zAvg := average d.n d.z d.w                                           -- 319
      let ph := fun i => { x := d.x i, y := d.y i, xi := d.z i - zAvg, px := d.px i,
                           py := d.py i, pz := d.pz i : Ph }                    -- 320-331
      let r := WakeT.Bunch.init d.n d.w ph none 0 0 none name d.qSpecies d.mSpecies nUnnamed
      let b := if preserve then { r.1 with propDistance := zAvg } else r.1      -- 335-336
      .ok (b, r.2)

/-- The distribution that `save_bunch_to_file` writes (bunch_saving.py 43-53) and the species
name under which it does so (37-41). -/
def saveBunch (openpmd : Bool) (b : Bunch) (species : Option String) : Option String × Dist :=
  (if openpmd then some (species.getD b.name) else none,
   { n := b.n, x := fun i => (b.ph i).x, y := fun i => (b.ph i).y, z := fun i => (b.ph i).xi,
     px := fun i => (b.ph i).px, py := fun i => (b.ph i).py, pz := fun i => (b.ph i).pz,
     w := b.w, qSpecies := b.qSpecies, mSpecies := b.mSpecies })

end WakeT.BunchGen
