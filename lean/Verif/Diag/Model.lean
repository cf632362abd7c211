import Verif.Bunch.Model

/-!
# Model of the openPMD writer

`wake_t/diagnostics/openpmd_diag.py`.  Files are a list of records; the layout of a file
(units, attributes, field data) and the file system are not modelled.
-/

set_option linter.unusedSectionVars false

namespace WakeT.Diag

open Bunch (Bunch)

/-- Data written for a species: `get_openpmd_diagnostics_data` (particle_bunch.py 242-261);
`mc` is `m_species * c`. -/
structure Species where
  name : String
  n : ℕ
  x : ℕ → ℝ
  y : ℕ → ℝ
  z : ℕ → ℝ
  px : ℕ → ℝ
  py : ℕ → ℝ
  pz : ℕ → ℝ
  w : ℕ → ℝ
  q : ℝ
  m : ℝ
  zOff : ℝ

/-- `get_openpmd_diagnostics_data` (particle_bunch.py 242-261). -/
def speciesData (c : ℝ) (b : Bunch) (time : ℝ) : Species :=
  { name := b.name, n := b.n
    x := fun i => (b.ph i).x
    y := fun i => (b.ph i).y
    z := fun i => (b.ph i).xi
    px := fun i => (b.ph i).px * b.mSpecies * c
    py := fun i => (b.ph i).py * b.mSpecies * c
    pz := fun i => (b.ph i).pz * b.mSpecies * c
    w := b.w, q := b.qSpecies, m := b.mSpecies, zOff := time * c }

/-- An iteration on disk (openpmd_diag.py 88-107). -/
structure Record where
  index : ℕ
  time : ℝ
  dt : ℝ
  species : List Species

/-- `OpenPMDDiagnostics` (openpmd_diag.py 33-49) together with what it has written. -/
structure Diag where
  index : ℕ
  zPos : ℝ
  written : List Record

/-- `__init__` (openpmd_diag.py 33-49). -/
def Diag.new : Diag := ⟨0, 0, []⟩

/-- `check_species_names` (openpmd_diag.py 311-323): whether it raises. -/
def duplicate : List String → List String → Bool
  | [], _ => false
  | n :: ns, seen => if n ∈ seen then true else duplicate ns (seen ++ [n])

/-- `write_diagnostics` (openpmd_diag.py 51-109).  `false` is the `ValueError`. -/
noncomputable def Diag.write (c : ℝ) (d : Diag) (time dt : ℝ) (bunches : List Bunch) : Diag × Bool :=
  if duplicate (bunches.map Bunch.Bunch.name) [] then (d, false)
  else
    let t := time + d.zPos / c
    ({ d with
        index := d.index + 1
        written := d.written ++ [⟨d.index, t, dt, bunches.map fun b => speciesData c b t⟩] }, true)

/-- `increase_z_pos` (openpmd_diag.py 111-126). -/
noncomputable def Diag.increaseZ (d : Diag) (dist : ℝ) : Diag := { d with zPos := d.zPos + dist }

end WakeT.Diag
