import Verif.Diag.Model
import Verif.Stage.Nodes

/-! # Model of the field data in openPMD files, and what it says about the particles (C131, C132) -/

set_option linter.unusedSectionVars false

namespace WakeT.Diag

open Bunch (Bunch)
open Stage (Wake Props)
open Push (Ph)

/-! ### Model -/

/-- An attribute of a mesh: a string or a number (rz_wakefield.py 176, 189-193). -/
abbrev Attr := String × (String ⊕ ℝ)

/-- One entry `diag_data[fld]` with its name (other.py 29-46): the components (`none` for the array of
a scalar), with `array[j][k]`, the same position for all of them, the grid and the attributes. -/
structure FieldData where
  name : String
  comps : List (Option String × (ℕ → ℕ → ℂ))
  position : ℝ × ℝ
  labels : String × String
  spacing : ℝ × ℝ
  offset : ℝ × ℝ
  attrs : List Attr

/-- `generate_field_diag_dictionary` (other.py 18-55).  The names of fields are different, so the
dictionary is a list.  The entries on solver, boundaries and smoothing (47-54) are strings and not
modelled. -/
def fieldDict (names : List String) (comps : List (Option (List String))) (attrs : List (List Attr))
    (arrays : List (List (ℕ → ℕ → ℂ))) (pos : List (ℝ × ℝ)) (labels : String × String) (spacing offset : ℝ × ℝ) :
    List FieldData :=
  (names.zip (comps.zip (attrs.zip (arrays.zip pos)))).map fun x =>
    { name := x.1
      comps := match x.2.1 with
        | some cs => (cs.map some).zip x.2.2.2.1
        | none => (x.2.2.2.1.head?.map fun a => (none, a)).toList
      position := x.2.2.2.2
      labels := labels
      spacing := spacing
      offset := offset
      attrs := x.2.2.1 }

/-- `arr.T[2:-2, 2:-2]` (rz_wakefield.py 178-184). -/
def inner (f : ℤ → ℤ → ℝ) : ℕ → ℕ → ℂ := fun j k => (f (k + 2) (j + 2) : ℝ)

/-- `RZWakefield._get_openpmd_diagnostics_data` (rz_wakefield.py 157-209); `none` is the `IndexError` of
`r_fld[1]` or `xi_fld[1]`.  The arrays `e_t`, `b_r`, `b_z` keep their zeros (119-126). -/
noncomputable def meshData (w : Wake) (s : Props) (globalTime : ℝ) : Option (List FieldData) :=
  if w.nR < 2 ∨ w.nXi < 2 then none
  else
    let rFld := Laser.linspace (w.rMax / w.nR / 2) (w.rMax - w.rMax / w.nR / 2) w.nR   -- 127
    let xiFld := Laser.linspace w.xiMin w.xiMax w.nXi                                  -- 128
    let dr := |rFld 1 - rFld 0|                                                        -- 167
    let dz := |xiFld 1 - xiFld 0|                                                      -- 168
    let names := ["E", "B", "rho"]
    let comps := [some ["r", "t", "z"], some ["r", "t", "z"], none]
    let attrs : List (List Attr) := [[], [], []]
    let arrays := [[inner s.fld.er, fun _ _ => 0, inner s.fld.ez], [fun _ _ => 0, inner s.fld.bt, fun _ _ => 0],
      [fun j k => inner s.fld.rho j k * s.np * (-w.k.e : ℝ)]]
    let (names, comps, attrs, arrays) := match w.laser, s.laser with
      | some p, some e =>
        (names ++ ["a_mod", "a_phase", "a"], comps ++ [none, none, none],
          attrs ++ [[("polarization", .inl p.polarization)], [], [("angularFrequency", .inr (2 * Real.pi * w.k.c / p.l0))]],
          arrays ++ [[fun j k => ((‖e.out k j‖ : ℝ) : ℂ)], [fun j k => (((e.out k j).arg : ℝ) : ℂ)], [fun j k => e.out k j]])
      | _, _ => (names, comps, attrs, arrays)
    some (fieldDict names comps attrs arrays (List.replicate names.length (0.5, 0)) ("r", "z") (dr, dz)
      (0, globalTime * w.k.c + w.xiMin))

/-- What a file contains: species and meshes (openpmd_diag.py 88-109, 128-309).  `_write_species` and `_write_fields`
store the data as they are. -/
structure File where
  time : ℝ
  species : List Species
  meshes : List FieldData

/-- `write_diagnostics` (openpmd_diag.py 88-109) with the field of a wakefield; the other fields have no data
(fields/base.py 76-77). -/
noncomputable def writeFile (w : Wake) (s : Props) (zPos time : ℝ) (bunches : List Bunch) : Option File :=
  let t := time + zPos / w.k.c
  (meshData w s t).map fun m => ⟨t, bunches.map fun b => speciesData w.k.c b t, m⟩

/-- `unit_dimension` (openpmd_diag.py 269-295): powers of length, mass, time and current; `none` if it is not
set. -/
def unitDimension (name : String) : Option (ℤ × ℤ × ℤ × ℤ) :=
  if name = "E" then some (1, 1, -3, -1)
  else if name = "B" then some (0, 1, -2, -1)
  else if name = "rho" ∨ name = "chi" then some (-3, 0, 1, 1)
  else if name = "a" then some (1, 1, -2, -1)
  else none

/-! ### Specification

The reader of a file knows the openPMD standard: the value with indices `(j, k)` of a component is at
`gridGlobalOffset + (index + position) * gridSpacing`, in the order of the axis labels; the position of a
particle is `position + positionOffset`. -/

/-- Radius of the values with the first index `j`. -/
noncomputable def FieldData.r (m : FieldData) (j : ℕ) : ℝ := m.offset.1 + (j + m.position.1) * m.spacing.1

/-- Longitudinal position of the values with the second index `k`. -/
noncomputable def FieldData.z (m : FieldData) (k : ℕ) : ℝ := m.offset.2 + (k + m.position.2) * m.spacing.2

/-- The mesh with the given name. -/
def File.mesh (f : File) (name : String) : Option FieldData := f.meshes.find? fun m => m.name = name

/-- The array of a component. -/
def FieldData.comp (m : FieldData) (c : Option String) : Option (ℕ → ℕ → ℂ) := (m.comps.find? fun x => x.1 = c).map (·.2)

/-! ### Theorems -/

theorem spacing_r {w : Wake} (h : w.Box) :
    |Laser.linspace (w.rMax / w.nR / 2) (w.rMax - w.rMax / w.nR / 2) w.nR 1 -
      Laser.linspace (w.rMax / w.nR / 2) (w.rMax - w.rMax / w.nR / 2) w.nR 0| = w.rMax / w.nR := by
  have h2 : (2 : ℝ) ≤ w.nR := by exact_mod_cast h.nR
  have h3 : (w.nR : ℝ) - 1 ≠ 0 := by linarith
  have h4 : (w.nR : ℝ) ≠ 0 := by linarith
  have : Laser.linspace (w.rMax / w.nR / 2) (w.rMax - w.rMax / w.nR / 2) w.nR 1 -
      Laser.linspace (w.rMax / w.nR / 2) (w.rMax - w.rMax / w.nR / 2) w.nR 0 = w.rMax / w.nR := by
    unfold Laser.linspace
    push_cast
    field_simp
    ring
  rw [this, abs_of_pos (div_pos h.r (by linarith))]

theorem spacing_z {w : Wake} (h : w.Box) :
    |Laser.linspace w.xiMin w.xiMax w.nXi 1 - Laser.linspace w.xiMin w.xiMax w.nXi 0| =
      (w.xiMax - w.xiMin) / ((w.nXi : ℝ) - 1) := by
  have h2 : (2 : ℝ) ≤ w.nXi := by exact_mod_cast h.nXi
  have : Laser.linspace w.xiMin w.xiMax w.nXi 1 - Laser.linspace w.xiMin w.xiMax w.nXi 0 =
      (w.xiMax - w.xiMin) / ((w.nXi : ℝ) - 1) := by
    unfold Laser.linspace
    push_cast
    ring
  rw [this, abs_of_pos (div_pos (by linarith [h.xi]) (by linarith))]

/-- The meshes of electric and magnetic field and of the density, which are always there. -/
theorem file_meshes {w : Wake} (h : w.Box) (s : Props) (zPos time : ℝ) (bunches : List Bunch) :
    ∃ f, writeFile w s zPos time bunches = some f ∧ f.time = time + zPos / w.k.c ∧
      f.species = bunches.map (fun b => speciesData w.k.c b f.time) ∧
      ∀ name ∈ ["E", "B", "rho"], ∃ m, f.mesh name = some m ∧ m.labels = ("r", "z") ∧
        (∀ j, m.r j = w.nodeR j) ∧ (∀ k, m.z k = f.time * w.k.c + w.nodeXi k) ∧
        (name = "E" → m.comp (some "r") = some (inner s.fld.er) ∧ m.comp (some "t") = some (fun _ _ => 0) ∧
          m.comp (some "z") = some (inner s.fld.ez)) ∧
        (name = "B" → m.comp (some "r") = some (fun _ _ => 0) ∧ m.comp (some "t") = some (inner s.fld.bt) ∧
          m.comp (some "z") = some (fun _ _ => 0)) ∧
        (name = "rho" → m.comp none = some fun j k => inner s.fld.rho j k * s.np * (-w.k.e : ℝ)) := by
  have hb : ¬ (w.nR < 2 ∨ w.nXi < 2) := by
    have := h.nR
    have := h.nXi
    omega
  have hpos : ∀ (m : FieldData), m.offset = (0, (time + zPos / w.k.c) * w.k.c + w.xiMin) → m.position = (0.5, 0) →
      m.spacing = (w.rMax / w.nR, (w.xiMax - w.xiMin) / ((w.nXi : ℝ) - 1)) →
      (∀ j, m.r j = w.nodeR j) ∧ ∀ k, m.z k = (time + zPos / w.k.c) * w.k.c + w.nodeXi k := by
    intro m h1 h2 h3
    refine ⟨fun j => ?_, fun k => ?_⟩
    · unfold FieldData.r Wake.nodeR
      rw [h1, h2, h3]
      dsimp only
      norm_num
    · unfold FieldData.z Wake.nodeXi
      rw [h1, h2, h3]
      dsimp only
      ring
  unfold writeFile meshData
  dsimp only
  rw [if_neg hb]
  rw [spacing_r h, spacing_z h]
  refine ⟨_, rfl, rfl, rfl, fun name hn => ?_⟩
  have hcase : name = "E" ∨ name = "B" ∨ name = "rho" := by simpa using hn
  cases w.laser with
  | none =>
    rcases hcase with rfl | rfl | rfl
    all_goals
      refine ⟨_, rfl, rfl, ?_⟩
      refine and_assoc.mp ⟨hpos _ ?_ ?_ ?_, ?_, ?_, ?_⟩ <;> first | rfl | (intro hh; first | exact absurd hh (by decide) | exact rfl | exact ⟨rfl, rfl, rfl⟩)
  | some p =>
    cases s.laser with
    | none =>
      rcases hcase with rfl | rfl | rfl
      all_goals
        refine ⟨_, rfl, rfl, ?_⟩
        refine and_assoc.mp ⟨hpos _ ?_ ?_ ?_, ?_, ?_, ?_⟩ <;> first | rfl | (intro hh; first | exact absurd hh (by decide) | exact rfl | exact ⟨rfl, rfl, rfl⟩)
    | some e =>
      rcases hcase with rfl | rfl | rfl
      all_goals
        refine ⟨_, rfl, rfl, ?_⟩
        refine and_assoc.mp ⟨hpos _ ?_ ?_ ?_, ?_, ?_, ?_⟩ <;> first | rfl | (intro hh; first | exact absurd hh (by decide) | exact rfl | exact ⟨rfl, rfl, rfl⟩)

/-- **C131** The fields in a file are those that the particles in this file feel: if the written position of a
particle of any bunch is, at any angle around the axis, that of the values with the indices `(j, k)` of
the mesh of the electric field, then the particle feels the written values, and nothing else; the values
of the magnetic field are at the same positions. -/
theorem file_felt {w : Wake} (h : w.Box) (s : Props) (zPos time : ℝ) (bunches : List Bunch) :
    ∃ f, writeFile w s zPos time bunches = some f ∧ ∀ (n : ℕ) (b : Bunch), bunches[n]? = some b →
      ∃ sp E B er et ez br bt bz, f.species[n]? = some sp ∧ f.mesh "E" = some E ∧ f.mesh "B" = some B ∧
        E.comp (some "r") = some er ∧ E.comp (some "t") = some et ∧ E.comp (some "z") = some ez ∧
        B.comp (some "r") = some br ∧ B.comp (some "t") = some bt ∧ B.comp (some "z") = some bz ∧
        (∀ j, B.r j = E.r j) ∧ (∀ k, B.z k = E.z k) ∧
        ∀ i j k (θ t : ℝ), j < w.nR → k < w.nXi → sp.x i = E.r j * Real.cos θ → sp.y i = E.r j * Real.sin θ →
          sp.z i + sp.zOff = E.z k →
          Push.felt (w.field (some s)) t (b.ph i) =
            ⟨(er j k).re * Real.cos θ - (et j k).re * Real.sin θ, (er j k).re * Real.sin θ + (et j k).re * Real.cos θ,
              (ez j k).re, (br j k).re * Real.cos θ - (bt j k).re * Real.sin θ,
              (br j k).re * Real.sin θ + (bt j k).re * Real.cos θ, (bz j k).re⟩ := by
  obtain ⟨f, hf, hft, hfs, hm⟩ := file_meshes h s zPos time bunches
  obtain ⟨E, e1, -, e2, e3, e4, -, -⟩ := hm "E" (by simp)
  obtain ⟨B, b1, -, b2, b3, -, b4, -⟩ := hm "B" (by simp)
  obtain ⟨e5, e6, e7⟩ := e4 rfl
  obtain ⟨b5, b6, b7⟩ := b4 rfl
  refine ⟨f, hf, fun n b hb => ?_⟩
  refine ⟨speciesData w.k.c b f.time, E, B, _, _, _, _, _, _, ?_, e1, b1, e5, e6, e7, b5, b6, b7,
    fun j => by rw [b2, e2], fun k => by rw [b3, e3], ?_⟩
  · rw [hfs, List.getElem?_map, hb]
    rfl
  intro i j k θ t hj hk hx hy hz
  have hz' : (b.ph i).xi = w.nodeXi k := by
    have : (b.ph i).xi + f.time * w.k.c = E.z k := hz
    rw [e3] at this
    linarith
  rw [e2] at hx hy
  rw [Stage.felt_node h s t hk hj θ hx hy hz']
  simp only [inner, Complex.ofReal_re, Complex.zero_re, zero_mul, sub_zero, add_zero, zero_add, zero_sub]

/-- **C131** for the laser: modulus, phase and complex envelope are written at the same positions as the fields, and
the envelope is the modulus times the exponential of the phase; it is the envelope at the node of the
plasma. -/
theorem file_laser {w : Wake} (h : w.Box) {s : Props} {p : Stage.Pulse} {e : Laser.PulseArrays} (hp : w.laser = some p)
    (he : s.laser = some e) (zPos time : ℝ) (bunches : List Bunch) :
    ∃ f, writeFile w s zPos time bunches = some f ∧ ∃ E M P A m ph a, f.mesh "E" = some E ∧ f.mesh "a_mod" = some M ∧
      f.mesh "a_phase" = some P ∧ f.mesh "a" = some A ∧ M.comp none = some m ∧ P.comp none = some ph ∧
      A.comp none = some a ∧
      (∀ j, M.r j = E.r j ∧ P.r j = E.r j ∧ A.r j = E.r j) ∧ (∀ k, M.z k = E.z k ∧ P.z k = E.z k ∧ A.z k = E.z k) ∧
      (∀ j k, a j k = e.out k j ∧ a j k = m j k * Complex.exp (ph j k * Complex.I)) ∧
      ("angularFrequency", .inr (2 * Real.pi * w.k.c / p.l0)) ∈ A.attrs ∧
      ("polarization", .inl p.polarization) ∈ M.attrs := by
  have hb : ¬ (w.nR < 2 ∨ w.nXi < 2) := by
    have := h.nR
    have := h.nXi
    omega
  unfold writeFile meshData
  dsimp only
  rw [if_neg hb, hp, he]
  dsimp only
  refine ⟨_, rfl, _, _, _, _, _, _, _, rfl, rfl, rfl, rfl, rfl, rfl, rfl, fun j => ⟨rfl, rfl, rfl⟩,
    fun k => ⟨rfl, rfl, rfl⟩, fun j k => ⟨rfl, ?_⟩, ?_, ?_⟩
  · exact (Complex.norm_mul_exp_arg_mul_I (e.out k j)).symm
  · exact List.mem_singleton.mpr rfl
  · exact List.mem_singleton.mpr rfl

/-- The vector potential of an electron's normalised potential `a`, in SI units. -/
noncomputable def vectorPotential (me e c : ℝ) (a : ℂ) : ℂ := (me * c / e : ℝ) * a

/-- **C132** Each mesh with the dimension of a vector potential holds a vector potential.  This is false: the
mesh `a` has this dimension but holds the normalised envelope. -/
theorem units_violated : ∃ (w : Wake) (s : Props) (zPos time : ℝ) (f : File) (A : FieldData) (a : ℕ → ℕ → ℂ)
    (e : Laser.PulseArrays), w.Box ∧ s.laser = some e ∧ writeFile w s zPos time [] = some f ∧ A ∈ f.meshes ∧
      unitDimension A.name = some (1, 1, -2, -1) ∧ A.comp none = some a ∧
      ∃ j < w.nR, ∃ k < w.nXi, a j k ≠ vectorPotential w.k.me w.k.e w.k.c (e.out k j) := by
  let w : Wake := { Stage.demoWake true with k := ⟨3, 2, 1, 1⟩ }
  let e : Laser.PulseArrays := ⟨0, 0, 0, fun _ _ => 1⟩
  have hb : w.Box := by constructor <;> norm_num [w, Stage.demoWake]
  obtain ⟨f, hf, E, M, P, A, m, ph, a, -, -, -, g1, -, -, g2, -, -, g3, -⟩ :=
    file_laser hb (s := ⟨some e, 1, Wake.zeros⟩) (p := ⟨1, "linear", fun xi r => (Real.exp (-(xi + 2) ^ 2 - r ^ 2) : ℝ)⟩)
      (e := e) rfl rfl 0 0 []
  have hn : A.name = "a" := by simpa using List.find?_some g1
  refine ⟨w, _, 0, 0, f, A, a, e, hb, rfl, hf, List.mem_of_find?_eq_some g1, ?_, g2, 0, by norm_num [w, Stage.demoWake], 0,
    by norm_num [w, Stage.demoWake], ?_⟩
  · rw [hn]
    simp [unitDimension]
  · rw [(g3 0 0).1]
    show (1 : ℂ) ≠ ((1 * 3 / 2 : ℝ) : ℂ) * 1
    rw [mul_one]
    intro h
    have h := Complex.ofReal_injective (h.trans rfl : ((1 : ℝ) : ℂ) = ((1 * 3 / 2 : ℝ) : ℂ))
    norm_num at h

/-- **C132**, partial: of the meshes, just the one named `E` has the dimension of an electric field, just `B` that of
a magnetic field and just `rho` that of a density of charge (what they hold is said in `file_felt`), and the
mesh with the dimension of a vector potential becomes one if it is multiplied by `m_e c / e`. -/
theorem units_partial {w : Wake} (h : w.Box) {s : Props} {p : Stage.Pulse} {e : Laser.PulseArrays} (hp : w.laser = some p)
    (he : s.laser = some e) (zPos time : ℝ) (bunches : List Bunch) :
    ∃ f, writeFile w s zPos time bunches = some f ∧ ∀ A ∈ f.meshes,
      (unitDimension A.name = some (1, 1, -3, -1) ↔ f.mesh "E" = some A) ∧
      (unitDimension A.name = some (0, 1, -2, -1) ↔ f.mesh "B" = some A) ∧
      (unitDimension A.name = some (-3, 0, 1, 1) ↔ f.mesh "rho" = some A) ∧
      (unitDimension A.name = some (1, 1, -2, -1) → ∃ a, A.comp none = some a ∧
        ∀ j k, (w.k.me * w.k.c / w.k.e : ℝ) * a j k = vectorPotential w.k.me w.k.e w.k.c (e.out k j)) := by
  have hb : ¬ (w.nR < 2 ∨ w.nXi < 2) := by
    have := h.nR
    have := h.nXi
    omega
  unfold writeFile meshData
  dsimp only
  rw [if_neg hb, hp, he]
  refine ⟨_, rfl, fun A hA => ?_⟩
  simp only [fieldDict, List.cons_append, List.nil_append, List.length_cons, List.length_nil, List.replicate,
    List.zip_cons_cons, List.zip_nil_right, List.map_cons, List.map_nil, List.mem_cons, List.not_mem_nil, or_false] at hA
  have hno : ∀ {f : File} {n : String} {A : FieldData}, A.name ≠ n → ¬ f.mesh n = some A := fun h1 h2 =>
    h1 (by simpa using (List.find?_some h2 : _))
  rcases hA with rfl | rfl | rfl | rfl | rfl | rfl
  all_goals
    refine ⟨⟨fun hu => ?_, fun hm => ?_⟩, ⟨fun hu => ?_, fun hm => ?_⟩, ⟨fun hu => ?_, fun hm => ?_⟩, fun hu => ?_⟩ <;>
    first
    | rfl
    | exact ⟨_, rfl, fun j k => rfl⟩
    | (simp [unitDimension] at hu; done)
    | (refine absurd hm (hno ?_); simp; done)
    | (simp [unitDimension]; done)

/-- A file of the wakefield of the stage in the example, with a bunch. -/
example (s : Props) (b : Bunch) (hb : b.ph 0 = ⟨0, 5 / 2, -3, 0, 0, 1⟩) : ∃ f sp E er,
    writeFile (Stage.demoWake true) s 7 2 [b] = some f ∧ f.species = [sp] ∧ sp.z 0 + sp.zOff = 6 ∧ f.mesh "E" = some E ∧
    E.comp (some "r") = some er ∧
    (Push.felt ((Stage.demoWake true).field (some s)) 0 (b.ph 0)).ey = (er 2 1).re := by
  have hbox : (Stage.demoWake true).Box := by constructor <;> norm_num [Stage.demoWake]
  obtain ⟨f, hf, hft, hfs, hm⟩ := file_meshes hbox s 7 2 [b]
  obtain ⟨E, e1, -, e2, e3, e4, -⟩ := hm "E" (by simp)
  obtain ⟨f', hf', h⟩ := file_felt hbox s 7 2 [b]
  obtain rfl : f = f' := Option.some.inj (hf.symm.trans hf')
  obtain ⟨sp, E', B, er, et, ez, br, bt, bz, g1, g2, -, g3, g4, -, -, -, -, -, -, g5⟩ := h 0 b rfl
  obtain rfl : E = E' := Option.some.inj (e1.symm.trans g2)
  have hsp : f.species = [sp] := by
    rw [hfs] at g1 ⊢
    simpa using g1
  have hsp' : sp = speciesData 1 b f.time := by
    rw [hfs] at hsp
    exact ((List.cons.inj hsp).1).symm
  have ht : f.time = 9 := by rw [hft]; norm_num [Stage.demoWake]
  refine ⟨f, sp, E, er, hf, hsp, ?_, e1, g3, ?_⟩
  · rw [hsp', ht]
    show (b.ph 0).xi + 9 * 1 = 6
    rw [hb]
    norm_num
  · have := g5 0 2 1 (Real.pi / 2) 0 (by norm_num [Stage.demoWake]) (by norm_num [Stage.demoWake])
      (by rw [hsp', Real.cos_pi_div_two, mul_zero]; show (b.ph 0).x = 0; rw [hb])
      (by
        rw [hsp', e2, Real.sin_pi_div_two, mul_one]
        show (b.ph 0).y = _
        rw [hb]
        norm_num [Wake.nodeR, Stage.demoWake])
      (by
        rw [hsp', e3, ht]
        show (b.ph 0).xi + 9 * 1 = 9 * 1 + _
        rw [hb]
        norm_num [Wake.nodeXi, Stage.demoWake])
    rw [this]
    show (er 2 1).re * Real.sin (Real.pi / 2) + (et 2 1).re * Real.cos (Real.pi / 2) = _
    rw [Real.sin_pi_div_two, Real.cos_pi_div_two]
    ring

end WakeT.Diag
