import Verif.Stage.History

/-! # Laser, plasma and particles agree on where the grid is (C129) -/

set_option linter.unusedSectionVars false

namespace WakeT.Stage

open Bunch FieldElement Laser
open Plasma (QS)
open Plasma.QS (Fld)
open Push (Ph)

/-! ### Specification -/

/-- Longitudinal position of slice `k`: the slices divide the box into equal parts, the first and
the last one are its ends. -/
noncomputable def Wake.nodeXi (w : Wake) (k : ℕ) : ℝ := w.xiMin + k * ((w.xiMax - w.xiMin) / ((w.nXi : ℝ) - 1))

/-- Radius of node `j`: the middle of cell `j`. -/
noncomputable def Wake.nodeR (w : Wake) (j : ℕ) : ℝ := ((j : ℝ) + 1 / 2) * (w.rMax / w.nR)

/-- A box with at least two slices and two radial cells. -/
structure Wake.Box (w : Wake) : Prop where
  xi : w.xiMin < w.xiMax
  r : 0 < w.rMax
  nXi : 2 ≤ w.nXi
  nR : 2 ≤ w.nR

/-! ### Theorems -/

theorem Wake.Box.isGrid {w : Wake} (h : w.Box) : w.box.IsGrid w.nXi w.nR := by
  have h1 : (2 : ℝ) ≤ w.nXi := by exact_mod_cast h.nXi
  have h2 : (2 : ℝ) ≤ w.nR := by exact_mod_cast h.nR
  have h3 : (w.nXi : ℝ) - 1 ≠ 0 := by linarith
  have h4 : (w.nR : ℝ) ≠ 0 := by linarith
  refine ⟨div_pos (by linarith [h.xi]) (by linarith), div_pos h.r (by linarith), ?_, rfl, ?_⟩
  · show w.xiMax = w.xiMin + ((w.nXi : ℝ) - 1) * ((w.xiMax - w.xiMin) / ((w.nXi : ℝ) - 1))
    field_simp
    ring
  · show w.rMax - w.rMax / w.nR / 2 = ((w.nR : ℝ) - 1 / 2) * (w.rMax / w.nR)
    field_simp

/-- A particle at node `(k, j)`, at any angle, feels the radial, longitudinal and azimuthal fields
calculated for this node, and nothing else. -/
theorem felt_node {w : Wake} (h : w.Box) (s : Props) (t : ℝ) {k j : ℕ} (hk : k < w.nXi) (hj : j < w.nR) (θ : ℝ) {p : Ph}
    (hx : p.x = w.nodeR j * Real.cos θ) (hy : p.y = w.nodeR j * Real.sin θ) (hxi : p.xi = w.nodeXi k) :
    Push.felt (w.field (some s)) t p =
      ⟨s.fld.er (k + 2) (j + 2) * Real.cos θ, s.fld.er (k + 2) (j + 2) * Real.sin θ, s.fld.ez (k + 2) (j + 2),
        -(s.fld.bt (k + 2) (j + 2) * Real.sin θ), s.fld.bt (k + 2) (j + 2) * Real.cos θ, 0⟩ := by
  have hg := Interp.gather_node h.isGrid (er := w.arr s.fld.er) (ez := w.arr s.fld.ez) (bt := w.arr s.fld.bt)
    ⟨rfl, rfl⟩ ⟨rfl, rfl⟩ ⟨rfl, rfl⟩ ((k : ℤ) + 2) ((j : ℤ) + 2) (by omega) (by omega) (by omega) (by omega) θ ⟨0, 0, 0, 0, 0, 0⟩
  have e1 : w.box.rNode ((j : ℤ) + 2) = w.nodeR j := by
    show w.rMax / w.nR / 2 + ((((j : ℤ) + 2 : ℤ) : ℝ) - 2) * (w.rMax / w.nR) = ((j : ℝ) + 1 / 2) * (w.rMax / w.nR)
    push_cast
    ring
  have e2 : w.box.zNode ((k : ℤ) + 2) = w.nodeXi k := by
    show w.xiMin + ((((k : ℤ) + 2 : ℤ) : ℝ) - 2) * w.box.dz = w.xiMin + k * w.box.dz
    push_cast
    ring
  rw [e1, e2, ← hx, ← hy, ← hxi] at hg
  simp only [Push.felt, Wake.field, List.foldl_cons, List.foldl_nil, gridField, hg]
  ext <;> simp [Wake.arr]

/-- The quasistatic solver calculates slice `k` and radius `j` at these positions, in units of the
skin depth, and deposits the beam on the same nodes. -/
theorem quasi_nodes {w : Wake} (q : QArgs) {s : ℝ} (hs : 0 < s) (pc : ℝ) {k j : ℕ} (hj : j < w.nR) :
    (w.quasi q s pc).xi k * s = w.nodeXi k ∧
    (∃ r, (w.quasi q s pc).rFld[j]? = some r ∧ r * s = w.nodeR j) ∧
    ((w.quasi q s pc).grid.zMin + k * (w.quasi q s pc).grid.dz) * s = w.nodeXi k ∧
    ((w.quasi q s pc).grid.rMin + j * (w.quasi q s pc).grid.dr) * s = w.nodeR j ∧
    (w.quasi q s pc).nXi = w.nXi ∧ (w.quasi q s pc).nR = w.nR := by
  have e1 : (w.xiMin / s + k * ((w.xiMax / s - w.xiMin / s) / ((w.nXi : ℝ) - 1))) * s = w.nodeXi k := by
    unfold Wake.nodeXi
    field_simp
  have e2 : ((j : ℝ) + 1 / 2) * (w.rMax / s / w.nR) * s = w.nodeR j := by
    unfold Wake.nodeR
    field_simp
  refine ⟨e1, ⟨((j : ℝ) + 1 / 2) * (w.rMax / s / w.nR), ?_, e2⟩, e1, ?_, rfl, rfl⟩
  · show ((List.range w.nR).map fun j : ℕ => ((j : ℝ) + 1 / 2) * (w.rMax / s / w.nR))[j]? = _
    rw [List.getElem?_map, List.getElem?_range hj]
    rfl
  · rw [← e2]
    show (w.rMax / s / w.nR / 2 + j * (w.rMax / s / w.nR)) * s = _
    ring

/-- The envelope of the laser, if it has no grid of its own, starts with the values of the profile at
these nodes. -/
theorem laser_nodes {w : Wake} (h : w.Box) (q : Pulse) (dt : ℝ) (hz : w.laserNxi = none) (hr : w.laserNr = none) :
    ∃ e, (w.setup q dt).init q.prof = some e ∧
      ∀ k < w.nXi, ∀ j < w.nR, e.out k j = q.prof (w.nodeXi k) (w.nodeR j) := by
  have hsub : (w.setup q dt).useSub = false := by
    show (w.laserNxi.isSome || w.laserNr.isSome) = false
    rw [hz, hr]
    rfl
  have hsol : (w.setup q dt).solver = ⟨w.xiMin, w.xiMax, w.rMax, w.nXi, w.nR⟩ := by
    unfold Setup.solver
    rw [hsub]
    rfl
  have hm : (⟨w.xiMin, w.xiMax, w.rMax, w.nXi, w.nR⟩ : Mesh).Ok := ⟨h.xi, h.r, h.nXi, h.nR⟩
  unfold Setup.init Setup.output
  rw [hsub, hsol]
  simp only [Bool.false_eq_true, if_false, Option.bind_eq_bind, Option.bind_some]
  refine ⟨_, rfl, fun k hk j hj => ?_⟩
  dsimp only
  rw [if_pos ⟨hk, hj⟩, hm.zs_eq, hm.rs_eq]
  congr 1
  show w.rMax / w.nR / 2 + j * (w.rMax / w.nR) = ((j : ℝ) + 1 / 2) * (w.rMax / w.nR)
  ring

/-- A particle on the third node of the second slice of the example. -/
example (e : Bool) (s : Props) : Push.felt ((demoWake e).field (some s)) 0 ⟨5 / 2, 0, -3, 0, 0, 1⟩ =
    ⟨s.fld.er 3 4, 0, s.fld.ez 3 4, 0, s.fld.bt 3 4, 0⟩ := by
  have hb : (demoWake e).Box := by constructor <;> norm_num [demoWake]
  have := felt_node hb s 0 (k := 1) (j := 2) (by norm_num [demoWake]) (by norm_num [demoWake]) 0
    (p := ⟨5 / 2, 0, -3, 0, 0, 1⟩) (by norm_num [Wake.nodeR, demoWake]) (by norm_num) (by norm_num [Wake.nodeXi, demoWake])
  rw [this]
  norm_num

end WakeT.Stage
