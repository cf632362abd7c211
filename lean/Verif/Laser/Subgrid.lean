import Verif.Laser.EnvelopeProps
import Verif.Interp.Props

/-! # The laser envelope on a subgrid (C118)

`wake_t/physics_models/laser/laser_pulse.py`: the contents of the arrays of a pulse whose
parameters are set once.  (Changes of the parameters are in `Verif.Laser.Pulse`.) -/

set_option linter.unusedSectionVars false

namespace WakeT.Laser

open Interp

/-! ### Model -/

/-- `np.linspace(a, b, n)[i]` (laser_pulse.py 160-161, 267-268, 277-278). -/
noncomputable def linspace (a b : ℝ) (n i : ℕ) : ℝ := a + i * ((b - a) / (n - 1))

/-- Size and resolution of a grid (laser_pulse.py 241-281). -/
structure Mesh where
  zMin : ℝ
  zMax : ℝ
  rMax : ℝ
  nz : ℕ
  nr : ℕ

namespace Mesh

/-- `dr` (laser_pulse.py 159, 247, 253). -/
noncomputable def dr (m : Mesh) : ℝ := m.rMax / m.nr

/-- `dz` (laser_pulse.py 248, 254). -/
noncomputable def dz (m : Mesh) : ℝ := (m.zMax - m.zMin) / (m.nz - 1)

/-- `z[i]` (laser_pulse.py 160, 267, 277). -/
noncomputable def zs (m : Mesh) (i : ℕ) : ℝ := linspace m.zMin m.zMax m.nz i

/-- `r[j]` (laser_pulse.py 161, 249-250, 255-256, 268, 278). -/
noncomputable def rs (m : Mesh) (j : ℕ) : ℝ := linspace (m.dr / 2) (m.rMax - m.dr / 2) m.nr j

/-- An array of the shape of the grid (laser_pulse.py 163-164, 279, 290). -/
def array {V : Type} (m : Mesh) (f : ℕ → ℕ → V) : Arr V := ⟨m.nz, m.nr, fun i j => f i.toNat j.toNat⟩

end Mesh

/-- One entry of the array filled by `interpolate_rz_field` (calls in laser_pulse.py 291-298
and 309-317); `none` if it reads outside of the array. -/
noncomputable def regrid {V : Type} [AddCommGroup V] [Module ℝ V] (src dst : Mesh) (f : ℕ → ℕ → V) (i j : ℕ) : Option V :=
  interpPoint (src.array f) src.zMin (src.dr / 2) src.dz src.dr (dst.zs i) (dst.rs j)

open Classical in
/-- The whole array, if all of its entries are defined (laser_pulse.py 297-298, 316-318). -/
noncomputable def regridAll {V : Type} [AddCommGroup V] [Module ℝ V] (src dst : Mesh) (f : ℕ → ℕ → V) :
    Option (ℕ → ℕ → V) :=
  if ∀ i < dst.nz, ∀ j < dst.nr, (regrid src dst f i j).isSome then some fun i j => (regrid src dst f i j).getD 0
  else none

/-- Arguments of `set_envelope_solver_params` (laser_pulse.py 59-71), the wave number of the
pulse (187) and the speed of light. -/
structure Setup where
  c : ℝ
  k0 : ℝ
  xiMin : ℝ
  xiMax : ℝ
  rMax : ℝ
  nz : ℕ
  nr : ℕ
  dt : ℝ
  nt : ℕ
  subNz : Option ℕ
  subNr : Option ℕ
  usePhase : Bool

namespace Setup

/-- The grid of the plasma (laser_pulse.py 247-250). -/
def main (s : Setup) : Mesh := ⟨s.xiMin, s.xiMax, s.rMax, s.nz, s.nr⟩

/-- `use_subgrid` (laser_pulse.py 110). -/
def useSub (s : Setup) : Bool := s.subNz.isSome || s.subNr.isSome

/-- The grid of the solver (laser_pulse.py 110-122). -/
def solver (s : Setup) : Mesh :=
  if s.useSub then ⟨s.xiMin, s.xiMax, s.rMax, s.subNz.getD s.nz, s.subNr.getD s.nr⟩ else s.main

/-- The arguments of the solvers (laser_pulse.py 117-126, 187-202); `kp` is the plasma wave
number (188). -/
noncomputable def params (s : Setup) (kp : ℝ) : EnvParams where
  c := s.c
  k0 := s.k0
  kp := kp
  zmin := s.solver.zMin
  zmax := s.solver.zMax
  nz := s.solver.nz
  rmax := s.solver.rMax
  nr := s.solver.nr
  dt := s.dt / s.nt
  nt := s.nt
  usePhase := s.usePhase

end Setup

/-- The attributes of a pulse: `_a_env`, `_a_env_old`, `n_steps` and `a_env`
(laser_pulse.py 51-53, 163-166). -/
structure PulseArrays where
  a : GridC
  old : GridC
  nSteps : ℕ
  out : ℕ → ℕ → ℂ

/-- `_update_output_envelope` (laser_pulse.py 283-305). -/
noncomputable def Setup.output (s : Setup) (a : GridC) : Option (ℕ → ℕ → ℂ) :=
  if s.useSub then regridAll s.solver s.main a else some a

open Classical in
/-- `initialize_envelope` (laser_pulse.py 147-166); `prof` is the envelope function at
`z_pos = 0`. -/
noncomputable def Setup.init (s : Setup) (prof : ℝ → ℝ → ℂ) : Option PulseArrays := do
  let a : GridC := fun i j => if i < s.solver.nz ∧ j < s.solver.nr then prof (s.solver.zs i) (s.solver.rs j) else 0
  let out ← s.output a
  some ⟨a, 0, 0, out⟩

/-- The susceptibility passed to the solver (laser_pulse.py 191-192, 307-318). -/
noncomputable def Setup.solverChi (s : Setup) (chi : ℕ → ℕ → ℝ) : Option (ℕ → ℕ → ℝ) :=
  if s.useSub then regridAll s.main s.solver chi else some chi

/-- `evolve` (laser_pulse.py 172-206) with susceptibility `chi` and plasma wave number `kp`. -/
noncomputable def Setup.evolve (s : Setup) (x : (ℕ → ℕ → ℝ) × ℝ) (e : PulseArrays) : Option PulseArrays := do
  let chi ← s.solverChi x.1
  let r := (s.params x.2).evolve (decide (e.nSteps ≠ 0)) chi (e.a, e.old)
  let out ← s.output r.1
  some ⟨r.1, r.2, e.nSteps + 1, out⟩

/-- A new pulse after a sequence of calls of `evolve` (laser_pulse.py 147-206). -/
noncomputable def Setup.run (s : Setup) (prof : ℝ → ℝ → ℂ) : List ((ℕ → ℕ → ℝ) × ℝ) → Option PulseArrays
  | [] => s.init prof
  | x :: l => (s.run prof l).bind (s.evolve x)

/-! ### Specification -/

/-- A grid with at least two nodes in both directions, of positive size. -/
structure Mesh.Ok (m : Mesh) : Prop where
  z : m.zMin < m.zMax
  r : 0 < m.rMax
  nz : 2 ≤ m.nz
  nr : 2 ≤ m.nr

/-- Two grids of the same box. -/
structure SameBox (m n : Mesh) : Prop where
  zMin : m.zMin = n.zMin
  zMax : m.zMax = n.zMax
  rMax : m.rMax = n.rMax

namespace Mesh.Ok

variable {m : Mesh}

theorem dz_pos (h : m.Ok) : 0 < m.dz := by
  have h1 : (2 : ℝ) ≤ m.nz := by exact_mod_cast h.nz
  exact div_pos (by linarith [h.z]) (by linarith)

theorem dr_pos (h : m.Ok) : 0 < m.dr := by
  have h1 : (2 : ℝ) ≤ m.nr := by exact_mod_cast h.nr
  exact div_pos h.r (by linarith)

theorem zs_eq (_h : m.Ok) (i : ℕ) : m.zs i = m.zMin + i * m.dz := rfl

theorem rMax_eq (h : m.Ok) : m.rMax = m.nr * m.dr := by
  have h1 : (m.nr : ℝ) ≠ 0 := by
    have := h.nr
    exact_mod_cast (by omega : m.nr ≠ 0)
  unfold Mesh.dr
  field_simp

theorem zMax_eq (h : m.Ok) : m.zMax = m.zMin + (m.nz - 1) * m.dz := by
  have h1 : (2 : ℝ) ≤ m.nz := by exact_mod_cast h.nz
  have h2 : (m.nz : ℝ) - 1 ≠ 0 := by linarith
  unfold Mesh.dz
  field_simp
  ring

/-- Radial nodes are in the middle of the cells. -/
theorem rs_eq (h : m.Ok) (j : ℕ) : m.rs j = m.dr / 2 + j * m.dr := by
  have h1 : (2 : ℝ) ≤ m.nr := by exact_mod_cast h.nr
  have h2 : (m.nr : ℝ) - 1 ≠ 0 := by linarith
  have h3 := h.rMax_eq
  unfold Mesh.rs linspace
  rw [h3]
  field_simp
  ring

theorem zs_mem (h : m.Ok) {i : ℕ} (hi : i < m.nz) : m.zMin ≤ m.zs i ∧ m.zs i ≤ m.zMax := by
  have hd := h.dz_pos
  have h1 : (i : ℝ) + 1 ≤ m.nz := by exact_mod_cast hi
  have h0 : (0 : ℝ) ≤ i := Nat.cast_nonneg i
  rw [h.zs_eq, h.zMax_eq]
  constructor <;> nlinarith

theorem rs_mem (h : m.Ok) {j : ℕ} (hj : j < m.nr) : 0 ≤ m.rs j ∧ m.rs j ≤ m.rMax := by
  have hd := h.dr_pos
  have h1 : (j : ℝ) + 1 ≤ m.nr := by exact_mod_cast hj
  have h0 : (0 : ℝ) ≤ j := Nat.cast_nonneg j
  rw [h.rs_eq, h.rMax_eq]
  constructor <;> nlinarith

end Mesh.Ok

section

variable {V : Type} [AddCommGroup V] [Module ℝ V]

theorem node_inBox {src dst : Mesh} (hs : src.Ok) (hd : dst.Ok) (hb : SameBox src dst) (f : ℕ → ℕ → V) {i j : ℕ}
    (hi : i < dst.nz) (hj : j < dst.nr) : InBox (src.array f) src.zMin src.dz src.dr (dst.zs i) (dst.rs j) := by
  obtain ⟨h1, h2⟩ := hd.zs_mem hi
  obtain ⟨h3, h4⟩ := hd.rs_mem hj
  refine ⟨by rw [hb.zMin]; exact h1, ?_, h3, ?_⟩
  · rw [← hb.zMax, hs.zMax_eq] at h2
    exact h2
  · rw [← hb.rMax, hs.rMax_eq] at h4
    exact h4

theorem regrid_isSome {src dst : Mesh} (hs : src.Ok) (hd : dst.Ok) (hb : SameBox src dst) (f : ℕ → ℕ → V) {i j : ℕ}
    (hi : i < dst.nz) (hj : j < dst.nr) : (regrid src dst f i j).isSome := by
  have h := regrid_in_bounds (src.array f) (zMin := src.zMin) hs.dz_pos hs.dr_pos rfl hs.nr [dst.zs i] [dst.rs j] (by
    intro z hz r hr
    rw [List.mem_singleton.mp hz, List.mem_singleton.mp hr]
    exact node_inBox hs hd hb f hi hj) _ (List.mem_singleton.mpr rfl) _ (List.mem_singleton.mpr rfl)
  exact Option.isSome_iff_ne_none.mpr h

theorem regridAll_eq {src dst : Mesh} (hs : src.Ok) (hd : dst.Ok) (hb : SameBox src dst) (f : ℕ → ℕ → V) :
    regridAll src dst f = some fun i j => (regrid src dst f i j).getD 0 := by
  unfold regridAll
  rw [if_pos]
  intro i hi j hj
  exact regrid_isSome hs hd hb f hi hj

/-- A value at a node of both grids is kept. -/
theorem subgrid_shared_node {src dst : Mesh} (hs : src.Ok) (f : ℕ → ℕ → V) {i j i' j' : ℕ} (hi' : i' < src.nz)
    (hj' : j' < src.nr) (hz : dst.zs i = src.zs i') (hr : dst.rs j = src.rs j') :
    regrid src dst f i j = some (f i' j') := by
  have h := regrid_node (src.array f) (zMin := src.zMin) hs.dz_pos hs.dr_pos rfl hs.nr (i' : ℤ) (j' : ℤ) (by omega)
    (show (i' : ℤ) < (src.nz : ℤ) by omega) (by omega) (show (j' : ℤ) < (src.nr : ℤ) by omega)
  unfold regrid
  rw [hz, hr, hs.zs_eq, hs.rs_eq]
  have e : (src.array f).val (i' : ℤ) (j' : ℤ) = f i' j' := by simp [Mesh.array]
  rw [← e, ← h]
  norm_cast

/-- A field that is bilinear in `z` and `r` is transferred without error, everywhere. -/
theorem subgrid_bilinear {src dst : Mesh} (hs : src.Ok) (hd : dst.Ok) (hb : SameBox src dst) (a b c d : V)
    {f : ℕ → ℕ → V}
    (hf : ∀ i j, f i j = a + src.zs i • b + src.rs j • c + (src.zs i * src.rs j) • d) {i j : ℕ} (hi : i < dst.nz)
    (hj : j < dst.nr) :
    regrid src dst f i j = some (a + dst.zs i • b + dst.rs j • c + (dst.zs i * dst.rs j) • d) := by
  have h := regrid_bilinear (src.array f) (zMin := src.zMin) hs.dz_pos hs.dr_pos rfl hs.nr a b c d (by
    intro i j hi _ hj _
    obtain ⟨i, rfl⟩ := Int.eq_ofNat_of_zero_le hi
    obtain ⟨j, rfl⟩ := Int.eq_ofNat_of_zero_le hj
    show f (Int.toNat i) (Int.toNat j) = _
    rw [Int.toNat_natCast, Int.toNat_natCast, hf, hs.zs_eq, hs.rs_eq]
    simp) [dst.zs i] [dst.rs j] (by
    intro z hz r hr
    rw [List.mem_singleton.mp hz, List.mem_singleton.mp hr]
    exact node_inBox hs hd hb f hi hj)
  unfold interpolate at h
  simp only [List.map_cons, List.map_nil, List.cons.injEq, and_true] at h
  exact h

end

/-! ### No overshoot -/

theorem map_bind_some {α β γ : Type} (o : Option α) (f : α → Option β) (g : β → γ) :
    (o.bind f).map g = o.bind fun x => (f x).map g := by cases o <;> rfl

/-- The interpolation commutes with linear maps. -/
theorem interpPoint_map {V W : Type} [AddCommGroup V] [Module ℝ V] [AddCommGroup W] [Module ℝ W] (φ : V →ₗ[ℝ] W)
    (fld : Arr V) (zMin rMin dz dr z r : ℝ) :
    interpPoint ⟨fld.ni, fld.nj, fun i j => φ (fld.val i j)⟩ zMin rMin dz dr z r =
      (interpPoint fld zMin rMin dz dr z r).map φ := by
  have hget : ∀ i j : ℤ, (Arr.mk fld.ni fld.nj fun i j => φ (fld.val i j)).get i j = (fld.get i j).map φ := by
    intro i j
    unfold Arr.get
    dsimp only
    split_ifs <;> rfl
  unfold interpPoint
  simp only [hget, Option.bind_eq_bind]
  cases fld.get _ _ <;> [rfl; skip]
  cases fld.get _ _ <;> [rfl; skip]
  cases fld.get _ _ <;> [rfl; skip]
  cases fld.get _ _ <;> [rfl; skip]
  simp only [Option.map_some, Option.bind_some]
  split_ifs
  · cases fld.get _ _ <;> [rfl; skip]
    cases fld.get _ _ <;> [rfl; skip]
    simp
  · simp

/-- Inside the nodes of the old grid the values stay between bounds of the old ones. -/
theorem subgrid_range {src dst : Mesh} (hs : src.Ok) (hd : dst.Ok) (hb : SameBox src dst) {f : ℕ → ℕ → ℝ} {lo hi : ℝ}
    (hf : ∀ i < src.nz, ∀ j < src.nr, lo ≤ f i j ∧ f i j ≤ hi) {i j : ℕ} (hi' : i < dst.nz)
    (hr1 : src.rs 0 ≤ dst.rs j) (hr2 : dst.rs j ≤ src.rs (src.nr - 1)) :
    ∃ v, regrid src dst f i j = some v ∧ lo ≤ v ∧ v ≤ hi := by
  obtain ⟨h1, h2⟩ := hd.zs_mem hi'
  rw [← hb.zMin] at h1
  rw [← hb.zMax, hs.zMax_eq] at h2
  have hn := hs.nr
  rw [hs.rs_eq] at hr1 hr2
  rw [Nat.cast_sub (by omega)] at hr2
  refine regrid_range (src.array f) hs.dz_pos hs.dr_pos rfl hs.nr lo hi ?_ _ _ h1 h2 ?_ ?_
  · intro i j hi hi' hj hj'
    have hi' : i < (src.nz : ℤ) := hi'
    have hj' : j < (src.nr : ℤ) := hj'
    exact hf _ (by omega) _ (by omega)
  · simpa using hr1
  · exact (by simpa using hr2 : dst.rs j ≤ src.dr / 2 + ((src.nr : ℝ) - 1) * src.dr)

/-- The nodes of a grid are inside the nodes of every finer one. -/
theorem nodes_inside {src dst : Mesh} (hs : src.Ok) (hd : dst.Ok) (hb : SameBox src dst) (hn : dst.nr ≤ src.nr) {j : ℕ}
    (hj : j < dst.nr) : src.rs 0 ≤ dst.rs j ∧ dst.rs j ≤ src.rs (src.nr - 1) := by
  have h2 := hs.nr
  have hle : src.dr ≤ dst.dr := by
    unfold Mesh.dr
    rw [hb.rMax]
    have h3 : (0 : ℝ) < dst.nr := by exact_mod_cast (by have := hd.nr; omega : 0 < dst.nr)
    exact div_le_div_of_nonneg_left hd.r.le h3 (by exact_mod_cast hn)
  have hj1 : (j : ℝ) + 1 ≤ dst.nr := by exact_mod_cast hj
  have hj0 : (0 : ℝ) ≤ j := Nat.cast_nonneg j
  have e := hb.rMax
  rw [hs.rMax_eq, hd.rMax_eq] at e
  have hp := hd.dr_pos
  rw [hs.rs_eq, hs.rs_eq, hd.rs_eq, Nat.cast_sub (by omega)]
  push_cast
  constructor
  · nlinarith
  · nlinarith

/-- With a subgrid that is at least as fine as the grid in `r`, the amplitude of the
published envelope never exceeds the largest one of the solver. -/
theorem subgrid_amplitude {src dst : Mesh} (hs : src.Ok) (hd : dst.Ok) (hb : SameBox src dst) (hn : dst.nr ≤ src.nr)
    {f : ℕ → ℕ → ℂ} {A : ℝ} (hf : ∀ i < src.nz, ∀ j < src.nr, ‖f i j‖ ≤ A) {i j : ℕ} (hi : i < dst.nz)
    (hj : j < dst.nr) : ∃ v, regrid src dst f i j = some v ∧ ‖v‖ ≤ A := by
  obtain ⟨v, hv⟩ := Option.isSome_iff_exists.mp (regrid_isSome hs hd hb f hi hj)
  refine ⟨v, hv, ?_⟩
  obtain ⟨hr1, hr2⟩ := nodes_inside hs hd hb hn hj
  let φ : ℂ →ₗ[ℝ] ℝ := Complex.reLm.comp (LinearMap.mulLeft ℝ ((starRingEnd ℂ) v))
  have hφ : ∀ w : ℂ, φ w = ((starRingEnd ℂ) v * w).re := fun w => rfl
  have hφle : ∀ w : ℂ, |φ w| ≤ ‖v‖ * ‖w‖ := by
    intro w
    rw [hφ]
    refine (Complex.abs_re_le_norm _).trans ?_
    rw [norm_mul, Complex.norm_conj]
  obtain ⟨u, hu, -, hle⟩ := subgrid_range hs hd hb (f := fun i j => φ (f i j)) (lo := -(‖v‖ * A)) (hi := ‖v‖ * A)
    (by
      intro i hi j hj
      have h1 := (hφle (f i j)).trans (mul_le_mul_of_nonneg_left (hf i hi j hj) (norm_nonneg v))
      exact ⟨(abs_le.mp h1).1, (abs_le.mp h1).2⟩) hi hr1 hr2
  have hm : regrid src dst (fun i j => φ (f i j)) i j = (regrid src dst f i j).map φ :=
    interpPoint_map φ (src.array f) _ _ _ _ _ _
  rw [hm, hv, Option.map_some] at hu
  have hu' : φ v = u := Option.some.inj hu
  have hvv : φ v = ‖v‖ * ‖v‖ := by
    rw [hφ, mul_comm, Complex.mul_conj, Complex.normSq_eq_norm_sq]
    norm_cast
    ring
  rw [← hu', hvv] at hle
  by_cases h0 : ‖v‖ = 0
  · rw [h0]
    exact (norm_nonneg _).trans (hf 0 (by have := hs.nz; omega) 0 (by have := hs.nr; omega))
  · exact le_of_mul_le_mul_left hle (lt_of_le_of_ne (norm_nonneg v) (Ne.symm h0))

/-- Partial: a susceptibility that is not negative stays so at the nodes of the subgrid
which are between the first and the last radial node of the plasma grid.  Missing: the
nodes closer to the axis than that (`subgrid_chi_violated`), and those closer to the edge. -/
theorem subgrid_chi_partial {src dst : Mesh} (hs : src.Ok) (hd : dst.Ok) (hb : SameBox src dst) {chi : ℕ → ℕ → ℝ}
    (hf : ∀ i < src.nz, ∀ j < src.nr, 0 ≤ chi i j) {i j : ℕ} (hi : i < dst.nz)
    (hr1 : src.rs 0 ≤ dst.rs j) (hr2 : dst.rs j ≤ src.rs (src.nr - 1)) :
    ∃ v, regrid src dst chi i j = some v ∧ 0 ≤ v := by
  obtain ⟨M, hM⟩ : ∃ M, ∀ i < src.nz, ∀ j < src.nr, chi i j ≤ M := by
    refine ⟨∑ i ∈ Finset.range src.nz, ∑ j ∈ Finset.range src.nr, chi i j, fun i hi j hj => ?_⟩
    refine le_trans ?_ (Finset.single_le_sum (f := fun i => ∑ j ∈ Finset.range src.nr, chi i j)
      (fun i hi => Finset.sum_nonneg fun j hj => hf i (Finset.mem_range.mp hi) j (Finset.mem_range.mp hj)) (Finset.mem_range.mpr hi))
    exact Finset.single_le_sum (f := fun j => chi i j) (fun j hj => hf i hi j (Finset.mem_range.mp hj)) (Finset.mem_range.mpr hj)
  obtain ⟨v, h1, h2, -⟩ := subgrid_range hs hd hb (fun i hi j hj => ⟨hf i hi j hj, hM i hi j hj⟩) hi hr1 hr2
  exact ⟨v, h1, h2⟩

/-- A subgrid that is at least twice as fine in `r` makes the susceptibility `r ^ 2`, which
is positive, negative next to the axis; on every grid. -/
theorem subgrid_chi_violated {src dst : Mesh} (hs : src.Ok) (hd : dst.Ok) (hb : SameBox src dst)
    (hn : 2 * src.nr ≤ dst.nr) {i : ℕ} (hi : i < dst.nz) :
    (∀ j, 0 < (src.rs j) ^ 2) ∧ ∃ v, regrid src dst (fun _ j => (src.rs j) ^ 2) i 0 = some v ∧ v < 0 := by
  have hdr := hs.dr_pos
  refine ⟨fun j => ?_, ?_⟩
  · rw [hs.rs_eq]
    have : (0 : ℝ) ≤ j := Nat.cast_nonneg j
    positivity
  · have hle : dst.dr ≤ src.dr / 2 := by
      unfold Mesh.dr
      rw [hb.rMax]
      have h3 : (0 : ℝ) < src.nr := by exact_mod_cast (by have := hs.nr; omega : 0 < src.nr)
      have h4 : (2 : ℝ) * src.nr ≤ dst.nr := by exact_mod_cast hn
      rw [div_div]
      exact div_le_div_of_nonneg_left hd.r.le (by positivity) (by linarith)
    have hdp := hd.dr_pos
    have h0 : dst.rs 0 = dst.dr / 2 := by rw [hd.rs_eq]; simp
    obtain ⟨h1, h2, h3, h4⟩ := node_inBox hs hd hb (fun _ j => (src.rs j) ^ 2) hi (show 0 < dst.nr by have := hd.nr; omega)
    obtain ⟨x, y, i1, i', j, ex, ey, hi0, hi1, hix, hix', hi', hj0, hj1, hj2, hval⟩ :=
      interpPoint_eq (src.array fun _ j => (src.rs j) ^ 2) hs.dz_pos hs.dr_pos rfl hs.nr h1 h2 h3 h4
    have hy : y < 0 := by
      rw [h0] at ey
      by_contra hc
      have : 0 ≤ y * src.dr := mul_nonneg (not_lt.mp hc) hdr.le
      linarith
    have hj : j = 0 := by
      rcases hj2 with h | h
      · have : (j : ℝ) < 0 := lt_of_le_of_lt h hy
        have : j < 0 := by exact_mod_cast this
        omega
      · exact h.1
    subst hj
    have hnr : ¬ (0 : ℤ) + 1 = ((src.array fun _ j => (src.rs j) ^ 2).nj : ℤ) := by
      show ¬ (0 : ℤ) + 1 = (src.nr : ℤ)
      have := hs.nr
      omega
    rcases hval with ⟨-, hv⟩ | ⟨hb', -⟩
    · refine ⟨_, hv, ?_⟩
      have e0 : ∀ k : ℤ, (src.array fun _ j => (src.rs j) ^ 2).val k 0 = (src.dr / 2) ^ 2 := by
        intro k
        simp [Mesh.array, hs.rs_eq]
      have e1 : ∀ k : ℤ, (src.array fun _ j => (src.rs j) ^ 2).val k (0 + 1) = (3 * src.dr / 2) ^ 2 := by
        intro k
        simp only [Mesh.array, hs.rs_eq, zero_add, Int.toNat_one]
        push_cast
        ring
      simp only [e0, e1, smul_eq_mul]
      rw [h0] at ey
      have hyd : y * src.dr ≤ -(src.dr / 4) := by linarith
      have : (((0 : ℤ) : ℝ) + 1 - y) * ((↑i1 + 1 - x) * (src.dr / 2) ^ 2 + (x - ↑i1) * (src.dr / 2) ^ 2) +
          (y - ((0 : ℤ) : ℝ)) * ((↑i1 + 1 - x) * (3 * src.dr / 2) ^ 2 + (x - ↑i1) * (3 * src.dr / 2) ^ 2) =
          src.dr * (src.dr / 4 + 2 * (y * src.dr)) := by
        push_cast
        ring
      rw [this]
      exact mul_neg_of_pos_of_neg hdr (by linarith)
    · exact absurd hb' hnr

/-! ### The whole pulse -/

section congr

variable {K : Type} [Field K]

theorem tdmaW_congr {a b b' c : ℕ → K} {n : ℕ} (hb : ∀ k < n, b k = b' k) (i : ℕ) (hi : i < n) :
    tdmaW a b c i = tdmaW a b' c i := by
  induction i with
  | zero => simp only [tdmaW, hb 0 hi]
  | succ i ih => simp only [tdmaW, hb (i + 1) hi, ih (by omega)]

theorem tdmaG_congr {a b b' c d d' : ℕ → K} {n : ℕ} (hb : ∀ k < n, b k = b' k) (hd : ∀ k < n, d k = d' k) (i : ℕ)
    (hi : i < n) : tdmaG a b c d i = tdmaG a b' c d' i := by
  induction i with
  | zero => simp only [tdmaG, hb 0 hi, hd 0 hi]
  | succ i ih => simp only [tdmaG, hb (i + 1) hi, hd (i + 1) hi, ih (by omega), tdmaW_congr hb i (by omega)]

theorem tdma_congr {a b b' c d d' : ℕ → K} {n : ℕ} (hn : 1 ≤ n) (hb : ∀ k < n, b k = b' k) (hd : ∀ k < n, d k = d' k) :
    tdma n a b c d = tdma n a b' c d' := by
  funext i
  unfold tdma
  generalize n - 1 - i = m
  induction m with
  | zero =>
    simp only [tdmaBack, tdmaLast, hb (n - 1) (by omega), hd (n - 1) (by omega), tdmaW_congr hb (n - 3) (by omega),
      tdmaG_congr hb hd (n - 2) (by omega)]
  | succ m ih => simp only [tdmaBack, ih, tdmaW_congr hb (n - 2 - m) (by omega), tdmaG_congr hb hd (n - 2 - m) (by omega)]

end congr

theorem row_congr_chi (p : EnvParams) (hn : 1 ≤ p.nr) (centered : Bool) {chi chi' : ℕ → ℕ → ℝ} (ph : ℕ → ℝ) {j : ℕ}
    (h : ∀ k < p.nr, chi j k = chi' j k) : p.row centered chi ph j = p.row centered chi' ph j := by
  funext a aOld n1 n2
  unfold EnvParams.row
  dsimp only
  split_ifs
  · apply tdma_congr hn
    · intro k hk
      simp only [EnvParams.dMain, h k hk]
    · intro k hk
      simp only [EnvParams.rhs, h k hk]
  · apply tdma_congr hn
    · intro k hk
      simp only [EnvParams.dMainN, h k hk]
    · intro k hk
      simp only [EnvParams.rhsN, h k hk]

theorem sweepFrom_congr {row row' : ℕ → GridC → GridC → RowC → RowC → RowC} (m : ℕ) (h : ∀ j < m, row j = row' j)
    (s : Sweep) : sweepFrom row m s = sweepFrom row' m s := by
  induction m generalizing s with
  | zero => rfl
  | succ m ih =>
    simp only [sweepFrom]
    rw [ih (fun j hj => h j (by omega))]
    unfold sweepStep
    rw [h m (by omega)]

/-- The solvers use the susceptibility at the nodes of the grid only. -/
theorem evolve_congr_chi (p : EnvParams) (hn : 1 ≤ p.nr) (centered : Bool) {chi chi' : ℕ → ℕ → ℝ}
    (h : ∀ j < p.nz, ∀ k < p.nr, chi j k = chi' j k) (s : GridC × GridC) :
    p.evolve centered chi s = p.evolve centered chi' s := by
  have hstep : p.step centered chi = p.step centered chi' := by
    funext s
    unfold EnvParams.step sweep
    rw [sweepFrom_congr p.nz fun j hj => row_congr_chi p hn centered _ (h j hj)]
  unfold EnvParams.evolve
  rw [hstep]

/-- The arguments describe two grids that can be used. -/
structure Setup.Ok (s : Setup) : Prop where
  main : s.main.Ok
  solver : s.solver.Ok

theorem Setup.sameBox (s : Setup) : SameBox s.main s.solver := by
  unfold Setup.solver
  split_ifs <;> exact ⟨rfl, rfl, rfl⟩

theorem SameBox.symm {m n : Mesh} (h : SameBox m n) : SameBox n m := ⟨h.1.symm, h.2.symm, h.3.symm⟩

theorem Setup.output_some {s : Setup} (h : s.Ok) (a : GridC) : ∃ o, s.output a = some o := by
  unfold Setup.output
  split_ifs
  · exact ⟨_, regridAll_eq h.solver h.main s.sameBox.symm a⟩
  · exact ⟨_, rfl⟩

/-- Running on a subgrid never reads outside of an array, for any number of steps. -/
theorem subgrid_in_bounds {s : Setup} (h : s.Ok) (prof : ℝ → ℝ → ℂ) (l : List ((ℕ → ℕ → ℝ) × ℝ)) :
    ∃ e, s.run prof l = some e ∧ e.nSteps = l.length := by
  induction l with
  | nil =>
    unfold Setup.run Setup.init
    dsimp only
    obtain ⟨o, ho⟩ := Setup.output_some h
      (fun i j => if i < s.solver.nz ∧ j < s.solver.nr then prof (s.solver.zs i) (s.solver.rs j) else 0)
    rw [ho]
    exact ⟨_, rfl, rfl⟩
  | cons x l ih =>
    obtain ⟨e, he, hn⟩ := ih
    obtain ⟨chi, hchi⟩ : ∃ chi, s.solverChi x.1 = some chi := by
      unfold Setup.solverChi
      split_ifs
      · exact ⟨_, regridAll_eq h.main h.solver s.sameBox x.1⟩
      · exact ⟨_, rfl⟩
    obtain ⟨o, ho⟩ := Setup.output_some h ((s.params x.2).evolve (decide (e.nSteps ≠ 0)) chi (e.a, e.old)).1
    refine ⟨⟨((s.params x.2).evolve (decide (e.nSteps ≠ 0)) chi (e.a, e.old)).1,
      ((s.params x.2).evolve (decide (e.nSteps ≠ 0)) chi (e.a, e.old)).2, e.nSteps + 1, o⟩, ?_,
      by rw [List.length_cons, ← hn]⟩
    unfold Setup.run
    rw [he, Option.bind_some]
    unfold Setup.evolve
    dsimp only
    rw [hchi]
    simp only [Option.bind_eq_bind, Option.bind_some]
    rw [ho]
    rfl

/-- The same pulse without a subgrid. -/
def Setup.plain (s : Setup) : Setup := { s with subNz := none, subNr := none }

/-- A subgrid of the size of the grid changes nothing: for every profile and every
sequence of susceptibilities, the envelope is that of the pulse without a subgrid. -/
theorem subgrid_same_size {s : Setup} (h : s.main.Ok) (hz : s.subNz.getD s.nz = s.nz) (hr : s.subNr.getD s.nr = s.nr)
    (prof : ℝ → ℝ → ℂ) (l : List ((ℕ → ℕ → ℝ) × ℝ)) :
    ∃ e e', s.run prof l = some e ∧ s.plain.run prof l = some e' ∧
      ∀ i < s.nz, ∀ j < s.nr, e.out i j = e'.out i j := by
  have hs : s.solver = s.main := by
    unfold Setup.solver
    rw [hz, hr]
    split_ifs <;> rfl
  have hs' : s.plain.solver = s.main := by
    unfold Setup.solver Setup.useSub Setup.plain
    simp [Setup.main]
  have hm' : s.plain.main = s.main := rfl
  have ok : s.Ok := ⟨h, hs ▸ h⟩
  have ok' : s.plain.Ok := ⟨h, hs' ▸ h⟩
  have hu' : s.plain.useSub = false := rfl
  have hp : ∀ kp, s.params kp = s.plain.params kp := by
    intro kp
    unfold Setup.params
    rw [hs, hs']
    rfl
  -- the regridding does nothing at the nodes
  have hg : ∀ {V : Type} [AddCommGroup V] [Module ℝ V] (f : ℕ → ℕ → V) (i j : ℕ), i < s.nz → j < s.nr →
      (regrid s.main s.main f i j).getD 0 = f i j := by
    intro V _ _ f i j hi hj
    rw [subgrid_shared_node h f hi hj rfl rfl]
    rfl
  have hout : ∀ a o, s.output a = some o → ∀ i < s.nz, ∀ j < s.nr, o i j = a i j := by
    intro a o ho i hi j hj
    unfold Setup.output at ho
    split_ifs at ho
    · rw [hs, regridAll_eq h h ⟨rfl, rfl, rfl⟩] at ho
      rw [← Option.some.inj ho]
      exact hg a i j hi hj
    · rw [Option.some.inj ho]
  have hout' : ∀ a o, s.plain.output a = some o → o = a := by
    intro a o ho
    unfold Setup.output at ho
    rw [hu', if_neg (by simp)] at ho
    exact (Option.some.inj ho).symm
  suffices H : ∃ e e', s.run prof l = some e ∧ s.plain.run prof l = some e' ∧ e.a = e'.a ∧ e.old = e'.old ∧
      e.nSteps = e'.nSteps ∧ ∀ i < s.nz, ∀ j < s.nr, e.out i j = e'.out i j by
    obtain ⟨e, e', h1, h2, -, -, -, h3⟩ := H
    exact ⟨e, e', h1, h2, h3⟩
  induction l with
  | nil =>
    unfold Setup.run Setup.init
    dsimp only
    obtain ⟨o, ho⟩ := Setup.output_some ok
      (fun i j => if i < s.solver.nz ∧ j < s.solver.nr then prof (s.solver.zs i) (s.solver.rs j) else 0)
    obtain ⟨o', ho'⟩ := Setup.output_some ok'
      (fun i j => if i < s.plain.solver.nz ∧ j < s.plain.solver.nr then prof (s.plain.solver.zs i) (s.plain.solver.rs j) else 0)
    rw [ho, ho']
    refine ⟨_, _, rfl, rfl, ?_, rfl, rfl, ?_⟩
    · dsimp only
      rw [hs, hs']
    · intro i hi j hj
      dsimp only
      rw [hout _ _ ho i hi j hj, hout' _ _ ho', hs, hs']
  | cons x l ih =>
    obtain ⟨e, e', he, he', ha, hold, hn, -⟩ := ih
    obtain ⟨chi, hchi, hval⟩ : ∃ chi, s.solverChi x.1 = some chi ∧
        ∀ i < s.nz, ∀ j < s.nr, chi i j = x.1 i j := by
      unfold Setup.solverChi
      split_ifs
      · rw [hs]
        exact ⟨_, regridAll_eq h h ⟨rfl, rfl, rfl⟩ x.1, fun i hi j hj => hg x.1 i j hi hj⟩
      · exact ⟨_, rfl, fun _ _ _ _ => rfl⟩
    have hev : (s.params x.2).evolve (decide (e.nSteps ≠ 0)) chi (e.a, e.old) =
        (s.plain.params x.2).evolve (decide (e'.nSteps ≠ 0)) x.1 (e'.a, e'.old) := by
      rw [ha, hold, hn, hp]
      apply evolve_congr_chi
      · show 1 ≤ s.plain.solver.nr
        rw [hs']
        have := h.nr
        omega
      · intro j hj k hk
        have hj : j < s.plain.solver.nz := hj
        have hk : k < s.plain.solver.nr := hk
        rw [hs'] at hj hk
        exact hval j hj k hk
    obtain ⟨o, ho⟩ := Setup.output_some ok ((s.params x.2).evolve (decide (e.nSteps ≠ 0)) chi (e.a, e.old)).1
    obtain ⟨o', ho'⟩ := Setup.output_some ok' ((s.plain.params x.2).evolve (decide (e'.nSteps ≠ 0)) x.1 (e'.a, e'.old)).1
    unfold Setup.run
    rw [he, he', Option.bind_some, Option.bind_some]
    unfold Setup.evolve
    dsimp only
    have hchi' : s.plain.solverChi x.1 = some x.1 := by
      unfold Setup.solverChi
      rw [hu', if_neg (by simp)]
    rw [hchi, hchi']
    simp only [Option.bind_eq_bind, Option.bind_some]
    rw [ho, ho']
    refine ⟨_, _, rfl, rfl, ?_, ?_, ?_, ?_⟩
    · dsimp only
      rw [hev]
    · dsimp only
      rw [hev]
    · dsimp only
      rw [hn]
    · intro i hi j hj
      dsimp only
      rw [hout _ _ ho i hi j hj, hout' _ _ ho', hev]

/-- The published envelope of a pulse on a subgrid that is at least as fine in `r`: at the
nodes that the grids share it is the envelope of the solver, and its amplitude nowhere
exceeds the largest one of the solver; after every number of steps. -/
theorem subgrid_output {s : Setup} (h : s.Ok) (hn : s.nr ≤ s.solver.nr) (prof : ℝ → ℝ → ℂ)
    (l : List ((ℕ → ℕ → ℝ) × ℝ)) {e : PulseArrays} (he : s.run prof l = some e) :
    (∀ i j i' j', i < s.nz → j < s.nr → i' < s.solver.nz → j' < s.solver.nr → s.main.zs i = s.solver.zs i' →
      s.main.rs j = s.solver.rs j' → e.out i j = e.a i' j') ∧
    ∀ A : ℝ, (∀ i < s.solver.nz, ∀ j < s.solver.nr, ‖e.a i j‖ ≤ A) → ∀ i < s.nz, ∀ j < s.nr, ‖e.out i j‖ ≤ A := by
  have ho : s.output e.a = some e.out := by
    cases l with
    | nil =>
      unfold Setup.run Setup.init at he
      simp only [Option.bind_eq_bind] at he
      obtain ⟨o, h1, h2⟩ := Option.bind_eq_some_iff.mp he
      rw [← Option.some.inj h2]
      exact h1
    | cons x l =>
      unfold Setup.run at he
      obtain ⟨e0, -, h1⟩ := Option.bind_eq_some_iff.mp he
      unfold Setup.evolve at h1
      simp only [Option.bind_eq_bind] at h1
      obtain ⟨chi, -, h2⟩ := Option.bind_eq_some_iff.mp h1
      obtain ⟨o, h3, h4⟩ := Option.bind_eq_some_iff.mp h2
      rw [← Option.some.inj h4]
      exact h3
  unfold Setup.output at ho
  by_cases hu : s.useSub = true
  · rw [if_pos hu, regridAll_eq h.solver h.main s.sameBox.symm] at ho
    have ho := Option.some.inj ho
    constructor
    · intro i j i' j' hi hj hi' hj' hz hr
      rw [← ho]
      dsimp only
      rw [subgrid_shared_node h.solver e.a hi' hj' hz hr]
      rfl
    · intro A hA i hi j hj
      obtain ⟨v, hv, hvA⟩ := subgrid_amplitude h.solver h.main s.sameBox.symm hn hA hi hj
      rw [← ho]
      dsimp only
      rw [hv]
      exact hvA
  · rw [if_neg hu] at ho
    have ho := Option.some.inj ho
    have hs : s.solver = s.main := by
      unfold Setup.solver
      rw [if_neg hu]
    rw [hs]
    constructor
    · intro i j i' j' hi hj hi' hj' hz hr
      rw [h.main.zs_eq, h.main.zs_eq] at hz
      rw [h.main.rs_eq, h.main.rs_eq] at hr
      have h1 : (i : ℝ) = i' := mul_right_cancel₀ h.main.dz_pos.ne' (add_left_cancel hz)
      have h2 : (j : ℝ) = j' := mul_right_cancel₀ h.main.dr_pos.ne' (add_left_cancel hr)
      have h1 : i = i' := by exact_mod_cast h1
      have h2 : j = j' := by exact_mod_cast h2
      rw [← ho, h1, h2]
    · intro A hA i hi j hj
      rw [← ho]
      exact hA i hi j hj

/-- The solver uses the box of the wakefield and the requested numbers of nodes; one of them can be
given alone. -/
theorem solver_size (s : Setup) :
    s.solver = ⟨s.xiMin, s.xiMax, s.rMax, s.subNz.getD s.nz, s.subNr.getD s.nr⟩ := by
  unfold Setup.solver Setup.useSub Setup.main
  cases s.subNz <;> cases s.subNr <;> rfl

/-! ### Substeps -/

/-- The pulse after `n` calls of `evolve` in the same plasma, each with the scheme of the first one
(which is different for a pulse that was not evolved before). -/
noncomputable def Setup.repeat (s : Setup) (x : (ℕ → ℕ → ℝ) × ℝ) (e : PulseArrays) : ℕ → Option PulseArrays
  | 0 => some e
  | n + 1 => (s.repeat x e n).bind fun e' => s.evolve x { e' with nSteps := e.nSteps }

/-- Dividing a step into `nt` substeps is the same as `nt` steps of one `nt`-th of the time. -/
theorem substeps_split {s : Setup} (h : s.Ok) (hn : 1 ≤ s.nt) (x : (ℕ → ℕ → ℝ) × ℝ) (e : PulseArrays) :
    ∃ r r', s.evolve x e = some r ∧ ({ s with dt := s.dt / s.nt, nt := 1 } : Setup).repeat x e s.nt = some r' ∧
      r.a = r'.a ∧ r.old = r'.old ∧ r.out = r'.out := by
  obtain ⟨chi, hchi⟩ : ∃ chi, s.solverChi x.1 = some chi := by
    unfold Setup.solverChi
    split_ifs
    · exact ⟨_, regridAll_eq h.main h.solver s.sameBox x.1⟩
    · exact ⟨_, rfl⟩
  set s1 : Setup := { s with dt := s.dt / s.nt, nt := 1 } with hs1
  set cen := decide (e.nSteps ≠ 0) with hcen
  set f := (s.params x.2).step cen chi with hf
  have hstep : (s1.params x.2).step cen chi = f := by
    have : (s1.params x.2) = { s.params x.2 with nt := 1 } := by
      unfold Setup.params
      rw [hs1]
      simp only [Nat.cast_one, div_one]
      rfl
    rw [this]
    rfl
  have hrep : ∀ m, ∃ r', s1.repeat x e (m + 1) = some r' ∧ (r'.a, r'.old) = f^[m + 1] (e.a, e.old) ∧
      s.output r'.a = some r'.out := by
    intro m
    induction m with
    | zero =>
      obtain ⟨o, ho⟩ := Setup.output_some h (f (e.a, e.old)).1
      refine ⟨⟨(f (e.a, e.old)).1, (f (e.a, e.old)).2, e.nSteps + 1, o⟩, ?_, rfl, ho⟩
      show s1.evolve x e = _
      unfold Setup.evolve
      dsimp only
      rw [show s1.solverChi x.1 = some chi from hchi, Option.bind_eq_bind, Option.bind_some]
      have : (s1.params x.2).evolve (decide (e.nSteps ≠ 0)) chi (e.a, e.old) = f (e.a, e.old) := by
        show ((s1.params x.2).step cen chi)^[1] _ = _
        rw [hstep]
        rfl
      rw [this, show s1.output (f (e.a, e.old)).1 = some o from ho]
      rfl
    | succ m ih =>
      obtain ⟨r, h1, h2, -⟩ := ih
      obtain ⟨o, ho⟩ := Setup.output_some h (f (r.a, r.old)).1
      refine ⟨⟨(f (r.a, r.old)).1, (f (r.a, r.old)).2, e.nSteps + 1, o⟩, ?_, ?_, ho⟩
      · show (s1.repeat x e (m + 1)).bind _ = _
        rw [h1, Option.bind_some]
        unfold Setup.evolve
        dsimp only
        rw [show s1.solverChi x.1 = some chi from hchi, Option.bind_eq_bind, Option.bind_some]
        have : (s1.params x.2).evolve (decide (e.nSteps ≠ 0)) chi (r.a, r.old) = f (r.a, r.old) := by
          show ((s1.params x.2).step cen chi)^[1] _ = _
          rw [hstep]
          rfl
        rw [this, show s1.output (f (r.a, r.old)).1 = some o from ho]
        rfl
      · rw [Function.iterate_succ_apply', ← h2]
  obtain ⟨m, hm⟩ : ∃ m, s.nt = m + 1 := ⟨s.nt - 1, by omega⟩
  obtain ⟨r', h1, h2, h3⟩ := hrep m
  have hev : (s.params x.2).evolve (decide (e.nSteps ≠ 0)) chi (e.a, e.old) = (r'.a, r'.old) := by
    rw [h2, ← hm]
    rfl
  refine ⟨⟨r'.a, r'.old, e.nSteps + 1, r'.out⟩, r', ?_, by rw [hm]; exact h1, rfl, rfl, rfl⟩
  unfold Setup.evolve
  dsimp only
  rw [hchi, Option.bind_eq_bind, Option.bind_some, hev, h3]
  rfl

/-! ### Instances -/

/-- Grids of 3 x 2 and 5 x 6 nodes in the same box. -/
noncomputable def demoSetup : Setup :=
  { c := 1, k0 := 1, xiMin := 0, xiMax := 4, rMax := 6, nz := 3, nr := 2, dt := 1, nt := 1, subNz := some 5,
    subNr := some 6, usePhase := true }

theorem demoSetup_ok : demoSetup.Ok := by
  constructor <;> constructor <;> norm_num [demoSetup, Setup.main, Setup.solver, Setup.useSub]

/-- Three substeps of the example. -/
example (x : (ℕ → ℕ → ℝ) × ℝ) (e : PulseArrays) : ∃ r r', ({ demoSetup with nt := 3 } : Setup).evolve x e = some r ∧
    ({ demoSetup with dt := 1 / 3, nt := 1 } : Setup).repeat x e 3 = some r' ∧ r.a = r'.a := by
  obtain ⟨r, r', h1, h2, h3, -⟩ := substeps_split (s := { demoSetup with nt := 3 }) ⟨demoSetup_ok.main, demoSetup_ok.solver⟩
    (by norm_num) x e
  refine ⟨r, r', h1, ?_, h3⟩
  have e1 : demoSetup.dt = 1 := rfl
  simpa [e1] using h2

/-- A node that the two grids of the example share: the first radial node of the plasma grid
is the second one of the subgrid. -/
example : demoSetup.main.zs 1 = demoSetup.solver.zs 2 ∧ demoSetup.main.rs 0 = demoSetup.solver.rs 1 := by
  constructor <;>
    norm_num [demoSetup, Setup.main, Setup.solver, Setup.useSub, Mesh.zs, Mesh.rs, linspace, Mesh.dr]

example (prof : ℝ → ℝ → ℂ) (l : List ((ℕ → ℕ → ℝ) × ℝ)) :
    ∃ e, demoSetup.run prof l = some e ∧ e.out 1 0 = e.a 2 1 := by
  obtain ⟨e, he, -⟩ := subgrid_in_bounds demoSetup_ok prof l
  refine ⟨e, he, (subgrid_output demoSetup_ok (by norm_num [demoSetup, Setup.solver, Setup.useSub]) prof l he).1 1 0 2 1
    (by norm_num [demoSetup]) (by norm_num [demoSetup]) (by norm_num [demoSetup, Setup.solver, Setup.useSub])
    (by norm_num [demoSetup, Setup.solver, Setup.useSub]) ?_ ?_⟩ <;>
    norm_num [demoSetup, Setup.main, Setup.solver, Setup.useSub, Mesh.zs, Mesh.rs, linspace, Mesh.dr]

/-- The hypotheses of `subgrid_chi_violated` are met. -/
example : ∃ v, regrid demoSetup.main demoSetup.solver (fun _ j => (demoSetup.main.rs j) ^ 2) 0 0 = some v ∧ v < 0 :=
  (subgrid_chi_violated demoSetup_ok.main demoSetup_ok.solver demoSetup.sameBox
    (by norm_num [demoSetup, Setup.main, Setup.solver, Setup.useSub])
    (by norm_num [demoSetup, Setup.solver, Setup.useSub])).2

end WakeT.Laser
