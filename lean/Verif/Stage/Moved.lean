import Verif.Tracker.Lockstep
import Verif.Laser.FromFile
import Verif.Stage.Similar

/-! # The origin of the longitudinal coordinate is irrelevant for plasma stages (C180) -/

set_option linter.unusedSectionVars false

/-! ### Specification -/

namespace WakeT.Push

/-- Specification: a particle further ahead by `d`. -/
def Ph.along (d : ℝ) (p : Ph) : Ph := { p with xi := p.xi + d }

/-- Specification: `f'` is the field `f` further ahead by `d`. -/
def FieldAlong (d : ℝ) (f f' : PField) : Prop := ∀ t x y xi v, f' t x y (xi + d) v = f t x y xi v

end WakeT.Push

namespace WakeT.FieldElement

open Bunch

/-- Specification: the bunch `b'` is the bunch `b` further ahead by `d`, and so is its point of injection. -/
def Ahead (d : ℝ) (b b' : Bunch) : Prop :=
  b'.n = b.n ∧ (∀ i < b.n, b'.ph i = (b.ph i).along d ∧ b'.w i = b.w i) ∧ b'.propDistance = b.propDistance ∧
  b'.zInjection = b.zInjection.map (· + d) ∧ b'.qSpecies = b.qSpecies ∧ b'.mSpecies = b.mSpecies ∧ b'.name = b.name

end WakeT.FieldElement

namespace WakeT.Stage

open Bunch FieldElement Laser
open Plasma (QS)
open Plasma.QS (Fld)
open Push (PField Sched FieldAlong)
open Fields (NumField)

/-- Specification: pulses of which the second is further ahead by `d`. -/
def PulseAhead (d : ℝ) : Option Pulse → Option Pulse → Prop
  | none, none => True
  | some p, some p' => p'.l0 = p.l0 ∧ p'.polarization = p.polarization ∧ ∀ xi r, p'.prof (xi + d) r = p.prof xi r
  | _, _ => False

/-- Specification: the wakefield `w'` is calculated by the same model, of the library, on a box that is further ahead by
`d`, with a laser pulse further ahead by `d`. -/
structure Wake.Ahead (d : ℝ) (w w' : Wake) : Prop where
  k : w'.k = w.k
  density : w'.density = w.density
  rMax : w'.rMax = w.rMax
  xiMin : w'.xiMin = w.xiMin + d
  xiMax : w'.xiMax = w.xiMax + d
  nR : w'.nR = w.nR
  nXi : w'.nXi = w.nXi
  dzFields : w'.dzFields = w.dzFields
  laser : PulseAhead d w.laser w'.laser
  laserEvolution : w'.laserEvolution = w.laserEvolution
  substeps : w'.substeps = w.substeps
  laserNxi : w'.laserNxi = w.laserNxi
  laserNr : w'.laserNr = w.laserNr
  usePhase : w'.usePhase = w.usePhase
  model : ∃ a : Plasma1, (∃ q, w.solve = w.quasiCalc a q ∧ w'.solve = w'.quasiCalc a q) ∨
    ∃ b shape, w.solve = w.coldCalc a b shape ∧ w'.solve = w'.coldCalc a b shape

/-- Specification: stages with the same parameters, apart from the box, the laser and the external fields, which are further
ahead by `d`.  The adaptive time steps are those of `_get_optimized_dt`. -/
structure PStage.Ahead {F : Type} (d : ℝ) (p p' : PStage F) : Prop where
  wake : p.wake.Ahead d p'.wake
  length : p'.length = p.length
  dtBunch : p'.dtBunch = p.dtBunch
  pusher : p'.pusher = p.pusher
  nOut : p'.nOut = p.nOut
  pushBefore : p'.pushBefore = p.pushBefore
  ext : List.Forall₂ (FieldAlong d) p.ext p'.ext
  autoDt : ∃ g : Dt → ℝ, (∀ b, p.autoDt b = g (stageDt p.wake.k p.wake.density p.length b)) ∧
    ∀ b, p'.autoDt b = g (stageDt p'.wake.k p'.wake.density p'.length b)
  sch : ∀ n, (p.sch n).Valid n
  sch' : ∀ n, (p'.sch n).Valid n
  f32 : p'.f32 = p.f32

end WakeT.Stage

/-! ### The pushers -/

namespace WakeT.Push

variable {d : ℝ}

theorem felt_along {fs fs' : List PField} (h : List.Forall₂ (FieldAlong d) fs fs') (t : ℝ) (p : Ph) :
    felt fs' t (p.along d) = felt fs t p := by
  unfold felt
  generalize (⟨0, 0, 0, 0, 0, 0⟩ : Fields.EB ℝ) = u
  induction h generalizing u with
  | nil => rfl
  | cons hf _ ih =>
    rw [List.foldl_cons, List.foldl_cons, ← ih]
    congr 1
    exact hf t p.x p.y p.xi u

theorem borisStep_along {fs fs' : List PField} (h : List.Forall₂ (FieldAlong d) fs fs') (k : Const) (t dt : ℝ) (p : Ph) :
    borisStep k fs' t dt (p.along d) = (borisStep k fs t dt p).along d := by
  have h1 : ∀ q : Ph, halfPush1 k dt (q.along d) = (halfPush1 k dt q).along d := by
    intro q
    unfold halfPush1 Ph.along
    ext <;> dsimp only <;> ring
  have h2 : ∀ (f : Fields.EB ℝ) (q : Ph), pushMomentum1 k dt f (q.along d) = (pushMomentum1 k dt f q).along d := fun f q => rfl
  unfold borisStep
  dsimp only
  rw [h1, felt_along h, h2, h1]

theorem classicalRK4_along {fs fs' : List PField} (h : List.Forall₂ (FieldAlong d) fs fs') (k : Const) (t dt : ℝ) (p : Ph) :
    classicalRK4 (motion k fs') t dt (p.along d) = (classicalRK4 (motion k fs) t dt p).along d := by
  have h1 : ∀ t q, motion k fs' t (Ph.along d q) = motion k fs t q := by
    intro t q
    unfold motion
    dsimp only
    rw [felt_along h]
    rfl
  have h2 : ∀ (q e : Ph) (s : ℝ), (q.along d).shift s e = (q.shift s e).along d := by
    intro q e s
    unfold Ph.shift Ph.along
    ext <;> dsimp only <;> ring
  unfold classicalRK4
  dsimp only
  simp only [h1, h2]

end WakeT.Push

namespace WakeT.FieldElement

open Bunch
open Push (PField Sched FieldAlong)

variable {d : ℝ}

theorem amax_along {n : ℕ} {a a' : ℕ → ℝ} (h : ∀ i < n, a' i = a i + d) : amax n a' = (amax n a).map (· + d) := by
  cases n with
  | zero => rfl
  | succ n =>
    unfold amax
    dsimp only [Option.map]
    congr 1
    have h1 : ∀ m ≤ n, (List.range m).foldl (fun m i => max m (a' (i + 1))) (a' 0) =
        (List.range m).foldl (fun m i => max m (a (i + 1))) (a 0) + d := by
      intro m hm
      induction m with
      | zero => exact h 0 (by omega)
      | succ m ih =>
        rw [List.range_succ, List.foldl_append, List.foldl_append, ih (by omega)]
        show max _ (a' (m + 1)) = max _ (a (m + 1)) + d
        rw [h (m + 1) (by omega), max_add_add_right]
    exact h1 n le_rfl

theorem evolve_aheadOf {b b' : Bunch} (h : Ahead d b b') (hf : b.Fits) (hf' : b'.Fits) (c : ℝ)
    {fields fields' : List PField} (hfl : List.Forall₂ (FieldAlong d) fields fields') {sch sch' : Sched}
    (hs : sch.Valid b.n) (hs' : sch'.Valid b'.n) (t dt : ℝ) (pusher : String) :
    Ahead d (b.evolve c fields sch t dt pusher).1 (b'.evolve c fields' sch' t dt pusher).1 ∧
    (b.evolve c fields sch t dt pusher).1.Fits ∧ (b'.evolve c fields' sch' t dt pusher).1.Fits := by
  obtain ⟨h1, h2, h3, h4, h5, h6, h7⟩ := id h
  have hmax : amax b'.n (fun i => (b'.ph i).xi) = (amax b.n fun i => (b.ph i).xi).map (· + d) := by
    rw [h1]
    exact amax_along fun i hi => by rw [(h2 i hi).1]; rfl
  have ha : (∃ x, b.activeFields fields = .error x ∧ b'.activeFields fields' = .error x) ∨
      ∃ fs fs', b.activeFields fields = .ok fs ∧ b'.activeFields fields' = .ok fs' ∧ List.Forall₂ (FieldAlong d) fs fs' := by
    unfold Bunch.activeFields
    rw [h4, h3, hmax]
    cases b.zInjection with
    | none => exact Or.inr ⟨_, _, rfl, rfl, hfl⟩
    | some z =>
      cases amax b.n (fun i => (b.ph i).xi) with
      | none => exact Or.inl ⟨_, rfl, rfl⟩
      | some m =>
        refine Or.inr ⟨_, _, rfl, rfl, ?_⟩
        have hlt : m + d + b.propDistance < z + d ↔ m + b.propDistance < z := by
          constructor <;> intro h <;> linarith
        simp only [hlt]
        split_ifs
        · exact .nil
        · exact hfl
  rcases ha with ⟨x, hb, hb'⟩ | ⟨fs, fs', hb, hb', hfs⟩
  · rw [evolve_error c b fields sch t dt pusher hb, evolve_error c b' fields' sch' t dt pusher hb']
    exact ⟨h, hf, hf'⟩
  · by_cases hp : pusher = "rk4" ∨ pusher = "boris"
    · obtain ⟨r, e1, g1, g2, g3, g4, -, -, g5, g6, g7, -, -, g8, g9⟩ := evolve_spec c b fields fs hs t dt hp hf hb
      obtain ⟨r', e1', g1', g2', g3', g4', -, -, g5', g6', g7', -, -, g8', g9'⟩ :=
        evolve_spec c b' fields' fs' hs' t dt hp hf' hb'
      rw [e1, e1']
      have hk : b'.const c = b.const c := by
        unfold Bunch.const
        rw [h5, h6]
      refine ⟨⟨by rw [g1', g1, h1], fun i hi => ?_, by rw [g4', g4, h3], by rw [g8', g8, h4], by rw [g6', g6, h5],
        by rw [g7', g7, h6], by rw [g5', g5, h7]⟩, g9, g9'⟩
      dsimp only at hi ⊢
      rw [g1] at hi
      rw [g3, g3', g2, g2', if_pos hi, if_pos (h1.symm ▸ hi), (h2 i hi).1, hk]
      refine ⟨?_, (h2 i hi).2⟩
      unfold stepOf
      split_ifs
      · exact Push.classicalRK4_along hfs _ _ _ _
      · exact Push.borisStep_along hfs _ _ _ _
    · rw [evolve_unknown c b fields fs sch t dt hp hb, evolve_unknown c b' fields' fs' sch' t dt hp hb']
      exact ⟨h, hf, hf'⟩

/-- The gathering from the arrays of a wakefield. -/
theorem gridField_along {b b' : Interp.Box} (hb : b' = { b with zMin := b.zMin + d, zMax := b.zMax + d }) (er ez bt : Arr ℝ) :
    FieldAlong d (gridField b er ez bt) (gridField b' er ez bt) := by
  have hcell : ∀ (sign : ℝ) (f : Arr ℝ) (r z : ℝ), Interp.cellInterp b' sign f r (z + d) = Interp.cellInterp b sign f r z := by
    intro sign f r z
    subst hb
    unfold Interp.cellInterp
    dsimp only
    rw [add_sub_add_right_eq_sub]
  intro t x y xi v
  have hh : ∀ r, b'.Has r (xi + d) ↔ b.Has r xi := by
    intro r
    subst hb
    unfold Interp.Box.Has
    simp only [add_le_add_iff_right]
  unfold gridField Interp.gatherMain1
  simp only [hcell]
  by_cases hB : b.Has (√(x ^ 2 + y ^ 2)) xi
  · simp only [if_pos hB, if_pos ((hh _).mpr hB)]
  · simp only [if_neg hB, if_neg (mt (hh _).mp hB)]

end WakeT.FieldElement

/-! ### The laser -/

namespace WakeT.Laser

variable {d : ℝ}

theorem moved_dz (m : Mesh) : (m.moved d).dz = m.dz := by
  unfold Mesh.dz Mesh.moved
  dsimp only
  rw [add_sub_add_right_eq_sub]

theorem moved_zs (m : Mesh) (i : ℕ) : (m.moved d).zs i = m.zs i + d := by
  unfold Mesh.zs linspace Mesh.moved
  dsimp only
  rw [add_sub_add_right_eq_sub]
  ring

theorem regridAll_moved {V : Type} [AddCommGroup V] [Module ℝ V] (src dst : Mesh) (f : ℕ → ℕ → V) :
    regridAll (src.moved d) (dst.moved d) f = regridAll src dst f := by
  have h : ∀ i j, regrid (src.moved d) (dst.moved d) f i j = regrid src dst f i j := by
    intro i j
    unfold regrid
    rw [moved_dz, moved_zs]
    unfold Interp.interpPoint
    have e1 : (dst.zs i + d - (src.moved d).zMin) / src.dz = (dst.zs i - src.zMin) / src.dz := by
      show (dst.zs i + d - (src.zMin + d)) / src.dz = _
      rw [add_sub_add_right_eq_sub]
    dsimp only
    rw [e1]
    rfl
  unfold regridAll
  simp only [h]
  rfl

/-- The setup on a grid further ahead by `d`. -/
noncomputable def Setup.ahead (d : ℝ) (s : Setup) : Setup := { s with xiMin := s.xiMin + d, xiMax := s.xiMax + d }

theorem ahead_solver (s : Setup) : (s.ahead d).solver = s.solver.moved d := by
  unfold Setup.solver
  have h : (s.ahead d).useSub = s.useSub := rfl
  rw [h]
  split_ifs <;> rfl

theorem output_ahead (s : Setup) (a : GridC) : (s.ahead d).output a = s.output a := by
  unfold Setup.output
  have h : (s.ahead d).useSub = s.useSub := rfl
  have h' : (s.ahead d).main = s.main.moved d := rfl
  rw [h, h', ahead_solver, regridAll_moved]

theorem init_ahead (s : Setup) {prof prof' : ℝ → ℝ → ℂ} (hp : ∀ xi r, prof' (xi + d) r = prof xi r) :
    (s.ahead d).init prof' = s.init prof := by
  unfold Setup.init
  dsimp only
  have hrs : ∀ (m : Mesh) j, (m.moved d).rs j = m.rs j := fun m j => rfl
  simp only [output_ahead, ahead_solver, moved_zs, hrs, hp]
  rfl

theorem evolve_setup_ahead (s : Setup) (chi : ℕ → ℕ → ℝ) (kp : ℝ) (e : PulseArrays) :
    (s.ahead d).evolve (chi, kp) e = s.evolve (chi, kp) e := by
  have hz : (s.ahead d).solver = s.solver.moved d := ahead_solver s
  have hlike : (s.params kp).Like ((s.ahead d).params kp) := by
    refine ⟨?_, ?_, rfl, rfl, ?_, ?_, rfl, rfl⟩
    · show ((s.ahead d).solver.zMax - (s.ahead d).solver.zMin) * kp / ((s.ahead d).solver.nz - 1) =
        (s.solver.zMax - s.solver.zMin) * kp / (s.solver.nz - 1)
      rw [hz]
      show (s.solver.zMax + d - (s.solver.zMin + d)) * kp / (s.solver.nz - 1) = _
      rw [add_sub_add_right_eq_sub]
    · show (s.ahead d).solver.rMax * kp / (s.ahead d).solver.nr = s.solver.rMax * kp / s.solver.nr
      rw [hz]
      rfl
    · show (s.ahead d).solver.nz = s.solver.nz
      rw [hz]; rfl
    · show (s.ahead d).solver.nr = s.solver.nr
      rw [hz]; rfl
  have hreg : ∀ {V : Type} [AddCommGroup V] [Module ℝ V] (f : ℕ → ℕ → V),
      regridAll (s.ahead d).main (s.ahead d).solver f = regridAll s.main s.solver f := by
    intro V _ _ f
    rw [hz]
    exact regridAll_moved s.main s.solver f
  unfold Setup.evolve
  dsimp only
  have hchi : (s.ahead d).solverChi chi = s.solverChi chi := by
    unfold Setup.solverChi
    rw [hreg]
    rfl
  simp only [evolve_like hlike, output_ahead, hchi]

end WakeT.Laser

/-! ### The wakefield models -/

namespace WakeT.Interp

theorem gatherField1_congr {b b' : Box} {f f' : Arr ℝ} {x y z z' : ℝ} (hh : ∀ r, b'.Has r z' ↔ b.Has r z)
    (hc : ∀ r, cellInterp b' 1 f' r z' = cellInterp b 1 f r z) : gatherField1 b' f' x y z' = gatherField1 b f x y z := by
  unfold gatherField1
  dsimp only
  by_cases hB : b.Has (√(x ^ 2 + y ^ 2)) z
  · rw [if_pos hB, if_pos ((hh _).mpr hB), hc]
  · rw [if_neg hB, if_neg (mt (hh _).mp hB)]

end WakeT.Interp

namespace WakeT.ColdFluid

variable (m : Cold) (d : ℝ)

/-- The model on a box further ahead by `d`. -/
noncomputable def Cold.ahead : Cold := { m with xiMin := m.xiMin + d }

theorem a0_ahead (j : ℕ) (z : ℝ) : (m.ahead d).a0 j (z + d) = m.a0 j z := by
  have hl : (m.ahead d).laser = m.laser := rfl
  unfold Cold.a0
  rw [hl]
  cases m.laser with
  | none => rfl
  | some _ =>
    dsimp only
    have hh : ∀ x, (m.ahead d).box.Has x (z + d) ↔ m.box.Has x z := by
      intro x
      show (m.xiMin + d ≤ z + d ∧ z + d ≤ m.xiMin + d + ((m.nXi : ℝ) - 1) * m.dz ∧ _) ↔
        (m.xiMin ≤ z ∧ z ≤ m.xiMin + ((m.nXi : ℝ) - 1) * m.dz ∧ _)
      constructor <;> rintro ⟨h1, h2, h3⟩ <;> exact ⟨by linarith, by linarith, h3⟩
    have hc : ∀ sg x, Interp.cellInterp (m.ahead d).box sg (m.ahead d).aRz x (z + d) = Interp.cellInterp m.box sg m.aRz x z := by
      intro sg x
      have hz : (z + d - (m.ahead d).box.zMin) / (m.ahead d).box.dz = (z - m.box.zMin) / m.box.dz := by
        show (z + d - (m.xiMin + d)) / m.dz = (z - m.xiMin) / m.dz
        rw [add_sub_add_right_eq_sub]
      unfold Interp.cellInterp
      simp only [hz]
      rfl
    exact congrArg (Option.getD · 0) (Interp.gatherField1_congr hh (hc 1))

theorem u_ahead : (m.ahead d).u = m.u := by
  have hstep : ∀ k j u, (m.ahead d).step k j u = m.step k j u := by
    intro k j u
    have e0 : (m.ahead d).zFld k = m.zFld k + d := by
      show m.xiMin + d + k * m.dz = m.xiMin + k * m.dz + d
      ring
    have e1 : m.zFld k + d - (m.ahead d).dz / 2 = m.zFld k - m.dz / 2 + d := add_sub_right_comm _ _ _
    have e2 : m.zFld k + d - (m.ahead d).dz = m.zFld k - m.dz + d := add_sub_right_comm _ _ _
    unfold Cold.step
    dsimp only
    rw [e0, e1, e2, a0_ahead, a0_ahead, a0_ahead]
    rfl
  have hb : ∀ j i, (m.ahead d).uBack j i = m.uBack j i := by
    intro j i
    induction i with
    | zero => rfl
    | succ i ih =>
      show (m.ahead d).step (m.nXi - 1 - i) j ((m.ahead d).uBack j i) = m.step (m.nXi - 1 - i) j (m.uBack j i)
      rw [ih, hstep]
  funext k j
  exact hb j _

theorem rho_ahead : (m.ahead d).rho = m.rho := by
  funext k j
  unfold Cold.rho Cold.gamma
  rw [u_ahead]
  rfl

theorem chi_ahead : (m.ahead d).chi = m.chi := by
  funext k j
  unfold Cold.chi
  rw [rho_ahead]
  unfold Cold.gamma
  rw [u_ahead]
  rfl

theorem fields_ahead (e0 c : ℝ) : (m.ahead d).fields e0 c = m.fields e0 c := by
  have h1 : (m.ahead d).Ez = m.Ez := by
    funext k j
    unfold Cold.Ez
    rw [u_ahead]
    rfl
  have h2 : (m.ahead d).Wr = m.Wr := by
    funext k j
    unfold Cold.Wr
    rw [u_ahead]
    rfl
  have h3 : (m.ahead d).vz = m.vz := by
    funext k j
    unfold Cold.vz Cold.uz Cold.gamma
    rw [u_ahead]
    rfl
  have h4 : (m.ahead d).integrand = m.integrand := by
    funext k j
    unfold Cold.integrand
    rw [h1, h3, rho_ahead]
    rfl
  have h5 : (m.ahead d).Bt = m.Bt := by
    funext k j
    unfold Cold.Bt
    rw [h4]
    rfl
  funext k j
  unfold Cold.fields Cold.Er
  rw [h1, h2, h5]

end WakeT.ColdFluid

namespace WakeT.Stage

open Bunch FieldElement Laser
open Plasma (QS)
open Plasma.QS (Fld shiftBunch)
open Push (PField Sched FieldAlong)
open Fields (NumField)

variable {d : ℝ}

theorem partsOf_ahead {b b' : Bunch} (h : FieldElement.Ahead d b b') (s f : ℝ) :
    partsOf s f b' = shiftBunch (d / s) (partsOf s f b) := by
  obtain ⟨h1, h2, -, -, h5, -, -⟩ := h
  unfold partsOf QS.shiftBunch
  rw [h1, List.map_map]
  refine List.map_congr_left fun i hi => ?_
  obtain ⟨g1, g2⟩ := h2 i (List.mem_range.mp hi)
  have hq : b'.q i = b.q i := by
    unfold Bunch.q
    rw [g2, h5]
  rw [g1, hq]
  simp only [Push.Ph.along, Function.comp_apply, add_div]

theorem parts_ahead {bs bs' : List Bunch} (h : List.Forall₂ (FieldElement.Ahead d) bs bs') (s f : ℝ) :
    bs'.map (partsOf s f) = (bs.map (partsOf s f)).map (shiftBunch (d / s)) := by
  induction h with
  | nil => rfl
  | cons hb _ ih => rw [List.map_cons, List.map_cons, List.map_cons, ih, partsOf_ahead hb]

theorem quasi_ahead {w w' : Wake} (h : w.Ahead d w') (q : QArgs) (s pc : ℝ) :
    w'.quasi q s pc = (w.quasi q s pc).shift (d / s) := by
  unfold Wake.quasi QS.shift QS.ofArgs
  dsimp only
  rw [h.rMax, h.xiMin, h.xiMax, h.nR, h.nXi, add_div, add_div, add_sub_add_right_eq_sub]

theorem beamHist_ahead {w w' : Wake} (h : w.Ahead d w') {bs bs' : List Bunch}
    (hb : List.Forall₂ (FieldElement.Ahead d) bs bs') (shape : String) (s np : ℝ) :
    w'.beamHist shape s np bs' = w.beamHist shape s np bs := by
  unfold Wake.beamHist
  dsimp only
  rw [h.xiMax, h.xiMin, h.rMax, h.nXi, h.nR, h.k, add_sub_add_right_eq_sub, add_div]
  generalize (w.xiMax - w.xiMin) / ((w.nXi : ℝ) - 1) / s = dz
  generalize w.rMax / (w.nR : ℝ) / s = dr
  let c : QS := ⟨0, fun _ => 0, fun _ => 0, 0, 0, 0, w.nXi, w.nR, w.xiMin / s, dz, dr, 0, "", fun _ i => i⟩
  have hfold : ∀ (sh : Deposition.Shape) (f : ℝ) (x : ℤ → ℤ → ℝ),
      bs'.foldl (fun h b => Deposition.depositShape sh true ⟨w.xiMin / s + d / s, dr / 2, w.nXi, w.nR, dz, dr⟩ (partsOf s f b) h) x =
        bs.foldl (fun h b => Deposition.depositShape sh true ⟨w.xiMin / s, dr / 2, w.nXi, w.nR, dz, dr⟩ (partsOf s f b) h) x := by
    intro sh f
    induction hb with
    | nil => intro x; rfl
    | cons hb _ ih =>
      intro x
      rw [List.foldl_cons, List.foldl_cons, partsOf_ahead hb, ← ih]
      congr 1
      exact QS.deposit_shift (c := c) (d / s) sh (partsOf s f _) x
  have hne : (∃ b m, bs = b :: m) ∨ bs = [] := by cases bs <;> simp
  rcases hne with ⟨b, m, rfl⟩ | rfl
  · obtain ⟨b', m', -, -, rfl⟩ := List.forall₂_cons_left_iff.mp hb
    dsimp only
    congr 1
    funext sh i k
    rw [hfold]
  · cases hb
    rfl

theorem calculate_shift (c : QS) (pusher : String) (L : ℕ → ℕ → ℝ) (B : List (List (Deposition.Part ℝ))) (e0 cc : ℝ) (f : Fld) :
    (c.shift d).calculate pusher L (B.map (shiftBunch d)) e0 cc f = c.calculate pusher L B e0 cc f := by
  unfold QS.calculate
  rw [QS.beamField_shift]
  cases c.beamField B with
  | none => rfl
  | some b =>
    dsimp only
    rw [QS.evolve_shift]
    rfl

theorem quasiCalc_ahead {w w' : Wake} (h : w.Ahead d w') {bs bs' : List Bunch} (hb : List.Forall₂ (FieldElement.Ahead d) bs bs')
    (a : Plasma1) (q : QArgs) (t np : ℝ) (env : Option (String × (ℕ → ℕ → ℂ))) (f : Fld) :
    w'.quasiCalc a q t np env bs' f = w.quasiCalc a q t np env bs f := by
  unfold Wake.quasiCalc
  dsimp only
  generalize a.skinDepth (np / 1e6) = s
  generalize a.waveBreaking (np / 1e6) = e0
  rw [quasi_ahead h, parts_ahead hb, h.k]
  generalize w.quasi q s (q.parabolic (t * w.k.c)) = c
  rw [calculate_shift]
  rfl

theorem coldCalc_ahead {w w' : Wake} (h : w.Ahead d w') {bs bs' : List Bunch} (hb : List.Forall₂ (FieldElement.Ahead d) bs bs')
    (a : Plasma1) (bw : Bool) (shape : String) (t np : ℝ) (env : Option (String × (ℕ → ℕ → ℂ))) (f : Fld) :
    w'.coldCalc a bw shape t np env bs' f = w.coldCalc a bw shape t np env bs f := by
  unfold Wake.coldCalc
  dsimp only
  generalize a.skinDepth (np / 1e6) = s
  generalize a.waveBreaking (np / 1e6) = e0
  rw [beamHist_ahead h hb, h.xiMax, h.xiMin, h.rMax, h.nXi, h.nR, h.k, add_sub_add_right_eq_sub, add_div]
  congr 1
  funext hist
  generalize (w.xiMax - w.xiMin) / ((w.nXi : ℝ) - 1) / s = dz
  generalize w.rMax / (w.nR : ℝ) / s = dr
  have hm : (⟨w.nXi, w.nR, w.xiMin / s + d / s, dz, dr, bw, aEnvAbs env, hist⟩ : ColdFluid.Cold) =
      (⟨w.nXi, w.nR, w.xiMin / s, dz, dr, bw, aEnvAbs env, hist⟩ : ColdFluid.Cold).ahead (d / s) := rfl
  rw [hm]
  simp only [ColdFluid.rho_ahead, ColdFluid.chi_ahead, ColdFluid.fields_ahead]

theorem solve_ahead {w w' : Wake} (h : w.Ahead d w') {bs bs' : List Bunch} (hb : List.Forall₂ (FieldElement.Ahead d) bs bs')
    (t np : ℝ) (env : Option (String × (ℕ → ℕ → ℂ))) (f : Fld) : w'.solve t np env bs' f = w.solve t np env bs f := by
  obtain ⟨a, ⟨q, e1, e2⟩ | ⟨bw, shape, e1, e2⟩⟩ := h.model
  · rw [e1, e2, quasiCalc_ahead h hb]
  · rw [e1, e2, coldCalc_ahead h hb]

theorem envelope_ahead {w w' : Wake} (h : w.Ahead d w') (e : Option PulseArrays) : w'.envelope e = w.envelope e := by
  have hp := h.laser
  unfold Wake.envelope
  cases hw : w.laser <;> cases hw' : w'.laser <;> rw [hw, hw'] at hp
  · exact hp.elim
  · exact hp.elim
  · cases e with
    | none => rfl
    | some e =>
      dsimp only
      rw [hp.2.1]

theorem setup_ahead {w w' : Wake} (h : w.Ahead d w') {p p' : Pulse} (hp : p'.l0 = p.l0) (dt : ℝ) :
    w'.setup p' dt = (w.setup p dt).ahead d := by
  unfold Wake.setup Setup.ahead
  dsimp only
  rw [h.k, h.xiMin, h.xiMax, h.rMax, h.nXi, h.nR, h.substeps, h.laserNxi, h.laserNr, h.usePhase, hp]

theorem ops_ahead {w w' : Wake} (h : w.Ahead d w') {bs bs' : List Bunch} (hb : List.Forall₂ (FieldElement.Ahead d) bs bs')
    (φ : NumField ℝ (Option Props)) : φ.update (w'.ops φ.dt) bs' = φ.update (w.ops φ.dt) bs := by
  have hp := h.laser
  have h1 : w'.initProps φ.dt = w.initProps φ.dt := by
    unfold Wake.initProps
    cases hw : w.laser <;> cases hw' : w'.laser <;> rw [hw, hw'] at hp
    · exact hp.elim
    · exact hp.elim
    · dsimp only
      rw [setup_ahead h hp.1, init_ahead _ hp.2.2]
  have h2 : ∀ s, w'.evolveProps φ.dt s = w.evolveProps φ.dt s := by
    intro s
    unfold Wake.evolveProps
    rw [h.laserEvolution]
    cases hw : w.laser <;> cases hw' : w'.laser <;> rw [hw, hw'] at hp
    · exact hp.elim
    · exact hp.elim
    · cases s.laser with
      | none => rfl
      | some e =>
        dsimp only
        have hk : w'.kp s.np = w.kp s.np := by unfold Wake.kp; rw [h.k]
        rw [setup_ahead h hp.1, evolve_setup_ahead, hk]
  have h3 : ∀ t s, w'.calculateProps t bs' s = w.calculateProps t bs s := by
    intro t s
    unfold Wake.calculateProps
    dsimp only
    rw [envelope_ahead h, h.k, h.density, solve_ahead h hb]
  unfold NumField.update Wake.ops
  dsimp only
  simp only [h1, h2, h3]

/-! ### The stage -/

variable {F : Type} [LinearOrder F]

theorem stageDt_ahead {b b' : Bunch} (h : FieldElement.Ahead d b b') (k : Const) (density : ℝ → ℝ) (length : ℝ) :
    stageDt k density length b' = stageDt k density length b := by
  have hm : minGamma b' = minGamma b := by
    unfold minGamma
    rw [h.1]
    congr 2
    refine List.map_congr_left fun i hi => ?_
    rw [(h.2.1 i (List.mem_range.mp hi)).1]
    rfl
  unfold stageDt
  rw [hm, h.2.2.2.2.1, h.2.2.2.2.2.1]

theorem ahead_isSome {w w' : Wake} (h : w.Ahead d w') : w'.laser.isSome = w.laser.isSome := by
  have hp := h.laser
  cases hw : w.laser <;> cases hw' : w'.laser <;> rw [hw, hw'] at hp
  · exact hp.elim
  · exact hp.elim
  · rfl

theorem dt0_ahead {w w' : Wake} (h : w.Ahead d w') : w'.dt0 = w.dt0 := by
  unfold Wake.dt0
  rw [h.dzFields, h.xiMax, h.xiMin, h.k, add_sub_add_right_eq_sub]

/-- **C180.** If the bunches with their points of injection, the laser pulse, the simulation box and the external fields of a
plasma stage are all moved along the axis by the same distance, then the outputs are moved by this distance, and nothing else
changes: the momenta and the arrays of the wakefield and of the laser pulse are the same. -/
theorem stage_moved {p p' : PStage F} (h : p.Ahead d p') (opmd : Bool) (fuel : ℕ) {bs bs' : OneOrMany Bunch}
    (hb : List.Forall₂ (FieldElement.Ahead d) bs.toList bs'.toList) (hf : ∀ b ∈ bs.toList ++ bs'.toList, b.Fits) (b0 b0' : Bunch)
    {r : OneOrMany (List Bunch)} {w : World (NumField ℝ (Option Props))} (hr : p.track opmd fuel bs b0 = .returned (r, w)) :
    ∃ r' w', p'.track opmd fuel bs' b0' = .returned (r', w') ∧ OutRel (FieldElement.Ahead d) r r' ∧ w'.flds = w.flds := by
  have hw := h.wake
  have hstep : p.elem.Lockstep p'.elem (fun b b' => FieldElement.Ahead d b b' ∧ b.Fits ∧ b'.Fits) Eq := {
    length := h.length
    dtBunch := h.dtBunch
    nOut := h.nOut
    numFields := by
      show [(p'.wake.dt0, p'.wake.laser.isSome)] = [(p.wake.dt0, p.wake.laser.isSome)]
      rw [dt0_ahead hw, ahead_isSome hw]
    autoDt := by
      rintro b b' ⟨h1, -, -⟩
      obtain ⟨g, g1, g2⟩ := h.autoDt
      show p'.autoDt b' = p.autoDt b
      rw [g1, g2, hw.k, hw.density, h.length, stageDt_ahead h1]
    pushBefore := h.pushBefore
    c := congrArg Const.c hw.k
    push := by
      rintro φ φ' b b' t dt rfl ⟨h1, h2, h3⟩
      have hc : p'.elem.c = p.elem.c := congrArg Const.c hw.k
      have hp : p'.elem.pusher = p.elem.pusher := h.pusher
      rw [hc, hp]
      refine evolve_aheadOf h1 h2 h3 _ (List.rel_append ?_ h.ext) (h.sch _) (h.sch' _) t dt _
      cases φ.prop with
      | none => exact .nil
      | some s =>
        refine .cons ?_ .nil
        have harr : ∀ f, p'.wake.arr f = p.wake.arr f := fun f => by unfold Wake.arr; rw [hw.nXi, hw.nR]
        rw [harr, harr, harr]
        refine gridField_along ?_ _ _ _
        unfold Wake.box
        dsimp only
        rw [hw.xiMin, hw.xiMax, hw.rMax, hw.nR, hw.nXi, add_sub_add_right_eq_sub]
    update := by
      rintro l l' φ φ' j hl rfl
      show (if j = 0 then φ.update (p.wake.ops φ.dt) l else φ) = if j = 0 then φ.update (p'.wake.ops φ.dt) l' else φ
      rw [ops_ahead hw (hl.imp fun _ _ h => h.1)]
    f32 := h.f32 }
  have hdt : p'.wake.dtUpdate p'.length = p.wake.dtUpdate p.length := by
    unfold Wake.dtUpdate
    rw [ahead_isSome hw, dt0_ahead hw, h.length, hw.k]
  have hb' : List.Forall₂ (fun b b' => FieldElement.Ahead d b b' ∧ b.Fits ∧ b'.Fits) bs.toList bs'.toList := by
    generalize bs.toList = l at hb hf
    generalize bs'.toList = l' at hb hf
    induction hb with
    | nil => exact .nil
    | @cons x y xs ys hx _ ih =>
      refine .cons ⟨hx, hf _ (by simp), hf _ (by simp)⟩ (ih fun b hb => hf b ?_)
      rcases List.mem_append.mp hb with hb | hb <;> simp [hb]
  unfold PStage.track at hr ⊢
  rw [hdt]
  cases hd : p.wake.dtUpdate p.length with
  | none => rw [hd] at hr; cases hr
  | some dt =>
    rw [hd] at hr
    obtain ⟨r', w', g1, g2, g3⟩ := track_lockstep hstep opmd fuel hb' b0 b0' (φ := Wake.start dt) rfl hr
    refine ⟨r', w', g1, ?_, g3.symm⟩
    have himp : ∀ {l l' : List Bunch}, List.Forall₂ (fun b b' => FieldElement.Ahead d b b' ∧ b.Fits ∧ b'.Fits) l l' →
        List.Forall₂ (FieldElement.Ahead d) l l' := fun hl => hl.imp fun _ _ h => h.1
    cases r with
    | one l =>
      cases r' with
      | one l' => exact himp g2
      | many l' => exact g2.elim
    | many l =>
      cases r' with
      | one l' => exact g2.elim
      | many l' => exact g2.imp fun _ _ h => himp h

/-! ### An instance -/

/-- The wakefield of `demoWake`, further ahead by `d`. -/
noncomputable def aheadWake (d : ℝ) : Wake :=
  let w : Wake := { demoWake true with
    xiMin := -4 + d
    xiMax := 0 + d
    laser := some ⟨1, "linear", fun xi r => (Real.exp (-(xi - d + 2) ^ 2 - r ^ 2) : ℝ)⟩ }
  { w with solve := w.quasiCalc ⟨fun _ => 1, fun _ => 1⟩ ⟨2, none, fun _ => 0, "linear", 10, "ab5", fun _ i => i⟩ }

theorem demo_ahead (d : ℝ) {sch : ℕ → Sched} (hsch : ∀ n, (sch n).Valid n) :
    (demoStage true sch).Ahead d { demoStage true sch with wake := aheadWake d } where
  wake :=
    { k := rfl
      density := rfl
      rMax := rfl
      xiMin := rfl
      xiMax := rfl
      nR := rfl
      nXi := rfl
      dzFields := rfl
      laser := by
        refine ⟨rfl, rfl, fun xi r => ?_⟩
        show ((Real.exp (-(xi + d - d + 2) ^ 2 - r ^ 2) : ℝ) : ℂ) = (Real.exp (-(xi + 2) ^ 2 - r ^ 2) : ℝ)
        rw [add_sub_cancel_right]
      laserEvolution := rfl
      substeps := rfl
      laserNxi := rfl
      laserNr := rfl
      usePhase := rfl
      model := ⟨⟨fun _ => 1, fun _ => 1⟩, Or.inl ⟨⟨2, none, fun _ => 0, "linear", 10, "ab5", fun _ i => i⟩, rfl, rfl⟩⟩ }
  length := rfl
  dtBunch := rfl
  pusher := rfl
  nOut := rfl
  pushBefore := rfl
  ext := .nil
  autoDt := ⟨fun d => match d with | .finite d => 1 / 5 + d ^ 2 | _ => 1, fun b => rfl, fun b => rfl⟩
  sch := hsch
  sch' := hsch
  f32 := rfl

/-- Any bunch in the stage of the instance, and the same bunch in the stage moved by 7. -/
example (sch : ℕ → Sched) (hsch : ∀ n, (sch n).Valid n) (b b' : Bunch) (h : FieldElement.Ahead 7 b b') (hf : b.Fits ∧ b'.Fits) :
    ∃ fuel r r' w w', (demoStage true sch).track false fuel (.one b) b = .returned (r, w) ∧
      ({ demoStage true sch with wake := aheadWake 7 } : PStage ℝ).track false fuel (.one b') b' = .returned (r', w') ∧
      OutRel (FieldElement.Ahead 7) r r' ∧ w'.flds = w.flds := by
  obtain ⟨fuel, ⟨r, w⟩, hr⟩ := demo_returns true sch (.one b) b
  obtain ⟨r', w', g1, g2, g3⟩ := stage_moved (demo_ahead 7 hsch) false fuel (bs := .one b) (bs' := .one b') (.cons h .nil)
    (by
      intro c hc
      have : c = b ∨ c = b' := by simpa [OneOrMany.toList] using hc
      rcases this with rfl | rfl
      · exact hf.1
      · exact hf.2) b b' hr
  exact ⟨fuel, r, r', w, w', hr, g1, g2, g3⟩

end WakeT.Stage
