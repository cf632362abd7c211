import Verif.Laser.Similar
import Verif.Tracker.Similar
import Verif.Stage.Wake

/-! # Plasma stages on different scales (C130) -/

set_option linter.unusedSectionVars false

namespace WakeT.Stage

open Bunch FieldElement Laser
open Plasma (QS)
open Plasma.QS (Fld)
open Push (PField Sched ScaledField)
open Fields (NumField)

/-! ### Specification -/

/-- The functions of `aptools`: skin depth and wave-breaking field of a plasma of density `n / l ^ 2`
are `l` times and `1 / l` times those of a plasma of density `n`. -/
structure Plasma1.Law (l : ℝ) (a : Plasma1) : Prop where
  skinDepth : ∀ n, a.skinDepth (n / l ^ 2) = l * a.skinDepth n
  waveBreaking : ∀ n, a.waveBreaking (n / l ^ 2) = a.waveBreaking n / l

/-- Arguments of the quasistatic model for lengths multiplied by `l`. -/
structure QArgs.Similar (l : ℝ) (q q' : QArgs) : Prop where
  ppc : q'.ppc = q.ppc
  rMaxPlasma : q'.rMaxPlasma = q.rMaxPlasma.map (l * ·)
  parabolic : ∀ z, q'.parabolic (l * z) = q.parabolic z / l ^ 2
  pShape : q'.pShape = q.pShape
  maxGamma : q'.maxGamma = q.maxGamma
  pusher : q'.pusher = q.pusher
  argsort : q'.argsort = q.argsort

/-- Both wakefields are calculated by the same model, with arguments for lengths multiplied by `l`. -/
def SameModel (l : ℝ) (w w' : Wake) : Prop :=
  ∃ a : Plasma1, a.Law l ∧
    ((∃ q q' : QArgs, q.Similar l q' ∧ w.solve = w.quasiCalc a q ∧ w'.solve = w'.quasiCalc a q') ∨
      ∃ b shape, w.solve = w.coldCalc a b shape ∧ w'.solve = w'.coldCalc a b shape)

/-- Pulses with all lengths, including the wavelength, multiplied by `l`, and the same amplitude. -/
def SimilarPulse (l : ℝ) : Option Pulse → Option Pulse → Prop
  | none, none => True
  | some p, some p' => p'.l0 = l * p.l0 ∧ p'.polarization = p.polarization ∧ ∀ xi r, p'.prof (l * xi) (l * r) = p.prof xi r
  | _, _ => False

/-- Wakefields on boxes whose sizes differ by the factor `l`, with the same number of nodes, in
plasmas whose densities differ by the factor `1 / l ^ 2`. -/
structure Wake.Similar (l : ℝ) (w w' : Wake) : Prop where
  k : w'.k = w.k
  density : ∀ z, w'.density (l * z) = w.density z / l ^ 2
  rMax : w'.rMax = l * w.rMax
  xiMin : w'.xiMin = l * w.xiMin
  xiMax : w'.xiMax = l * w.xiMax
  nR : w'.nR = w.nR
  nXi : w'.nXi = w.nXi
  dzFields : w'.dzFields = w.dzFields.map (l * ·)
  laser : SimilarPulse l w.laser w'.laser
  laserEvolution : w'.laserEvolution = w.laserEvolution
  substeps : w'.substeps = w.substeps
  laserNxi : w'.laserNxi = w.laserNxi
  laserNr : w'.laserNr = w.laserNr
  usePhase : w'.usePhase = w.usePhase
  model : SameModel l w w'

/-- An adaptive time step multiplied by `l`. -/
noncomputable def Dt.times (l : ℝ) : Dt → Dt
  | .finite d => .finite (l * d)
  | d => d

/-- The stage `p'` is the stage `p` with all lengths and times multiplied by `l`, the density divided
by `l ^ 2`, the external fields divided by `l`, and the same resolution.  The adaptive time steps are
those of `_get_optimized_dt`, and the comparison of times in single precision does not depend on the
scale (as is the case if `l` is a power of two). -/
structure PStage.Similar {F : Type} (l : ℝ) (p p' : PStage F) : Prop where
  pos : 0 < l
  wake : p.wake.Similar l p'.wake
  length : p'.length = l * p.length
  dtBunch : p'.dtBunch = longer l p.dtBunch
  pusher : p'.pusher = p.pusher
  nOut : p'.nOut = p.nOut
  pushBefore : p'.pushBefore = p.pushBefore
  ext : List.Forall₂ (ScaledField l) p.ext p'.ext
  autoDt : ∃ g g' : Dt → ℝ, (∀ b, p.autoDt b = g (stageDt p.wake.k p.wake.density p.length b)) ∧
    (∀ b, p'.autoDt b = g' (stageDt p'.wake.k p'.wake.density p'.length b)) ∧ ∀ d, g' (d.times l) = l * g d
  sch : ∀ n, (p.sch n).Valid n
  sch' : ∀ n, (p'.sch n).Valid n
  f32 : ∀ t, p'.f32 (l * t) = p.f32 t

/-- The wakefield `s'` is `s` with the fields divided by `l`; the laser, and the charge density and
susceptibility of the plasma in units of its density, are the same. -/
def WeakerProps (l : ℝ) : Option Props → Option Props → Prop
  | none, none => True
  | some s, some s' => s'.laser = s.laser ∧ s'.np = s.np / l ^ 2 ∧ s'.fld.rho = s.fld.rho ∧ s'.fld.chi = s.fld.chi ∧
      (∀ i j, s'.fld.er i j = s.fld.er i j / l) ∧ (∀ i j, s'.fld.ez i j = s.fld.ez i j / l) ∧
      ∀ i j, s'.fld.bt i j = s.fld.bt i j / l
  | _, _ => False

/-- States of the numerical field. -/
def WeakerField (l : ℝ) (φ φ' : NumField ℝ (Option Props)) : Prop :=
  φ'.dt = l * φ.dt ∧ φ'.initialized = φ.initialized ∧ φ'.t = l * φ.t ∧ WeakerProps l φ.prop φ'.prop

/-! ### The wakefield -/

variable {l : ℝ}

/-- Fields divided by `l`. -/
def WeakerFld (l : ℝ) (f f' : Fld) : Prop :=
  f'.rho = f.rho ∧ f'.chi = f.chi ∧ (∀ i j, f'.er i j = f.er i j / l) ∧ (∀ i j, f'.ez i j = f.ez i j / l) ∧
    ∀ i j, f'.bt i j = f.bt i j / l

theorem partsOf_bigger (hl : 0 < l) {b b' : Bunch} (h : Bigger l b b') {s f f' : ℝ} (hf : l * f' = f) :
    partsOf (l * s) f' b' = partsOf s f b := by
  obtain ⟨h1, h2, -, -, h5, -, -⟩ := h
  unfold partsOf
  rw [h1]
  refine List.map_congr_left fun i hi => ?_
  obtain ⟨g1, g2⟩ := h2 i (List.mem_range.mp hi)
  rw [g1]
  have hq : b'.q i * f' = b.q i * f := by
    unfold Bunch.q
    rw [g2, h5, ← hf]
    ring
  have hd : ∀ x : ℝ, l * x / (l * s) = x / s := fun x => mul_div_mul_left _ _ hl.ne'
  rw [hq]
  simp only [Push.Ph.scaled, hd]

theorem parts_bigger (hl : 0 < l) {bs bs' : List Bunch} (h : List.Forall₂ (Bigger l) bs bs') {s f f' : ℝ} (hf : l * f' = f) :
    bs'.map (partsOf (l * s) f') = bs.map (partsOf s f) := by
  induction h with
  | nil => rfl
  | cons hb _ ih => rw [List.map_cons, List.map_cons, ih, partsOf_bigger hl hb hf]

theorem setInner_div (nXi nR : ℕ) (a : ℤ → ℤ → ℝ) (f : ℕ → ℕ → ℝ) (i j : ℤ) :
    QS.setInner nXi nR (fun i j => a i j / l) (fun i j => f i j / l) i j = QS.setInner nXi nR a f i j / l := by
  unfold QS.setInner
  split_ifs <;> rfl

theorem quasi_similar (hl : 0 < l) {w w' : Wake} (h : w.Similar l w') {q q' : QArgs} (hq : q.Similar l q') (s pc : ℝ) :
    w'.quasi q' (l * s) (pc / l ^ 2) = w.quasi q s pc := by
  have hd : ∀ x : ℝ, l * x / (l * s) = x / s := fun x => mul_div_mul_left _ _ hl.ne'
  have hp : pc / l ^ 2 * (l * s) ^ 2 = pc * s ^ 2 := by
    have := hl.ne'
    field_simp
  have hr : (q.rMaxPlasma.map (l * ·)).map (· / (l * s)) = q.rMaxPlasma.map (· / s) := by
    cases q.rMaxPlasma with
    | none => rfl
    | some x => exact congrArg some (hd x)
  unfold Wake.quasi
  rw [h.rMax, h.xiMin, h.xiMax, h.nR, h.nXi, hq.ppc, hq.rMaxPlasma, hq.pShape, hq.maxGamma, hq.argsort, hd, hd, hd, hp, hr]

/-- The solver is linear in the unit of the fields. -/
theorem calculate_unit (c : QS) (pusher : String) (a2 : ℕ → ℕ → ℝ) (bunches : List (List (Deposition.Part ℝ)))
    (e0 cc : ℝ) {f f' : Fld} (hf : WeakerFld l f f') :
    (∃ x, c.calculate pusher a2 bunches e0 cc f = .error x ∧ c.calculate pusher a2 bunches (e0 / l) cc f' = .error x) ∨
    ∃ g g', c.calculate pusher a2 bunches e0 cc f = .ok g ∧ c.calculate pusher a2 bunches (e0 / l) cc f' = .ok g' ∧
      WeakerFld l g g' := by
  obtain ⟨h1, h2, h3, h4, h5⟩ := hf
  have h4 : f'.ez = fun i j => f.ez i j / l := funext fun i => funext fun j => h4 i j
  unfold QS.calculate
  cases c.beamField bunches with
  | none => exact Or.inl ⟨_, rfl, rfl⟩
  | some beam =>
    dsimp only
    rw [h1, h2]
    cases c.evolve pusher (c.sources a2 beam) ⟨fun _ => [], fun _ => [], f.rho, f.chi⟩ with
    | error x => exact Or.inl ⟨x, rfl, rfl⟩
    | ok g =>
      refine Or.inr ⟨_, _, rfl, rfl, rfl, rfl, ?_, ?_, ?_⟩
      · intro i j
        dsimp only [Plasma.padded]
        split_ifs <;> ring
      · intro i j
        dsimp only
        rw [h4, ← setInner_div]
        congr 1
        funext i j
        ring
      · intro i j
        dsimp only
        ring

/-- A particle with `l` times the weight. -/
def heavier (l : ℝ) (p : Deposition.Part ℝ) : Deposition.Part ℝ := { p with w := l * p.w }

theorem partsOf_heavier (s f : ℝ) (b : Bunch) : partsOf s (l * f) b = (partsOf s f b).map (heavier l) := by
  unfold partsOf heavier
  rw [List.map_map]
  refine List.map_congr_left fun i _ => ?_
  show (⟨_, _, _⟩ : Deposition.Part ℝ) = ⟨_, _, _⟩
  congr 1
  ring

theorem writes_heavier (sh : Deposition.Shape) (ruyten : Bool) (g : Deposition.Grid ℝ) (p : Deposition.Part ℝ) :
    Deposition.writes sh ruyten g (heavier l p) =
      (Deposition.writes sh ruyten g p).map fun x => { x with v := l * x.v } := by
  have h1 : g.Inside (heavier l p) ↔ g.Inside p := Iff.rfl
  cases sh with
  | linear =>
    unfold Deposition.writes Deposition.writesLinear
    dsimp only
    by_cases hi : g.Inside p
    · rw [if_pos hi, if_pos (h1.mpr hi)]
      simp only [List.map_cons, List.map_nil, List.cons.injEq, Deposition.Write.mk.injEq, and_true]
      refine ⟨⟨rfl, rfl, ?_⟩, ⟨rfl, rfl, ?_⟩, ⟨rfl, rfl, ?_⟩, ⟨rfl, rfl, ?_⟩⟩ <;> exact mul_left_comm _ _ _
    · rw [if_neg hi, if_neg (fun h => hi (h1.mp h))]
      rfl
  | cubic =>
    unfold Deposition.writes Deposition.writesCubic
    dsimp only
    by_cases hi : g.Inside p
    · rw [if_pos hi, if_pos (h1.mpr hi)]
      simp only [List.map_cons, List.map_nil, List.cons.injEq, Deposition.Write.mk.injEq, and_true]
      refine ⟨⟨rfl, rfl, ?_⟩, ⟨rfl, rfl, ?_⟩, ⟨rfl, rfl, ?_⟩, ⟨rfl, rfl, ?_⟩, ⟨rfl, rfl, ?_⟩, ⟨rfl, rfl, ?_⟩, ⟨rfl, rfl, ?_⟩,
        ⟨rfl, rfl, ?_⟩, ⟨rfl, rfl, ?_⟩, ⟨rfl, rfl, ?_⟩, ⟨rfl, rfl, ?_⟩, ⟨rfl, rfl, ?_⟩, ⟨rfl, rfl, ?_⟩, ⟨rfl, rfl, ?_⟩,
        ⟨rfl, rfl, ?_⟩, ⟨rfl, rfl, ?_⟩⟩ <;> exact mul_left_comm _ _ _
    · rw [if_neg hi, if_neg (fun h => hi (h1.mp h))]
      rfl

theorem deposit_heavier (sh : Deposition.Shape) (ruyten : Bool) (g : Deposition.Grid ℝ) (ps : List (Deposition.Part ℝ))
    {x x' : ℤ → ℤ → ℝ} (hx : ∀ i j, x' i j = l * x i j) {i j : ℤ} :
    Deposition.depositShape sh ruyten g (ps.map (heavier l)) x' i j = l * Deposition.depositShape sh ruyten g ps x i j := by
  rw [Deposition.depositShape_apply, Deposition.depositShape_apply, hx, mul_add, List.map_map, ← List.sum_map_mul_left]
  congr 3
  funext p
  simp only [Function.comp, writes_heavier, Deposition.effect, List.map_map]
  rw [← List.sum_map_mul_left]
  congr 2
  funext x
  simp only [Function.comp]
  split_ifs
  · rfl
  · exact (mul_zero l).symm

theorem beamHist_similar (hl : 0 < l) {w w' : Wake} (h : w.Similar l w') {bs bs' : List Bunch}
    (hb : List.Forall₂ (Bigger l) bs bs') (shape : String) (s np : ℝ) :
    w'.beamHist shape (l * s) (np / l ^ 2) bs' = w.beamHist shape s np bs := by
  have hl' := hl.ne'
  have hd : ∀ x : ℝ, l * x / (l * s) = x / s := fun x => mul_div_mul_left _ _ hl'
  have e1 : (l * w.xiMax - l * w.xiMin) / ((w.nXi : ℝ) - 1) / (l * s) = (w.xiMax - w.xiMin) / ((w.nXi : ℝ) - 1) / s := by
    rw [← mul_sub, mul_div_assoc, hd]
  have e2 : l * w.rMax / (w.nR : ℝ) / (l * s) = w.rMax / w.nR / s := by rw [mul_div_assoc, hd]
  have hfold : ∀ (sh : Deposition.Shape) (g : Deposition.Grid ℝ) (f : ℝ) (i j : ℤ),
      bs'.foldl (fun h b => Deposition.depositShape sh true g (partsOf (l * s) f b) h) (fun _ _ => 0) i j =
        l * bs.foldl (fun h b => Deposition.depositShape sh true g (partsOf s f b) h) (fun _ _ => 0) i j := by
    intro sh g f i j
    have h0 : ∀ x x' : ℤ → ℤ → ℝ, (∀ i j, x' i j = l * x i j) →
        bs'.foldl (fun h b => Deposition.depositShape sh true g (partsOf (l * s) f b) h) x' i j =
          l * bs.foldl (fun h b => Deposition.depositShape sh true g (partsOf s f b) h) x i j := by
      induction hb with
      | nil => intro x x' hx; exact hx i j
      | cons hb _ ih =>
        intro x x' hx
        rw [List.foldl_cons, List.foldl_cons]
        refine ih _ _ fun i j => ?_
        rw [partsOf_bigger hl hb rfl, partsOf_heavier, deposit_heavier _ _ _ _ hx]
    exact h0 _ _ fun i j => (mul_zero l).symm
  unfold Wake.beamHist
  dsimp only
  rw [h.xiMax, h.xiMin, h.rMax, h.nXi, h.nR, h.k, e1, e2, hd]
  have hne : (∃ b m, bs = b :: m) ∨ bs = [] := by cases bs <;> simp
  rcases hne with ⟨b, m, rfl⟩ | rfl
  · obtain ⟨b', m', -, -, rfl⟩ := List.forall₂_cons_left_iff.mp hb
    dsimp only
    congr 1
    funext sh i k
    rw [hfold]
    field_simp
  · cases hb
    rfl

theorem solve_similar (hl : 0 < l) {w w' : Wake} (h : w.Similar l w') {bs bs' : List Bunch}
    (hb : List.Forall₂ (Bigger l) bs bs') (t np : ℝ) (env : Option (String × (ℕ → ℕ → ℂ))) :
    (w.solve t np env bs Wake.zeros = none ∧ w'.solve (l * t) (np / l ^ 2) env bs' Wake.zeros = none) ∨
    ∃ g g', w.solve t np env bs Wake.zeros = some g ∧ w'.solve (l * t) (np / l ^ 2) env bs' Wake.zeros = some g' ∧
      WeakerFld l g g' := by
  have hz : WeakerFld l Wake.zeros Wake.zeros := ⟨rfl, rfl, fun i j => (zero_div l).symm, fun i j => (zero_div l).symm,
    fun i j => (zero_div l).symm⟩
  have hl' := hl.ne'
  obtain ⟨a, ha, ⟨q, q', hq, e1, e2⟩ | ⟨bw, shape, e1, e2⟩⟩ := h.model
  · rw [e1, e2]
    unfold Wake.quasiCalc
    dsimp only
    have hs : a.skinDepth (np / l ^ 2 / 1e6) = l * a.skinDepth (np / 1e6) := by
      rw [div_right_comm, ha.skinDepth]
    have he : a.waveBreaking (np / l ^ 2 / 1e6) = a.waveBreaking (np / 1e6) / l := by
      rw [div_right_comm, ha.waveBreaking]
    have hpar : q'.parabolic (l * t * w'.k.c) = q.parabolic (t * w.k.c) / l ^ 2 := by
      rw [h.k, mul_assoc, hq.parabolic]
    rw [hs, he, hpar, quasi_similar hl h hq, hq.pusher, h.k]
    generalize a.skinDepth (np / 1e6) = s
    generalize w.quasi q s (q.parabolic (t * w.k.c)) = c
    rw [parts_bigger hl hb (f := 1 / w.k.e / (2 * Real.pi * c.dr * c.dxi * s ^ 3 * np)) (by field_simp)]
    rcases calculate_unit (l := l) c q.pusher (aEnv2 env)
      (bs.map (partsOf s (1 / w.k.e / (2 * Real.pi * c.dr * c.dxi * s ^ 3 * np)))) (a.waveBreaking (np / 1e6)) w.k.c hz
      with ⟨x, g1, g2⟩ | ⟨g, g', g1, g2, g3⟩
    · exact Or.inl ⟨by rw [g1]; rfl, by rw [g2]; rfl⟩
    · exact Or.inr ⟨g, g', by rw [g1]; rfl, by rw [g2]; rfl, g3⟩
  · rw [e1, e2]
    unfold Wake.coldCalc
    dsimp only
    have hs : a.skinDepth (np / l ^ 2 / 1e6) = l * a.skinDepth (np / 1e6) := by
      rw [div_right_comm, ha.skinDepth]
    have he : a.waveBreaking (np / l ^ 2 / 1e6) = a.waveBreaking (np / 1e6) / l := by
      rw [div_right_comm, ha.waveBreaking]
    rw [hs, he, beamHist_similar hl h hb]
    cases w.beamHist shape (a.skinDepth (np / 1e6)) np bs with
    | none => exact Or.inl ⟨rfl, rfl⟩
    | some hist =>
      refine Or.inr ⟨_, _, rfl, rfl, ?_⟩
      have hd : ∀ x : ℝ, l * x / (l * a.skinDepth (np / 1e6)) = x / a.skinDepth (np / 1e6) :=
        fun x => mul_div_mul_left _ _ hl'
      have e3 : (w'.xiMax - w'.xiMin) / ((w'.nXi : ℝ) - 1) / (l * a.skinDepth (np / 1e6)) =
          (w.xiMax - w.xiMin) / ((w.nXi : ℝ) - 1) / a.skinDepth (np / 1e6) := by
        rw [h.xiMax, h.xiMin, h.nXi, ← mul_sub, mul_div_assoc, hd]
      have e4 : w'.rMax / (w'.nR : ℝ) / (l * a.skinDepth (np / 1e6)) = w.rMax / w.nR / a.skinDepth (np / 1e6) := by
        rw [h.rMax, h.nR, mul_div_assoc, hd]
      have e5 : w'.xiMin / (l * a.skinDepth (np / 1e6)) = w.xiMin / a.skinDepth (np / 1e6) := by rw [h.xiMin, hd]
      rw [e3, e4, e5, h.nXi, h.nR, h.k]
      generalize (⟨w.nXi, w.nR, _, _, _, bw, aEnvAbs env, hist⟩ : ColdFluid.Cold) = m
      refine ⟨rfl, rfl, fun i j => ?_, fun i j => ?_, fun i j => ?_⟩ <;>
        · dsimp only
          rw [← setInner_div]
          congr 1
          · funext i j
            exact (zero_div l).symm
          · funext i j
            unfold ColdFluid.Cold.fields
            dsimp only
            ring

theorem envelope_similar {w w' : Wake} (h : w.Similar l w') (e : Option PulseArrays) : w'.envelope e = w.envelope e := by
  have hp := h.laser
  unfold Wake.envelope
  cases hw : w.laser with
  | none =>
    cases hw' : w'.laser with
    | none => rfl
    | some p' => rw [hw, hw'] at hp; exact hp.elim
  | some p =>
    cases hw' : w'.laser with
    | none => rw [hw, hw'] at hp; exact hp.elim
    | some p' =>
      rw [hw, hw'] at hp
      cases e with
      | none => rfl
      | some e =>
        dsimp only
        rw [hp.2.1]

theorem setup_similar {w w' : Wake} (h : w.Similar l w') {p p' : Pulse} (hp : p'.l0 = l * p.l0) (dt : ℝ) :
    w'.setup p' (l * dt) = (w.setup p dt).larger l := by
  unfold Wake.setup Setup.larger
  dsimp only
  rw [h.k, h.xiMin, h.xiMax, h.rMax, h.nXi, h.nR, h.substeps, h.laserNxi, h.laserNr, h.usePhase, hp]
  congr 1
  rw [div_div, mul_comm l]

theorem init_similar (hl : 0 < l) {w w' : Wake} (h : w.Similar l w') (dt : ℝ) :
    WeakerProps l (w.initProps dt) (w'.initProps (l * dt)) := by
  have hp := h.laser
  have hz : ∀ i j : ℤ, (0 : ℤ → ℤ → ℝ) i j = (0 : ℤ → ℤ → ℝ) i j / l := fun i j => (zero_div l).symm
  unfold Wake.initProps
  cases hw : w.laser with
  | none =>
    cases hw' : w'.laser with
    | none => exact ⟨rfl, (zero_div _).symm, rfl, rfl, hz, hz, hz⟩
    | some p' => rw [hw, hw'] at hp; exact hp.elim
  | some p =>
    cases hw' : w'.laser with
    | none => rw [hw, hw'] at hp; exact hp.elim
    | some p' =>
      rw [hw, hw'] at hp
      dsimp only
      rw [setup_similar h hp.1, init_larger hl.ne' _ hp.2.2]
      cases (w.setup p dt).init p.prof with
      | none => trivial
      | some e => exact ⟨rfl, (zero_div _).symm, rfl, rfl, hz, hz, hz⟩

theorem kp_similar (hl : 0 < l) {w w' : Wake} (h : w.Similar l w') (np : ℝ) : w'.kp (np / l ^ 2) = w.kp np / l := by
  unfold Wake.kp
  rw [h.k, show w.k.e ^ 2 * (np / l ^ 2) / (w.k.me * w.k.eps0) = w.k.e ^ 2 * np / (w.k.me * w.k.eps0) / l ^ 2 by ring,
    Real.sqrt_div' _ (sq_nonneg l), Real.sqrt_sq hl.le, div_right_comm]

theorem evolve_similar (hl : 0 < l) {w w' : Wake} (h : w.Similar l w') (dt : ℝ) {s s' : Props}
    (hs : WeakerProps l (some s) (some s')) : WeakerProps l (w.evolveProps dt s) (w'.evolveProps (l * dt) s') := by
  have hp := h.laser
  obtain ⟨h1, h2, h3, h4, h5⟩ := id hs
  unfold Wake.evolveProps
  rw [h1, h2, h4, h.laserEvolution]
  cases hw : w.laser with
  | none =>
    cases hw' : w'.laser with
    | none => exact hs
    | some p' => rw [hw, hw'] at hp; exact hp.elim
  | some p =>
    cases hw' : w'.laser with
    | none => rw [hw, hw'] at hp; exact hp.elim
    | some p' =>
      rw [hw, hw'] at hp
      cases hsl : s.laser with
      | none => exact hs
      | some e =>
        dsimp only
        split_ifs
        · rw [setup_similar h hp.1, kp_similar hl h, evolve_larger hl.ne']
          cases (w.setup p dt).evolve (fun i j => s.fld.chi (i + 2) (j + 2), w.kp s.np) e with
          | none => trivial
          | some e' => exact ⟨rfl, rfl, h3, h4, h5⟩
        · exact hs

theorem calculate_similar (hl : 0 < l) {w w' : Wake} (h : w.Similar l w') {bs bs' : List Bunch}
    (hb : List.Forall₂ (Bigger l) bs bs') (t : ℝ) {s s' : Props} (hs : WeakerProps l (some s) (some s')) :
    WeakerProps l (w.calculateProps t bs s) (w'.calculateProps (l * t) bs' s') := by
  unfold Wake.calculateProps
  dsimp only
  rw [envelope_similar h, hs.1, h.k, mul_assoc, h.density]
  rcases solve_similar hl h hb t (w.density (t * w.k.c)) (w.envelope s.laser) with ⟨e1, e2⟩ | ⟨g, g', e1, e2, e3⟩
  · rw [e1, e2]
    trivial
  · rw [e1, e2]
    exact ⟨rfl, rfl, e3⟩

theorem bind_similar {A : Props → Option Props} {B : Props → Option Props}
    (h : ∀ s s', WeakerProps l (some s) (some s') → WeakerProps l (A s) (B s')) {x x' : Option Props}
    (hx : WeakerProps l x x') : WeakerProps l (x.bind A) (x'.bind B) := by
  cases x with
  | none =>
    cases x' with
    | none => trivial
    | some s' => exact hx.elim
  | some s =>
    cases x' with
    | none => exact hx.elim
    | some s' => exact h s s' hx

theorem update_similar (hl : 0 < l) {w w' : Wake} (h : w.Similar l w') {bs bs' : List Bunch}
    (hb : List.Forall₂ (Bigger l) bs bs') {φ φ' : NumField ℝ (Option Props)} (hφ : WeakerField l φ φ') :
    WeakerField l (φ.update (w.ops φ.dt) bs) (φ'.update (w'.ops φ'.dt) bs') := by
  obtain ⟨h1, h2, h3, h4⟩ := hφ
  unfold NumField.update Wake.ops
  rw [h1, h2, h3]
  cases φ.initialized with
  | false =>
    refine ⟨rfl, rfl, (mul_zero l).symm, ?_⟩
    have := bind_similar (fun s s' hs => calculate_similar hl h hb 0 hs) (init_similar hl h φ.dt)
    rw [mul_zero] at this
    exact this
  | true =>
    refine ⟨rfl, rfl, (mul_add l _ _).symm, ?_⟩
    have := bind_similar (fun s s' hs => calculate_similar hl h hb (φ.t + φ.dt) hs)
      (bind_similar (fun s s' hs => evolve_similar hl h φ.dt hs) h4)
    rw [mul_add] at this
    exact this

theorem field_similar (hl : 0 < l) {w w' : Wake} (h : w.Similar l w') {x x' : Option Props} (hx : WeakerProps l x x') :
    List.Forall₂ (ScaledField l) (w.field x) (w'.field x') := by
  cases x with
  | none =>
    cases x' with
    | none => exact .nil
    | some s' => exact hx.elim
  | some s =>
    cases x' with
    | none => exact hx.elim
    | some s' =>
      obtain ⟨-, -, -, -, h5, h6, h7⟩ := hx
      refine .cons ?_ .nil
      have hbox : w'.box = ⟨l * w.box.zMin, l * w.box.zMax, l * w.box.rMin, l * w.box.rMax, l * w.box.dz, l * w.box.dr⟩ := by
        unfold Wake.box
        dsimp only
        rw [h.xiMin, h.xiMax, h.rMax, h.nR, h.nXi]
        congr 1 <;> ring
      have harr : ∀ {f f' : ℤ → ℤ → ℝ}, (∀ i j, f' i j = f i j / l) →
          w'.arr f' = ⟨(w.arr f).ni, (w.arr f).nj, fun i j => (w.arr f).val i j / l⟩ := by
        intro f f' hf
        unfold Wake.arr
        dsimp only
        rw [h.nXi, h.nR, show f' = fun i j => f i j / l from funext fun i => funext fun j => hf i j]
      rw [harr h5, harr h6, harr h7]
      exact gridField_scaled hl hbox _ _ _

/-! ### The stage -/

theorem minGamma_bigger {b b' : Bunch} (h : Bigger l b b') : minGamma b' = minGamma b := by
  unfold minGamma
  rw [h.1]
  congr 2
  refine List.map_congr_left fun i hi => ?_
  rw [(h.2.1 i (List.mem_range.mp hi)).1]
  rfl

theorem max?_div (hl : 0 < l) (ns : List ℝ) : (ns.map (· / l)).max? = ns.max?.map (· / l) := by
  cases ns with
  | nil => rfl
  | cons n ns =>
    rw [List.map_cons, List.max?_cons', List.max?_cons', Option.map_some]
    congr 1
    induction ns generalizing n with
    | nil => rfl
    | cons m ns ih =>
      rw [List.map_cons, List.foldl_cons, List.foldl_cons, ← ih, max_div_div_right hl.le]

theorem stageDt_similar (hl : 0 < l) {b b' : Bunch} (h : Bigger l b b') (k : Const) {density density' : ℝ → ℝ}
    (hd : ∀ z, density' (l * z) = density z / l ^ 2) (length : ℝ) :
    stageDt k density' (l * length) b' = (stageDt k density length b).times l := by
  unfold stageDt
  rw [minGamma_bigger h, h.2.2.2.2.1, h.2.2.2.2.2.1]
  cases minGamma b with
  | none => rfl
  | some g =>
    dsimp only
    have h1 : ((List.range 100).map fun j => density' (CSR.linspace 0 (l * length) 100 j)) =
        ((List.range 100).map fun j => density (CSR.linspace 0 length 100 j)).map (· / l ^ 2) := by
      rw [List.map_map]
      refine List.map_congr_left fun j _ => ?_
      have : CSR.linspace 0 (l * length) 100 j = l * CSR.linspace 0 length 100 j := by
        unfold CSR.linspace
        rw [if_neg (by norm_num), if_neg (by norm_num)]
        ring
      rw [this, hd]
      rfl
    rw [h1, max?_div (pow_pos hl 2)]
    have h2 : (((List.range 100).map fun j => density (CSR.linspace 0 length 100 j)).max?.map (· / l ^ 2)).getD 0 =
        ((List.range 100).map fun j => density (CSR.linspace 0 length 100 j)).max?.getD 0 / l ^ 2 := by
      cases ((List.range 100).map fun j => density (CSR.linspace 0 length 100 j)).max? with
      | none => exact (zero_div _).symm
      | some m => rfl
    rw [h2]
    generalize ((List.range 100).map fun j => density (CSR.linspace 0 length 100 j)).max?.getD 0 = m
    have h3 : √(m / l ^ 2 * k.e ^ 2 / (k.me * k.eps0)) = √(m * k.e ^ 2 / (k.me * k.eps0)) / l := by
      rw [show m / l ^ 2 * k.e ^ 2 / (k.me * k.eps0) = m * k.e ^ 2 / (k.me * k.eps0) / l ^ 2 by ring,
        Real.sqrt_div' _ (sq_nonneg l), Real.sqrt_sq hl.le]
    rw [h3]
    generalize √(m * k.e ^ 2 / (k.me * k.eps0)) = wp
    have h4 : √|b.qSpecies / b.mSpecies * k.c * (k.me / (2 * k.e * k.c) * (wp / l) ^ 2) / g| =
        √|b.qSpecies / b.mSpecies * k.c * (k.me / (2 * k.e * k.c) * wp ^ 2) / g| / l := by
      rw [show b.qSpecies / b.mSpecies * k.c * (k.me / (2 * k.e * k.c) * (wp / l) ^ 2) / g =
          b.qSpecies / b.mSpecies * k.c * (k.me / (2 * k.e * k.c) * wp ^ 2) / g / l ^ 2 by ring,
        abs_div, abs_of_pos (pow_pos hl 2), Real.sqrt_div' _ (sq_nonneg l), Real.sqrt_sq hl.le]
    rw [h4]
    generalize √|b.qSpecies / b.mSpecies * k.c * (k.me / (2 * k.e * k.c) * wp ^ 2) / g| = wx
    unfold period
    by_cases hw : wx = 0
    · rw [if_pos hw, if_pos (by rw [hw, zero_div])]
      rfl
    · rw [if_neg hw, if_neg (div_ne_zero hw hl.ne')]
      show Dt.finite _ = Dt.finite _
      congr 1
      have := hl.ne'
      field_simp

variable {F : Type} [LinearOrder F]

theorem laser_isSome {w w' : Wake} (h : w.Similar l w') : w'.laser.isSome = w.laser.isSome := by
  have hp := h.laser
  cases hw : w.laser with
  | none =>
    cases hw' : w'.laser with
    | none => rfl
    | some p' => rw [hw, hw'] at hp; exact hp.elim
  | some p =>
    cases hw' : w'.laser with
    | none => rw [hw, hw'] at hp; exact hp.elim
    | some p' => rfl

theorem dt0_similar {w w' : Wake} (h : w.Similar l w') : w'.dt0 = l * w.dt0 := by
  unfold Wake.dt0
  rw [h.dzFields, h.xiMax, h.xiMin, h.k]
  cases w.dzFields with
  | none =>
    show (l * w.xiMax - l * w.xiMin) / w.k.c = l * ((w.xiMax - w.xiMin) / w.k.c)
    ring
  | some d => exact mul_div_assoc _ _ _

theorem elem_similar {p p' : PStage F} (h : p.Similar l p') : p.elem.Similar l p'.elem (WeakerField l) where
  pos := h.pos
  length := h.length
  dtBunch := h.dtBunch
  pusher := h.pusher
  nOut := h.nOut
  numFields := by
    show [(p'.wake.dt0, p'.wake.laser.isSome)] = [(l * p.wake.dt0, p.wake.laser.isSome)]
    rw [dt0_similar h.wake, laser_isSome h.wake]
  autoDt := by
    intro b b' hb
    obtain ⟨g, g', h1, h2, h3⟩ := h.autoDt
    show p'.autoDt b' = l * p.autoDt b
    rw [h1, h2, h.wake.k, h.length, stageDt_similar h.pos hb _ h.wake.density, h3]
  pushBefore := h.pushBefore
  c := congrArg Const.c h.wake.k
  felt := fun φ φ' hφ => List.rel_append (field_similar h.pos h.wake hφ.2.2.2) h.ext
  update := by
    intro bs bs' φ φ' j hb hφ
    show WeakerField l (if j = 0 then _ else φ) (if j = 0 then _ else φ')
    split_ifs
    · exact update_similar h.pos h.wake hb hφ
    · exact hφ
  sch := h.sch
  sch' := h.sch'
  f32 := h.f32

/-- **C130** Bunches are tracked through a plasma stage with a wakefield from the quasistatic or the cold
fluid model, with or without a laser.  If all lengths and times are multiplied by `l`, the density of
the plasma divided by `l ^ 2`, the external fields divided by `l`, and the charges of the bunches
multiplied by `l`, then the new stage returns the same outputs on the new scale: `l` times the
positions, the same momenta; the laser at the end is the same, and the fields are divided by `l`. -/
theorem stage_similar {p p' : PStage F} (h : p.Similar l p') (opmd : Bool) (fuel : ℕ) {bs bs' : List Bunch}
    (hb : BiggerInputs l bs bs') (b0 b0' : Bunch) {r : OneOrMany (List Bunch)} {w : World (NumField ℝ (Option Props))}
    (hr : p.track opmd fuel (.many bs) b0 = .returned (r, w)) :
    ∃ r' w', p'.track opmd fuel (.many bs') b0' = .returned (r', w') ∧ BiggerOut l r r' ∧
      WeakerProps l w.flds.prop w'.flds.prop := by
  have hdt : p'.wake.dtUpdate p'.length = (p.wake.dtUpdate p.length).map (l * ·) := by
    unfold Wake.dtUpdate
    rw [laser_isSome h.wake, dt0_similar h.wake, h.length, h.wake.k, mul_div_assoc, adjustDt_scaled h.pos]
  unfold PStage.track at hr ⊢
  cases hd : p.wake.dtUpdate p.length with
  | none => rw [hd] at hr; cases hr
  | some dt =>
    rw [hd] at hr hdt
    rw [hdt]
    obtain ⟨r', w', g1, g2, g3⟩ := track_similar (elem_similar h) opmd fuel hb b0 b0' (φ := Wake.start dt)
      (φ' := Wake.start (l * dt)) ⟨rfl, rfl, (mul_zero l).symm, trivial⟩ hr
    exact ⟨r', w', g1, g2, g3.2.2.2⟩

/-! ### An instance -/

/-- The functions of `aptools` in units in which all constants are 1. -/
noncomputable def unitPlasma : Plasma1 := ⟨fun n => 1 / √n, fun n => √n⟩

theorem unitPlasma_law (hl : 0 < l) : unitPlasma.Law l where
  skinDepth := by
    intro n
    show 1 / √(n / l ^ 2) = l * (1 / √n)
    rw [Real.sqrt_div' _ (sq_nonneg l), Real.sqrt_sq hl.le, one_div_div, mul_one_div]
  waveBreaking := by
    intro n
    show √(n / l ^ 2) = √n / l
    rw [Real.sqrt_div' _ (sq_nonneg l), Real.sqrt_sq hl.le]

/-- A stage of length `l` with a quasistatic wakefield on a grid of five by four cells in a parabolic
channel, driven by an evolving laser pulse and by the bunches, with two updates and two outputs. -/
noncomputable def simWake (l : ℝ) : Wake :=
  let w : Wake := ⟨⟨1, 1, 1, 1⟩, fun z => (1 + z / l) / l ^ 2, l * 4, l * -4, l * 0, 4, 5, some (l * (3 / 5)),
    some ⟨l, "linear", fun xi r => (Real.exp (-(xi / l + 2) ^ 2 - (r / l) ^ 2) : ℝ)⟩, true, 2, none, none, true,
    fun _ _ _ _ f => some f⟩
  { w with solve := w.quasiCalc unitPlasma ⟨2, some (l * 3), fun z => (z / l) / l ^ 2, "linear", 10, "ab5", fun _ i => i⟩ }

/-- The stage of the instance, with an adaptive time step. -/
noncomputable def simStage (l : ℝ) (sch : ℕ → Sched) : PStage ℝ where
  wake := simWake l
  length := l * 1
  dtBunch := .one none
  pusher := "boris"
  nOut := 2
  pushBefore := true
  ext := []
  autoDt := fun b => match stageDt (simWake l).k (simWake l).density (l * 1) b with
    | .finite d => l * (1 / 5 + (d / l) ^ 2)
    | _ => l
  sch := sch
  f32 := fun t => t / l

theorem sim_similar (hl : 0 < l) {sch : ℕ → Sched} (hsch : ∀ n, (sch n).Valid n) :
    (simStage 1 sch).Similar l (simStage l sch) where
  pos := hl
  wake :=
    { k := rfl
      density := by
        intro z
        show (1 + l * z / l) / l ^ 2 = (1 + z / 1) / 1 ^ 2 / l ^ 2
        rw [mul_div_cancel_left₀ z hl.ne', div_one, one_pow, div_one]
      rMax := by show l * 4 = l * (1 * 4); ring
      xiMin := by show l * -4 = l * (1 * -4); ring
      xiMax := by show l * 0 = l * (1 * 0); ring
      nR := rfl
      nXi := rfl
      dzFields := by show some (l * (3 / 5)) = some (l * (1 * (3 / 5))); rw [one_mul]
      laser := by
        refine ⟨(mul_one l).symm, rfl, fun xi r => ?_⟩
        show ((Real.exp (-(l * xi / l + 2) ^ 2 - (l * r / l) ^ 2) : ℝ) : ℂ) = (Real.exp (-(xi / 1 + 2) ^ 2 - (r / 1) ^ 2) : ℝ)
        rw [mul_div_cancel_left₀ xi hl.ne', mul_div_cancel_left₀ r hl.ne', div_one, div_one]
      laserEvolution := rfl
      substeps := rfl
      laserNxi := rfl
      laserNr := rfl
      usePhase := rfl
      model := by
        refine ⟨unitPlasma, unitPlasma_law hl, Or.inl ⟨_, _, ?_, rfl, rfl⟩⟩
        refine ⟨rfl, ?_, ?_, rfl, rfl, rfl, rfl⟩
        · show some (l * 3) = some (l * (1 * 3))
          rw [one_mul]
        · intro z
          show l * z / l / l ^ 2 = z / 1 / 1 ^ 2 / l ^ 2
          rw [mul_div_cancel_left₀ z hl.ne', div_one, one_pow, div_one] }
  length := by show l * 1 = l * (1 * 1); ring
  dtBunch := rfl
  pusher := rfl
  nOut := rfl
  pushBefore := rfl
  ext := .nil
  autoDt := by
    refine ⟨fun | .finite d => 1 * (1 / 5 + (d / 1) ^ 2) | _ => 1, fun | .finite d => l * (1 / 5 + (d / l) ^ 2) | _ => l,
      fun b => rfl, fun b => rfl, fun d => ?_⟩
    cases d with
    | finite d =>
      show l * (1 / 5 + (l * d / l) ^ 2) = l * (1 * (1 / 5 + (d / 1) ^ 2))
      rw [mul_div_cancel_left₀ d hl.ne', div_one, one_mul]
    | infinite => exact (mul_one l).symm
    | empty => exact (mul_one l).symm
  sch := hsch
  sch' := hsch
  f32 := by
    intro t
    show l * t / l = t / 1
    rw [mul_div_cancel_left₀ t hl.ne', div_one]

theorem sim_auto (sch : ℕ → Sched) (b : Bunch) : 1 / 5 ≤ (simStage 1 sch).autoDt b := by
  unfold simStage
  dsimp only
  split
  · rw [one_mul, div_one]
    nlinarith [sq_nonneg ‹ℝ›]
  · norm_num

theorem sim_returns (sch : ℕ → Sched) (bs : OneOrMany Bunch) (b0 : Bunch) :
    ∃ fuel r, (simStage 1 sch).track false fuel bs b0 = .returned r := by
  have hdt : (simStage 1 sch).wake.dtUpdate (simStage 1 sch).length = some (1 / 2) := by
    show Fields.adjustDt true ((1 : ℝ) * 1 / 1) (1 * (3 / 5) / 1) = _
    have h : ⌈((1 : ℝ) * 1 / 1) / (1 * (3 / 5) / 1)⌉ = 2 := by rw [Int.ceil_eq_iff]; norm_num
    unfold Fields.adjustDt
    rw [if_pos rfl, if_neg (by norm_num)]
    dsimp only
    rw [h, if_neg (by norm_num)]
    norm_num
  have hok : (simStage 1 sch).elem.Ok :=
    { length := by norm_num [PStage.elem, simStage]
      c := by norm_num [PStage.elem, simStage, simWake]
      steps := by
        intro d hd
        simp [PStage.elem, simStage, OneOrMany.toList] at hd
      auto := fun b => lt_of_lt_of_le (by norm_num) (sim_auto sch b)
      fields := by
        intro x hx
        simp [PStage.elem, simStage] at hx
        rw [hx]
        norm_num [Wake.dt0, simWake]
      mono := fun a b hab => by
        show a / 1 ≤ b / 1
        rwa [div_one, div_one]
      sep := by norm_num [PStage.elem, simStage, simWake] }
  unfold PStage.track
  rw [hdt]
  refine track_returns hok (fun a b hab => ?_) (by norm_num [PStage.elem, simStage]) (δ := 1 / 5)
    (by norm_num) (sim_auto sch) bs (by intro l hl; cases hl) false b0 _
  show a / 1 < b / 1
  rwa [div_one, div_one]

/-- Two bunches in the stage of the instance on a scale of 1000. -/
example (sch : ℕ → Sched) (hsch : ∀ n, (sch n).Valid n) (b1 b2 b1' b2' : Bunch) (h1 : Bigger 1000 b1 b1')
    (h2 : Bigger 1000 b2 b2') (hf : b1.Fits ∧ b2.Fits ∧ b1'.Fits ∧ b2'.Fits) : ∃ fuel r r' w w',
    (simStage 1 sch).track false fuel (.many [b1, b2]) b1 = .returned (r, w) ∧
    (simStage 1000 sch).track false fuel (.many [b1', b2']) b1' = .returned (r', w') ∧
    BiggerOut 1000 r r' ∧ WeakerProps 1000 w.flds.prop w'.flds.prop := by
  obtain ⟨fuel, ⟨r, w⟩, hr⟩ := sim_returns sch (.many [b1, b2]) b1
  obtain ⟨r', w', g1, g2, g3⟩ := stage_similar (sim_similar (l := 1000) (by norm_num) hsch) false fuel
    (.cons ⟨h1, hf.1, hf.2.2.1⟩ (.cons ⟨h2, hf.2.1, hf.2.2.2⟩ .nil)) b1 b1' hr
  exact ⟨fuel, r, r', w, w', hr, g1, g2, g3⟩

end WakeT.Stage
