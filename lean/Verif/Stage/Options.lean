import Verif.Stage.Args
import Verif.Stage.Wake
import Verif.Plasma.SolverProps
import Verif.Bunch.Props

/-! # Options that are given by name (C167)

The constructors and solvers compare names of options with string constants.  What happens with other names. -/

set_option linter.unusedSectionVars false

namespace WakeT.Stage

open Bunch FieldElement Laser
open Plasma (QS)
open Plasma.QS (Fld)
open Push (PField Sched Ph)

/-! ### Model -/

/-- `ParticleBunch.__init__` with a matrix, as far as the coordinates are concerned (particle_bunch.py 66-91); `none` if the coordinates are not set. -/
noncomputable def fromMatrix (b : Bunch) (M : Mat 6) (n : ℕ) (matrixType : String) (gammaRef : ℝ) : Option Bunch :=
  if matrixType = "standard" then some (b.setMatrix M n)
  else if matrixType = "alternative" then some (b.setAlternative M n gammaRef)
  else none

/-! ### Specification: the documented names (plasma_ramp.py 60-72, plasma_stage.py 16-22, particle_bunch.py 40-41, 275-277,
wakefield.py 76-88, laser_pulse.py 38-40) -/

def profileNames : List String := ["inverse_square", "exponential", "gaussian"]
def rampTypes : List String := ["upramp", "downramp"]
def bunchPushers : List String := ["rk4", "boris"]
def plasmaPushers : List String := ["ab5", "rk4"]
def shapeNames : List String := ["linear", "cubic"]
def polarizations : List String := ["linear", "circular"]
def matrixTypes : List String := ["standard", "alternative"]

/-! ### C167 -/

theorem ne_of_notMem {a b s : String} (h : s ∉ [a, b]) : s ≠ a ∧ s ≠ b := by
  simpa using h

theorem parse_none {s : String} (h : s ∉ shapeNames) : Deposition.parseShape s = none := by
  obtain ⟨h1, h2⟩ := ne_of_notMem h
  simp [Deposition.parseShape, h1, h2]

/-- **C167**, the options that are checked.  Partial: missing are the names of `options_ignored_violated`. -/
theorem options_checked_partial :
    -- profiles of ramps
    (∀ (L : ℝ) (profile rampType : String) (decay top down position : Option ℝ),
      (∃ f, rampA L profile rampType decay top down position = .ok f) ↔ profile ∈ profileNames) ∧
    -- wakefield models of stages
    (∀ (Φ π : Type) (c : Classes Φ π) (density : DensityArg) (name : String) (ext : List Φ) (params : π), name ∉ modelNames →
      ∃ e, stageInit c density (.name name) ext params = .error e) ∧
    -- pushers of bunches
    (∀ (c : ℝ) (b : Bunch) (fields : List PField) (sch : Sched) (t dt : ℝ) (pusher : String), pusher ∉ bunchPushers →
      ∃ e, b.evolve c fields sch t dt pusher = (b, some e)) ∧
    -- pushers of the plasma
    (∀ (c : QS) (pusher : String) (L : ℕ → ℕ → ℝ) (B : List (List (Deposition.Part ℝ))) (e0 cc : ℝ) (f : Fld), pusher ∉ plasmaPushers →
      ∃ e, c.calculateField pusher L B e0 cc f = .error e) ∧
    -- shapes of the particles, if there are bunches
    (∀ (w : Wake) (a : Plasma1) (q : QArgs) (bw : Bool) (t np : ℝ) (env : Option (String × (ℕ → ℕ → ℂ))) (b : Bunch) (bs : List Bunch) (f : Fld) (shape : String),
      shape ∉ shapeNames → (q.pShape = shape → w.quasiCalc a q t np env (b :: bs) f = none) ∧ w.coldCalc a bw shape t np env (b :: bs) f = none) := by
  refine ⟨fun L profile rampType decay top down position => ?_, fun Φ π c density name ext params hn => ?_, fun c b fields sch t dt pusher hp => ?_,
    fun c pusher L B e0 cc f hp => ?_, fun w a q bw t np env b bs f shape hs => ⟨fun hq => ?_, ?_⟩⟩
  · have hm : profile ∈ profileNames ↔ profilesA.lookup profile ≠ none := by
      simp only [profilesA, profileNames, List.lookup, List.mem_cons, List.not_mem_nil, or_false]
      by_cases h1 : profile = "inverse_square"
      · subst h1; simp
      · by_cases h2 : profile = "exponential"
        · subst h2; simp
        · by_cases h3 : profile = "gaussian"
          · subst h3; simp
          · simp [h1, h2, h3, beq_eq_false_iff_ne.mpr h1, beq_eq_false_iff_ne.mpr h2, beq_eq_false_iff_ne.mpr h3]
    rw [hm]
    unfold rampA
    cases profilesA.lookup profile <;> simp
  · unfold stageInit
    cases hd : getDensity density with
    | error e => exact ⟨e, rfl⟩
    | ok d =>
      refine ⟨.valueError, ?_⟩
      show (getWakefield c d params (.name name) >>= _) = _
      unfold getWakefield
      dsimp only
      rw [if_neg hn]
      rfl
  · obtain ⟨h1, h2⟩ := ne_of_notMem hp
    obtain ⟨e, he, -⟩ := unknown_pusher_raises c b fields sch t dt pusher h1 h2
    exact ⟨e, he⟩
  · obtain ⟨h1, h2⟩ := ne_of_notMem hp
    by_cases hB : B = [] ∨ Deposition.parseShape c.pShape ≠ none
    · exact ⟨_, (QS.refused pusher L B e0 cc f).1 h1 h2 hB⟩
    · rw [not_or, not_not] at hB
      exact ⟨_, (QS.refused pusher L B e0 cc f).2 hB.2 hB.1⟩
  · subst hq
    unfold Wake.quasiCalc
    dsimp only
    rw [List.map_cons]
    unfold QS.calculate QS.beamField
    dsimp only
    rw [show (w.quasi q (a.skinDepth (np / 1e6)) (q.parabolic (t * w.k.c))).pShape = q.pShape from rfl, parse_none hs]
    rfl
  · unfold Wake.coldCalc Wake.beamHist
    dsimp only
    rw [parse_none hs]
    rfl

theorem loop_unknown {c : QS} (hs : c.pShape ∉ shapeNames) {p : QS.Pusher} {s : Plasma.Sources} {st : QS.PState × QS.Grids} (m : ℕ)
    {st' : QS.PState × QS.Grids} (h : c.loop p s st m = some st') : st'.2.rho = st.2.rho ∧ st'.2.chi = st.2.chi := by
  obtain ⟨h1, h2⟩ := ne_of_notMem hs
  induction m generalizing st' with
  | zero => obtain rfl := Option.some.inj h; exact ⟨rfl, rfl⟩
  | succ m ih =>
    rw [QS.loop, Option.bind_eq_bind, Option.bind_eq_some_iff] at h
    obtain ⟨st2, h3, h4⟩ := h
    obtain ⟨e1, e2⟩ := ih h3
    obtain ⟨x, f, hcol⟩ := QS.slice_grids h4
    unfold QS.column at hcol
    simp only [Option.bind_eq_bind, Option.bind_eq_some_iff] at hcol
    obtain ⟨src, -, f0, -, row, -, h⟩ := hcol
    have h' := congrArg (fun z => z.2.2) (Option.some.inj h)
    dsimp only at h'
    rw [Plasma.plasma_unknown_shape _ h1 h2, Plasma.plasma_unknown_shape _ h1 h2] at h'
    rw [← h']
    exact ⟨e1, e2⟩

/-- **C167 is violated.**  Names that are not documented are accepted: another type of ramp is a downramp; without bunches the plasma of another particle shape
is calculated, but has neither charge density nor susceptibility; a pulse with another polarization acts on the plasma as a circular one; a bunch with another
type of matrix has no coordinates (an error, but only when they are used). -/
theorem options_ignored_violated :
    (∀ (L : ℝ) (profile rampType : String) (decay top down position : Option ℝ), rampType ∉ rampTypes →
      rampA L profile rampType decay top down position = rampA L profile "downramp" decay top down position) ∧
    (∀ (rMax xiMin xiMax : ℝ) (nR nXi ppc : ℕ) (rMaxPlasma : Option ℝ) (pc : ℝ) (shape pusher : String) (maxGamma : ℝ) (argsort : (ℕ → ℝ) → ℕ → ℕ),
      0 < rMax → xiMin < xiMax → 0 < nR → 2 ≤ nXi → pusher ∈ plasmaPushers → shape ∉ shapeNames → ∀ (L : ℕ → ℕ → ℝ) (e0 cc : ℝ) (f : Fld),
      ∃ r, (QS.ofArgs rMax xiMin xiMax nR nXi ppc rMaxPlasma pc shape maxGamma argsort).calculateField pusher L [] e0 cc f = .ok r ∧
        ∀ i j, r.rho i j = 0 ∧ r.chi i j = 0) ∧
    (∀ (w : Wake) (a : Plasma1) (q : QArgs) (bw : Bool) (shape : String) (t np : ℝ) (pol : String) (env : ℕ → ℕ → ℂ) (bs : List Bunch) (f : Fld), pol ∉ polarizations →
      w.quasiCalc a q t np (some (pol, env)) bs f = w.quasiCalc a q t np (some ("circular", env)) bs f ∧
      w.coldCalc a bw shape t np (some (pol, env)) bs f = w.coldCalc a bw shape t np (some ("circular", env)) bs f) ∧
    (∀ (b : Bunch) (M : Mat 6) (n : ℕ) (matrixType : String) (g : ℝ), matrixType ∉ matrixTypes → fromMatrix b M n matrixType g = none) := by
  refine ⟨fun L profile rampType decay top down position hr => ?_, fun rMax xiMin xiMax nR nXi ppc rMaxPlasma pc shape pusher maxGamma argsort h1 h2 h3 h4 hp hs L e0 cc f => ?_,
    fun w a q bw shape t np pol env bs f hp => ?_, fun b M n matrixType g hm => ?_⟩
  · unfold rampA
    simp only [if_neg (ne_of_notMem hr).1, show ¬ ("downramp" = "upramp") by decide, if_false]
  ·
    set c := QS.ofArgs rMax xiMin xiMax nR nXi ppc rMaxPlasma pc shape maxGamma argsort with hc
    have hR : (0 : ℝ) < nR := by exact_mod_cast h3
    have hX : (2 : ℝ) ≤ nXi := by exact_mod_cast h4
    have hd : 0 < c.dxi := div_pos (by linarith) (by linarith)
    have hr : 0 < c.dr := div_pos h1 hR
    have h0 : ∀ i < c.n, 0 ≤ c.r0 i := by
      intro i hi
      have hi' : (i : ℤ) < (Plasma.Column.init (rMaxPlasma.getD rMax) pc (rMax / nR) ppc).nPart := by
        have : i < (Plasma.Column.init (rMaxPlasma.getD rMax) pc (rMax / nR) ppc).nPart.toNat := hi
        omega
      have := Plasma.column_r (rMaxPlasma.getD rMax) pc (rMax / nR) ppc i hi'
      show 0 ≤ (Plasma.Column.init (rMaxPlasma.getD rMax) pc (rMax / nR) ppc).r i
      rw [this]
      positivity
    have key : ∀ p, ∃ st, c.loop p (c.sources L fun _ _ => 0) (c.startState, ⟨fun _ => [], fun _ => [], fun _ _ => 0, fun _ _ => 0⟩) c.nXi = some st := by
      intro p
      obtain ⟨st, e, -⟩ := QS.loop_ends hd hr p (QS.sources_onGrid (c := c) L fun _ _ => 0) (c.startState, ⟨fun _ => [], fun _ => [], fun _ _ => 0, fun _ _ => 0⟩) h0 c.nXi
      exact ⟨st, e⟩
    obtain ⟨g, hg, g1, g2⟩ : ∃ g, c.evolve pusher (c.sources L fun _ _ => 0) ⟨fun _ => [], fun _ => [], fun _ _ => 0, fun _ _ => 0⟩ = .ok g ∧
        (g.rho = fun _ _ => 0) ∧ (g.chi = fun _ _ => 0) := by
      have hp' : pusher = "ab5" ∨ pusher = "rk4" := by simpa [plasmaPushers] using hp
      unfold QS.evolve
      dsimp only
      rcases hp' with rfl | rfl
      · obtain ⟨st, e⟩ := key .ab5
        obtain ⟨a1, a2⟩ := loop_unknown hs _ e
        rw [if_pos rfl, e]
        exact ⟨_, rfl, a1, a2⟩
      · obtain ⟨st, e⟩ := key .rk4
        obtain ⟨a1, a2⟩ := loop_unknown hs _ e
        rw [if_neg (show ¬ "rk4" = "ab5" by decide), if_pos rfl, e]
        exact ⟨_, rfl, a1, a2⟩
    unfold QS.calculateField QS.calculate
    rw [show c.beamField [] = some fun _ _ => 0 from rfl]
    dsimp only
    rw [hg]
    exact ⟨_, rfl, fun i j => ⟨by dsimp only; rw [g1], by dsimp only; rw [g2]⟩⟩
  · have hl := (ne_of_notMem hp).1
    have e1 : aEnv2 (some (pol, env)) = aEnv2 (some ("circular", env)) := by
      unfold aEnv2
      simp only [if_neg hl, show ¬ ("circular" = "linear") by decide, if_false]
    have e2 : aEnvAbs (some (pol, env)) = aEnvAbs (some ("circular", env)) := by
      unfold aEnvAbs
      simp only [Option.map_some, if_neg hl, show ¬ ("circular" = "linear") by decide, if_false]
    constructor
    · unfold Wake.quasiCalc
      rw [e1]
    · unfold Wake.coldCalc
      rw [e2]
  · obtain ⟨a1, a2⟩ := ne_of_notMem hm
    unfold fromMatrix
    rw [if_neg a1, if_neg a2]

/-- Misspelt names are not documented, and documented ones are. -/
example : "Inverse_square" ∉ profileNames ∧ "inverse square" ∉ profileNames ∧ "blowout" ∉ modelNames ∧ "Boris" ∉ bunchPushers ∧ "ab2" ∉ plasmaPushers ∧
    "Cubic" ∉ shapeNames ∧ "up" ∉ rampTypes ∧ "lin" ∉ polarizations ∧ "trace_space" ∉ matrixTypes ∧ "gaussian" ∈ profileNames := by
  decide

/-- An upramp from density 1 to 4 of length 1; with the name misspelt it is a downramp from 4 to 1. -/
example : ∃ f g, rampA 1 "inverse_square" "upramp" none (some 4) (some 1) none = .ok f ∧ rampA 1 "inverse_square" "up" none (some 4) (some 1) none = .ok g ∧
    f 0 = .ok 1 ∧ g 0 = .ok 4 := by
  refine ⟨_, _, rfl, rfl, ?_, ?_⟩
  · simp only [inverseSquareA, need, if_true]
    show Except.ok _ = Except.ok _
    congr 1
    have : √((4 : ℝ) / 1) = 2 := by rw [show (4 : ℝ) / 1 = 2 ^ 2 by norm_num]; exact Real.sqrt_sq (by norm_num)
    rw [this]
    norm_num
  · simp only [inverseSquareA, need, show ¬ ("up" = "upramp") by decide, if_false]
    show Except.ok _ = Except.ok _
    congr 1
    norm_num

end WakeT.Stage
