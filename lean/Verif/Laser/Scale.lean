import Verif.Laser.Subgrid

/-! # Scaling the envelope (C123, C124) -/

set_option linter.unusedSectionVars false

namespace WakeT.Laser

open Interp

/-! ### The solvers are homogeneous -/

section tdma

variable {K : Type} [Field K]

theorem tdmaG_mul (a b c d : ℕ → K) (μ : K) (i : ℕ) : tdmaG a b c (fun k => μ * d k) i = μ * tdmaG a b c d i := by
  induction i with
  | zero => simp only [tdmaG]; ring
  | succ i ih => simp only [tdmaG, ih]; ring

theorem tdma_mul (n : ℕ) (a b c d : ℕ → K) (μ : K) (i : ℕ) : tdma n a b c (fun k => μ * d k) i = μ * tdma n a b c d i := by
  unfold tdma
  generalize n - 1 - i = m
  induction m with
  | zero => simp only [tdmaBack, tdmaLast, tdmaG_mul]; ring
  | succ m ih => simp only [tdmaBack, ih, tdmaG_mul]; ring

end tdma

/-- An array times a number. -/
def scaleG (μ : ℂ) (a : GridC) : GridC := fun i j => μ * a i j

/-- A row times a number. -/
def scaleR (μ : ℂ) (a : RowC) : RowC := fun j => μ * a j

theorem row_scale (p : EnvParams) (centered : Bool) (chi : ℕ → ℕ → ℝ) (ph : ℕ → ℝ) (j : ℕ) (μ : ℂ) (a aOld : GridC)
    (n1 n2 : RowC) : p.row centered chi ph j (scaleG μ a) (scaleG μ aOld) (scaleR μ n1) (scaleR μ n2) =
      scaleR μ (p.row centered chi ph j a aOld n1 n2) := by
  funext k
  unfold EnvParams.row scaleR
  dsimp only
  split_ifs
  · rw [← tdma_mul]
    congr 1
    funext k
    unfold EnvParams.rhs scaleG
    dsimp only
    split_ifs <;> ring
  · rw [← tdma_mul]
    congr 1
    funext k
    unfold EnvParams.rhsN scaleG
    dsimp only
    split_ifs <;> ring

/-- The arrays of the sweep times a number. -/
def scaleS (μ : ℂ) (s : Sweep) : Sweep := ⟨scaleG μ s.a, scaleG μ s.aOld, scaleR μ s.new1, scaleR μ s.new2⟩

theorem scaleG_update (μ : ℂ) (a : GridC) (i : ℕ) (r : RowC) :
    scaleG μ (Function.update a i r) = Function.update (scaleG μ a) i (scaleR μ r) := by
  funext k
  by_cases h : k = i
  · subst h
    rw [Function.update_self]
    funext j
    unfold scaleG scaleR
    rw [Function.update_self]
  · rw [Function.update_of_ne h]
    funext j
    unfold scaleG
    rw [Function.update_of_ne h]

theorem sweepFrom_scale {row : ℕ → GridC → GridC → RowC → RowC → RowC} {μ : ℂ}
    (h : ∀ j a o n1 n2, row j (scaleG μ a) (scaleG μ o) (scaleR μ n1) (scaleR μ n2) = scaleR μ (row j a o n1 n2))
    (m : ℕ) (s : Sweep) : sweepFrom row m (scaleS μ s) = scaleS μ (sweepFrom row m s) := by
  induction m generalizing s with
  | zero => rfl
  | succ m ih =>
    have hs : sweepStep row m (scaleS μ s) = scaleS μ (sweepStep row m s) := by
      unfold sweepStep scaleS
      dsimp only
      rw [h, scaleG_update, scaleG_update]
      rfl
    simp only [sweepFrom]
    rw [hs, ih]

theorem sweep_scale {row : ℕ → GridC → GridC → RowC → RowC → RowC} {μ : ℂ}
    (h : ∀ j a o n1 n2, row j (scaleG μ a) (scaleG μ o) (scaleR μ n1) (scaleR μ n2) = scaleR μ (row j a o n1 n2))
    (nz : ℕ) (a aOld : GridC) :
    sweep row nz (scaleG μ a) (scaleG μ aOld) = (scaleG μ (sweep row nz a aOld).1, scaleG μ (sweep row nz a aOld).2) := by
  have hz : (⟨scaleG μ a, scaleG μ aOld, 0, 0⟩ : Sweep) = scaleS μ ⟨a, aOld, 0, 0⟩ := by
    unfold scaleS scaleR
    simp
    constructor <;> rfl
  unfold sweep
  dsimp only
  rw [hz, sweepFrom_scale h]
  simp only [scaleG_update]
  rfl

/-- The factor that the solvers commute with: a positive number, or any number if the phases are
not used. -/
def Factor (usePhase : Bool) (μ : ℂ) : Prop := usePhase = false ∨ ∃ r : ℝ, 0 < r ∧ μ = r

theorem step_scale (p : EnvParams) (centered : Bool) (chi : ℕ → ℕ → ℝ) {μ : ℂ} (hμ : Factor p.usePhase μ) (s : GridC × GridC) :
    p.step centered chi (scaleG μ s.1, scaleG μ s.2) =
      (scaleG μ (p.step centered chi s).1, scaleG μ (p.step centered chi s).2) := by
  have hrow : p.row centered chi (EnvParams.phases (scaleG μ s.1)) = p.row centered chi (EnvParams.phases s.1) := by
    rcases hμ with h | ⟨r, hr, rfl⟩
    · funext j a o n1 n2
      unfold EnvParams.row EnvParams.theta
      simp only [h, Bool.false_eq_true, if_false]
    · have : EnvParams.phases (scaleG (r : ℂ) s.1) = EnvParams.phases s.1 := by
        unfold EnvParams.phases
        congr 1
        funext i
        exact Complex.arg_real_mul _ hr
      rw [this]
  unfold EnvParams.step
  dsimp only
  rw [hrow]
  exact sweep_scale (fun j a o n1 n2 => row_scale p centered chi _ j μ a o n1 n2) _ _ _

theorem evolve_scale (p : EnvParams) (centered : Bool) (chi : ℕ → ℕ → ℝ) {μ : ℂ} (hμ : Factor p.usePhase μ) (s : GridC × GridC) :
    p.evolve centered chi (scaleG μ s.1, scaleG μ s.2) =
      (scaleG μ (p.evolve centered chi s).1, scaleG μ (p.evolve centered chi s).2) := by
  unfold EnvParams.evolve
  generalize p.nt = n
  induction n generalizing s with
  | zero => rfl
  | succ n ih => rw [Function.iterate_succ_apply, step_scale p centered chi hμ, ih, Function.iterate_succ_apply]

/-! ### The pulse -/

/-- A pulse times a number. -/
def PulseArrays.scale (μ : ℂ) (e : PulseArrays) : PulseArrays :=
  ⟨scaleG μ e.a, scaleG μ e.old, e.nSteps, fun i j => μ * e.out i j⟩

theorem regridAll_scale (src dst : Mesh) (μ : ℂ) (f : ℕ → ℕ → ℂ) :
    regridAll src dst (fun i j => μ * f i j) = (regridAll src dst f).map fun g i j => μ * g i j := by
  have h : ∀ i j, regrid src dst (fun i j => μ * f i j) i j = (regrid src dst f i j).map (μ * ·) := by
    intro i j
    exact interpPoint_map (LinearMap.restrictScalars ℝ (LinearMap.mulLeft ℂ μ)) (src.array f) _ _ _ _ _ _
  unfold regridAll
  simp only [h, Option.isSome_map]
  split_ifs
  · rw [Option.map_some]
    congr 1
    funext i j
    show (Option.map (μ * ·) (regrid src dst f i j)).getD 0 = μ * (regrid src dst f i j).getD 0
    generalize regrid src dst f i j = o
    cases o <;> simp
  · rfl

theorem output_scale (s : Setup) (μ : ℂ) (a : GridC) :
    s.output (scaleG μ a) = (s.output a).map fun g i j => μ * g i j := by
  unfold Setup.output
  split_ifs
  · exact regridAll_scale _ _ _ _
  · rfl

theorem init_scale (s : Setup) (μ : ℂ) (prof : ℝ → ℝ → ℂ) :
    s.init (fun z r => μ * prof z r) = (s.init prof).map (PulseArrays.scale μ) := by
  unfold Setup.init
  dsimp only
  have h : (fun i j => if i < s.solver.nz ∧ j < s.solver.nr then μ * prof (s.solver.zs i) (s.solver.rs j) else 0) =
      scaleG μ fun i j => if i < s.solver.nz ∧ j < s.solver.nr then prof (s.solver.zs i) (s.solver.rs j) else 0 := by
    funext i j
    unfold scaleG
    dsimp only
    split_ifs
    · rfl
    · rw [mul_zero]
  rw [h, output_scale]
  cases s.output _ with
  | none => rfl
  | some o =>
    simp only [Option.map_some, Option.bind_eq_bind, Option.bind_some, PulseArrays.scale]
    congr 2
    funext i j
    simp [scaleG]

theorem evolve_pulse_scale (s : Setup) {μ : ℂ} (hμ : Factor s.usePhase μ) (x : (ℕ → ℕ → ℝ) × ℝ) (e : PulseArrays) :
    s.evolve x (e.scale μ) = (s.evolve x e).map (PulseArrays.scale μ) := by
  unfold Setup.evolve
  simp only [Option.bind_eq_bind]
  cases s.solverChi x.1 with
  | none => rfl
  | some chi =>
    simp only [Option.bind_some]
    have h := evolve_scale (s.params x.2) (decide (e.nSteps ≠ 0)) chi hμ (e.a, e.old)
    have h' : (s.params x.2).evolve (decide ((e.scale μ).nSteps ≠ 0)) chi ((e.scale μ).a, (e.scale μ).old) =
        (scaleG μ ((s.params x.2).evolve (decide (e.nSteps ≠ 0)) chi (e.a, e.old)).1,
          scaleG μ ((s.params x.2).evolve (decide (e.nSteps ≠ 0)) chi (e.a, e.old)).2) := h
    rw [h']
    dsimp only
    rw [output_scale]
    cases s.output _ with
    | none => rfl
    | some o => rfl

/-- A pulse with an amplitude larger by a factor stays larger by this factor, for any number of
steps and any susceptibilities. -/
theorem run_scale (s : Setup) {μ : ℂ} (hμ : Factor s.usePhase μ) (prof : ℝ → ℝ → ℂ) (l : List ((ℕ → ℕ → ℝ) × ℝ)) :
    s.run (fun z r => μ * prof z r) l = (s.run prof l).map (PulseArrays.scale μ) := by
  induction l with
  | nil => exact init_scale s μ prof
  | cons x l ih =>
    unfold Setup.run
    rw [ih]
    cases s.run prof l with
    | none => rfl
    | some e =>
      rw [Option.map_some, Option.bind_some, Option.bind_some]
      exact evolve_pulse_scale s hμ x e

/-! ### C124: the absolute phase -/

/-- **C124**, partial: if the phases are not used by the solver, then a constant phase of the
envelope is kept and its modulus does not depend on it.  Missing: `use_phase = True`, the default
(`absolute_phase_violated`). -/
theorem absolute_phase_partial (s : Setup) (hs : s.usePhase = false) (φ : ℝ) (prof : ℝ → ℝ → ℂ)
    (l : List ((ℕ → ℕ → ℝ) × ℝ)) {e : PulseArrays} (he : s.run prof l = some e) :
    ∃ e', s.run (fun z r => Complex.exp (φ * Complex.I) * prof z r) l = some e' ∧
      ∀ i j, e'.out i j = Complex.exp (φ * Complex.I) * e.out i j ∧ ‖e'.out i j‖ = ‖e.out i j‖ := by
  refine ⟨e.scale (Complex.exp (φ * Complex.I)), ?_, fun i j => ⟨rfl, ?_⟩⟩
  · rw [run_scale s (Or.inl hs), he]
    rfl
  · show ‖_ * _‖ = _
    rw [norm_mul, Complex.norm_exp_ofReal_mul_I, one_mul]

/-- A grid of 2 x 3 nodes with steps of one, one time step of one. -/
noncomputable def phaseSetup (usePhase : Bool) : Setup :=
  { c := 1, k0 := 1, xiMin := 0, xiMax := 1, rMax := 3, nz := 2, nr := 3, dt := 1, nt := 1, subNz := none,
    subNr := none, usePhase := usePhase }

theorem phaseSetup_ok (u : Bool) : (phaseSetup u).Ok := by
  constructor <;> constructor <;> norm_num [phaseSetup, Setup.main, Setup.solver, Setup.useSub]

/-- A short pulse, on axis only. -/
noncomputable def phaseProf (_ r : ℝ) : ℂ := if r < 1 then 1 else 0

/-- Its array. -/
def phaseGrid : GridC := fun i j => if i < 2 ∧ j = 0 then 1 else 0

theorem phase_init (u : Bool) : (phaseSetup u).init phaseProf = some ⟨phaseGrid, 0, 0, phaseGrid⟩ := by
  have ha : (fun i j => if i < (phaseSetup u).solver.nz ∧ j < (phaseSetup u).solver.nr then
      phaseProf ((phaseSetup u).solver.zs i) ((phaseSetup u).solver.rs j) else 0) = phaseGrid := by
    funext i j
    have h1 : (phaseSetup u).solver = ⟨0, 1, 3, 2, 3⟩ := rfl
    rw [h1]
    unfold phaseGrid phaseProf Mesh.rs linspace Mesh.dr
    dsimp only
    by_cases hi : i < 2
    · match j with
      | 0 => norm_num [hi]
      | 1 => norm_num [hi]
      | 2 => norm_num [hi]
      | j + 3 =>
        have : ¬ (i < 2 ∧ j + 3 < 3) := by omega
        rw [if_neg this, if_neg (by omega)]
    · rw [if_neg (by tauto), if_neg (by tauto)]
  unfold Setup.init
  dsimp only
  rw [ha]
  rfl

theorem front_out {prof : ℝ → ℝ → ℂ} {a : GridC} (hi : (phaseSetup true).init prof = some ⟨a, 0, 0, a⟩) :
    ∃ e, (phaseSetup true).run prof [(fun _ _ => 0, 1)] = some e ∧
      e.out 1 = ((phaseSetup true).params 1).row false (fun _ _ => 0) (EnvParams.phases a) 1 a 0 0 0 := by
  unfold Setup.run Setup.run
  rw [hi, Option.bind_some]
  refine ⟨_, rfl, ?_⟩
  show (((phaseSetup true).params 1).evolve false (fun _ _ => 0) (a, 0)).1 1 = _
  unfold EnvParams.evolve
  rw [show ((phaseSetup true).params 1).nt = 1 from rfl, Function.iterate_one]
  unfold EnvParams.step
  rw [show ((phaseSetup true).params 1).nz = 2 from rfl]
  unfold sweep
  dsimp only
  rw [Function.update_self]
  rfl

theorem tdma_three {a b c d : ℕ → ℂ} {w0 g0 w1 g1 p2 : ℂ} (hb : b 0 ≠ 0) (h1 : b 1 - a 0 * w0 ≠ 0)
    (h2 : b 2 - a 0 * w0 ≠ 0) (hw0 : w0 * b 0 = c 0) (hg0 : g0 * b 0 = d 0) (hw1 : w1 * (b 1 - a 0 * w0) = c 1)
    (hg1 : g1 * (b 1 - a 0 * w0) = d 1 - a 0 * g0) (hp2 : p2 * (b 2 - a 0 * w0) = d 2 - a 0 * g1) :
    tdma 3 a b c d 0 = g0 - w0 * (g1 - w1 * p2) := by
  have e0 : tdmaW a b c 0 = w0 := (div_eq_iff hb).mpr hw0.symm
  have e1 : tdmaG a b c d 0 = g0 := (div_eq_iff hb).mpr hg0.symm
  have e2 : tdmaW a b c 1 = w1 := by
    rw [tdmaW, e0, mul_one_div]
    exact (div_eq_iff h1).mpr hw1.symm
  have e3 : tdmaG a b c d 1 = g1 := by
    rw [tdmaG, e0, e1, mul_one_div]
    exact (div_eq_iff h1).mpr hg1.symm
  have e4 : tdmaLast 3 a b c d = p2 := by
    unfold tdmaLast
    rw [show 3 - 2 = 1 from rfl, show 3 - 3 = 0 from rfl, show 3 - 1 = 2 from rfl, e0, e3]
    exact (div_eq_iff h2).mpr hp2.symm
  show tdmaG a b c d 0 - tdmaW a b c 0 * (tdmaG a b c d 1 - tdmaW a b c 1 * tdmaLast 3 a b c d) = _
  rw [e0, e1, e2, e3, e4]

/-- The front row for phase differences `d1` and 0. -/
theorem front_row {ph : ℕ → ℝ} {d1 : ℝ} (h1 : ph 2 - ph 1 = d1) (h2 : ph 3 - ph 2 = 0) :
    ∃ a b c d : ℕ → ℂ, ((phaseSetup true).params 1).row false (fun _ _ => 0) ph 1 phaseGrid 0 0 0 0 =
      tdma 3 a b c d 0 ∧ a 0 = ⟨1/3, 0⟩ ∧ (∀ k, b k = ⟨-4, 2 + 3 * d1⟩) ∧ c 0 = ⟨1, 0⟩ ∧ c 1 = ⟨2/3, 0⟩ ∧
      d 0 = ⟨-2, 2 + 3 * d1⟩ ∧ d 1 = ⟨-1/3, 0⟩ ∧ d 2 = 0 := by
  have hdr : ((phaseSetup true).params 1).invDr = 1 := by
    norm_num [EnvParams.invDr, EnvParams.dr, Setup.params, phaseSetup, Setup.solver, Setup.main, Setup.useSub]
  have hdz : ((phaseSetup true).params 1).invDz = 1 := by
    norm_num [EnvParams.invDz, EnvParams.dz, Setup.params, phaseSetup, Setup.solver, Setup.main, Setup.useSub]
  have hdt : ((phaseSetup true).params 1).invDt = 1 := by
    norm_num [EnvParams.invDt, EnvParams.dtn, Setup.params, phaseSetup, Setup.solver, Setup.main, Setup.useSub]
  have hk0 : ((phaseSetup true).params 1).k0 = 1 := rfl
  have hkp : ((phaseSetup true).params 1).kp = 1 := rfl
  have hnr : ((phaseSetup true).params 1).nr = 3 := rfl
  refine ⟨((phaseSetup true).params 1).dLower, ((phaseSetup true).params 1).dMainN (fun _ _ => 0) (d1, 0) 1,
    ((phaseSetup true).params 1).dUpper, ((phaseSetup true).params 1).rhsN (fun _ _ => 0) (d1, 0) phaseGrid 0 0 1,
    ?_, ?_, ?_, ?_, ?_, ?_, ?_, ?_⟩
  · have h : ((phaseSetup true).params 1).theta ph 1 = (d1, 0) := by
      unfold EnvParams.theta
      rw [if_pos (show ((phaseSetup true).params 1).usePhase = true from rfl), h1, h2]
    unfold EnvParams.row
    rw [h, hnr, if_neg Bool.false_ne_true]
  · unfold EnvParams.dLower EnvParams.lMinus
    rw [hdr]
    apply Complex.ext <;> simp <;> norm_num
  · intro k
    unfold EnvParams.dMainN EnvParams.cPlusN EnvParams.bigD EnvParams.invDzdt
    rw [hdr, hdz, hdt, hk0, hkp]
    apply Complex.ext <;> simp <;> norm_num
    ring
  · unfold EnvParams.dUpper EnvParams.lPlus
    rw [hdr]
    apply Complex.ext <;> simp <;> norm_num
  · unfold EnvParams.dUpper EnvParams.lPlus
    rw [hdr]
    apply Complex.ext <;> simp <;> norm_num
  · unfold EnvParams.rhsN EnvParams.cMinusN EnvParams.bigD EnvParams.invDzdt phaseGrid
    rw [hdr, hdz, hdt, hk0, hkp]
    apply Complex.ext <;> simp <;> norm_num
    ring
  · unfold EnvParams.rhsN EnvParams.lMinus phaseGrid
    rw [hdr]
    apply Complex.ext <;> simp <;> norm_num
  · unfold EnvParams.rhsN EnvParams.lMinus phaseGrid
    rw [hdr]
    apply Complex.ext <;> simp

/-- The envelope on axis at the front, up to a constant phase: without a phase difference to the
ghost row, and with one of -1. -/
theorem front_value {ph : ℕ → ℝ} (h2 : ph 3 - ph 2 = 0) :
    (ph 2 - ph 1 = 0 → ((phaseSetup true).params 1).row false (fun _ _ => 0) ph 1 phaseGrid 0 0 0 0 =
      ⟨27184050711 / 43949604889, -7907390500 / 43949604889⟩) ∧
    (ph 2 - ph 1 = -1 → ((phaseSetup true).params 1).row false (fun _ _ => 0) ph 1 phaseGrid 0 0 0 0 =
      ⟨34523907 / 61918288, 6486755 / 61918288⟩) := by
  constructor
  · intro h1
    obtain ⟨a, b, c, d, h, ha, hb, hc0, hc1, hd0, hd1, hd2⟩ := front_row h1 h2
    rw [h, tdma_three (w0 := ⟨-1/5, -1/10⟩) (g0 := ⟨3/5, -1/5⟩) (w1 := ⟨-472/3529, -244/3529⟩)
      (g1 := ⟨402/3529, 148/3529⟩) (p2 := ⟨76816/12453841, 83972/12453841⟩)]
    · apply Complex.ext <;> norm_num
    all_goals simp only [hb, ha, hc0, hc1, hd0, hd1, hd2]
    all_goals first
      | (intro h; have := congrArg Complex.re h; norm_num at this; done)
      | (apply Complex.ext <;> norm_num)
  · intro h1
    obtain ⟨a, b, c, d, h, ha, hb, hc0, hc1, hd0, hd1, hd2⟩ := front_row h1 h2
    rw [h, tdma_three (w0 := ⟨-4/17, 1/17⟩) (g0 := ⟨9/17, 2/17⟩) (w1 := ⟨-25/157, 13/314⟩)
      (g1 := ⟨39/314, -7/314⟩) (p2 := ⟨1859/197192, -857/197192⟩)]
    · apply Complex.ext <;> norm_num
    all_goals simp only [hb, ha, hc0, hc1, hd0, hd1, hd2]
    all_goals first
      | (intro h; have := congrArg Complex.re h; norm_num at this; done)
      | (apply Complex.ext <;> norm_num)

example : ∃ e e', (phaseSetup false).run phaseProf [(fun _ _ => 0, 1)] = some e ∧
    (phaseSetup false).run (fun z r => Complex.exp ((1 : ℝ) * Complex.I) * phaseProf z r) [(fun _ _ => 0, 1)] = some e' ∧
    ‖e'.out 1 0‖ = ‖e.out 1 0‖ := by
  obtain ⟨e, he, -⟩ := subgrid_in_bounds (phaseSetup_ok false) phaseProf [(fun _ _ => 0, 1)]
  obtain ⟨e', he', h⟩ := absolute_phase_partial _ rfl 1 _ _ he
  exact ⟨e, e', he, he', (h 1 0).2⟩

/-- The phases of a constant argument `φ` in two rows, followed by ghost rows. -/
theorem front_phases {a : GridC} {φ : ℝ} (hφ : |φ| ≤ Real.pi) (h1 : (a 1 0).arg = φ) (h2 : a 2 0 = 0) (h3 : a 3 0 = 0) :
    EnvParams.phases a 3 - EnvParams.phases a 2 = 0 ∧ EnvParams.phases a 2 - EnvParams.phases a 1 = -φ := by
  have hp := Real.pi_pos
  unfold EnvParams.phases
  constructor
  · rw [unwrap_diff, Option.getD_none, h2, h3, Complex.arg_zero,
      (phCorrect_spec (by linarith) _).2.2 (by simpa using hp.le)]
    simp
  · rw [unwrap_diff, Option.getD_none, h1, h2, Complex.arg_zero,
      (phCorrect_spec (by linarith) _).2.2 (by simpa using hφ)]
    simp

/-- **C124** fails if the phases are used: on a grid of 2 x 3 nodes, after one step in vacuum, the
modulus of the envelope at the front differs between a pulse and the same pulse with a
constant phase of 1 rad.  The phases of the ghost rows in front of the grid are those of 0. -/
theorem absolute_phase_violated : ∃ (s : Setup) (prof : ℝ → ℝ → ℂ) (φ : ℝ) (e e' : PulseArrays),
    s.Ok ∧ s.usePhase = true ∧ s.run prof [(fun _ _ => 0, 1)] = some e ∧
    s.run (fun z r => Complex.exp (φ * Complex.I) * prof z r) [(fun _ _ => 0, 1)] = some e' ∧
    ‖e'.out 1 0‖ < ‖e.out 1 0‖ := by
  obtain ⟨e, he, ho⟩ := front_out (phase_init true)
  have hi : (phaseSetup true).init (fun z r => Complex.exp ((1 : ℝ) * Complex.I) * phaseProf z r) =
      some ⟨scaleG (Complex.exp ((1 : ℝ) * Complex.I)) phaseGrid, 0, 0,
        scaleG (Complex.exp ((1 : ℝ) * Complex.I)) phaseGrid⟩ := by
    rw [init_scale, phase_init]
    unfold PulseArrays.scale scaleG
    simp
    rfl
  obtain ⟨e', he', ho'⟩ := front_out hi
  refine ⟨phaseSetup true, phaseProf, 1, e, e', phaseSetup_ok _, rfl, he, he', ?_⟩
  have hpi := Real.two_le_pi
  have hg : ∀ i, 2 ≤ i → phaseGrid i 0 = 0 := fun i hi => if_neg (by omega)
  have h1 := front_phases (a := phaseGrid) (φ := 0) (by simp [Real.pi_pos.le]) (by simp [phaseGrid]) (hg 2 (by omega))
    (hg 3 (by omega))
  have h2 := front_phases (a := scaleG (Complex.exp ((1 : ℝ) * Complex.I)) phaseGrid) (φ := 1)
    (by rw [abs_one]; linarith)
    (by
      show (Complex.exp ((1 : ℝ) * Complex.I) * phaseGrid 1 0).arg = 1
      rw [show phaseGrid 1 0 = 1 from if_pos (by decide), mul_one, Complex.exp_mul_I]
      exact_mod_cast Complex.arg_cos_add_sin_mul_I ⟨by linarith, by linarith⟩)
    (by unfold scaleG; rw [hg 2 (by omega), mul_zero]) (by unfold scaleG; rw [hg 3 (by omega), mul_zero])
  have hz : ∀ μ : ℂ, scaleG μ 0 = 0 ∧ scaleR μ 0 = 0 := fun μ => by
    constructor
    · funext i j; exact mul_zero _
    · funext i; exact mul_zero _
  rw [ho, ho', (front_value h1.1).1 (by rw [h1.2, neg_zero])]
  have h3 := row_scale ((phaseSetup true).params 1) false (fun _ _ => 0)
    (EnvParams.phases (scaleG (Complex.exp ((1 : ℝ) * Complex.I)) phaseGrid)) 1 (Complex.exp ((1 : ℝ) * Complex.I))
    phaseGrid 0 0 0
  rw [(hz _).1, (hz _).2] at h3
  rw [h3]
  unfold scaleR
  rw [norm_mul, Complex.norm_exp_ofReal_mul_I, one_mul, (front_value h2.1).2 h2.2]
  rw [← sq_lt_sq₀ (norm_nonneg _) (norm_nonneg _), Complex.sq_norm, Complex.sq_norm]
  norm_num [Complex.normSq_mk]

end WakeT.Laser
