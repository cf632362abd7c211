import Verif.Laser.Scale

/-! # Superposition of pulses (C162) -/

set_option linter.unusedSectionVars false

namespace WakeT.Laser

open Interp

/-! ### The solvers are additive for given phases -/

section tdma

variable {K : Type} [Field K]

theorem tdmaG_add (a b c d d' : ℕ → K) (i : ℕ) : tdmaG a b c (d + d') i = tdmaG a b c d i + tdmaG a b c d' i := by
  induction i with
  | zero => simp only [tdmaG, Pi.add_apply]; ring
  | succ i ih => simp only [tdmaG, ih, Pi.add_apply]; ring

theorem tdma_add (n : ℕ) (a b c d d' : ℕ → K) (i : ℕ) : tdma n a b c (d + d') i = tdma n a b c d i + tdma n a b c d' i := by
  unfold tdma
  generalize n - 1 - i = m
  induction m with
  | zero => simp only [tdmaBack, tdmaLast, tdmaG_add, Pi.add_apply]; ring
  | succ m ih => simp only [tdmaBack, ih, tdmaG_add]; ring

end tdma

theorem row_add (p : EnvParams) (centered : Bool) (chi : ℕ → ℕ → ℝ) (ph : ℕ → ℝ) (j : ℕ) (a a' o o' : GridC) (n1 n1' n2 n2' : RowC) :
    p.row centered chi ph j (a + a') (o + o') (n1 + n1') (n2 + n2') = p.row centered chi ph j a o n1 n2 + p.row centered chi ph j a' o' n1' n2' := by
  funext k
  rw [Pi.add_apply]
  unfold EnvParams.row
  split_ifs
  · rw [← tdma_add]
    congr 1
    funext k
    simp only [EnvParams.rhs, Pi.add_apply]
    split_ifs <;> ring
  · rw [← tdma_add]
    congr 1
    funext k
    simp only [EnvParams.rhsN, Pi.add_apply]
    split_ifs <;> ring

/-- The sum of the arrays of two sweeps. -/
def Sweep.plus (s s' : Sweep) : Sweep := ⟨s.a + s'.a, s.aOld + s'.aOld, s.new1 + s'.new1, s.new2 + s'.new2⟩

theorem update_plus (a a' : GridC) (i : ℕ) (r r' : RowC) :
    Function.update (a + a') i (r + r') = Function.update a i r + Function.update a' i r' := by
  funext k
  by_cases h : k = i
  · subst h; simp
  · simp [h]

theorem sweepFrom_plus {row : ℕ → GridC → GridC → RowC → RowC → RowC}
    (h : ∀ j a a' o o' n1 n1' n2 n2', row j (a + a') (o + o') (n1 + n1') (n2 + n2') = row j a o n1 n2 + row j a' o' n1' n2')
    (m : ℕ) (s s' : Sweep) : sweepFrom row m (s.plus s') = (sweepFrom row m s).plus (sweepFrom row m s') := by
  induction m generalizing s s' with
  | zero => rfl
  | succ m ih =>
    have hs : sweepStep row m (s.plus s') = (sweepStep row m s).plus (sweepStep row m s') := by
      unfold sweepStep Sweep.plus
      dsimp only
      rw [h, update_plus, Pi.add_apply, update_plus]
    simp only [sweepFrom]
    rw [hs, ih]

theorem sweep_plus {row : ℕ → GridC → GridC → RowC → RowC → RowC}
    (h : ∀ j a a' o o' n1 n1' n2 n2', row j (a + a') (o + o') (n1 + n1') (n2 + n2') = row j a o n1 n2 + row j a' o' n1' n2')
    (nz : ℕ) (s s' : GridC × GridC) : sweep row nz (s.1 + s'.1) (s.2 + s'.2) = sweep row nz s.1 s.2 + sweep row nz s'.1 s'.2 := by
  have hz : (⟨s.1 + s'.1, s.2 + s'.2, 0, 0⟩ : Sweep) = Sweep.plus ⟨s.1, s.2, 0, 0⟩ ⟨s'.1, s'.2, 0, 0⟩ := by
    unfold Sweep.plus
    simp
  unfold sweep
  dsimp only
  rw [hz, sweepFrom_plus h]
  unfold Sweep.plus
  dsimp only
  rw [Prod.mk_add_mk]
  simp only [Pi.add_apply, update_plus]

theorem step_plus (p : EnvParams) (hp : p.usePhase = false) (centered : Bool) (chi : ℕ → ℕ → ℝ) (s s' : GridC × GridC) :
    p.step centered chi (s + s') = p.step centered chi s + p.step centered chi s' := by
  have hrow : ∀ ph, p.row centered chi ph = p.row centered chi 0 := by
    intro ph
    funext j a o n1 n2
    unfold EnvParams.row EnvParams.theta
    simp only [hp, Bool.false_eq_true, if_false]
  unfold EnvParams.step
  simp only [hrow]
  exact sweep_plus (fun j a a' o o' n1 n1' n2 n2' => row_add p centered chi 0 j a a' o o' n1 n1' n2 n2') _ s s'

theorem evolve_plus (p : EnvParams) (hp : p.usePhase = false) (centered : Bool) (chi : ℕ → ℕ → ℝ) (s s' : GridC × GridC) :
    p.evolve centered chi (s + s') = p.evolve centered chi s + p.evolve centered chi s' := by
  unfold EnvParams.evolve
  generalize p.nt = n
  induction n generalizing s s' with
  | zero => rfl
  | succ n ih => rw [Function.iterate_succ_apply, step_plus p hp, ih, ← Function.iterate_succ_apply, ← Function.iterate_succ_apply]

/-! ### The pulse -/

/-- Two fields are interpolated together. -/
theorem regridAll_pair (src dst : Mesh) (f g : ℕ → ℕ → ℂ) (φ : ℂ × ℂ →ₗ[ℝ] ℂ) :
    regridAll src dst (fun i j => φ (f i j, g i j)) = (regridAll src dst fun i j => (f i j, g i j)).map fun h i j => φ (h i j) := by
  have h : ∀ i j, regrid src dst (fun i j => φ (f i j, g i j)) i j = (regrid src dst (fun i j => (f i j, g i j)) i j).map φ := fun i j =>
    interpPoint_map φ (src.array fun i j => (f i j, g i j)) _ _ _ _ _ _
  unfold regridAll
  simp only [h, Option.isSome_map]
  split_ifs
  · rw [Option.map_some]
    congr 1
    funext i j
    show (Option.map φ (regrid src dst (fun i j => (f i j, g i j)) i j)).getD 0 = φ ((regrid src dst (fun i j => (f i j, g i j)) i j).getD 0)
    generalize regrid src dst (fun i j => (f i j, g i j)) i j = o
    cases o <;> simp
  · rfl

theorem output_plus (s : Setup) (a a' : GridC) {o o' : ℕ → ℕ → ℂ} (h : s.output a = some o) (h' : s.output a' = some o') :
    s.output (a + a') = some (o + o') := by
  unfold Setup.output at *
  by_cases hs : s.useSub
  · rw [if_pos hs] at *
    have h1 := regridAll_pair s.solver s.main a a' (LinearMap.fst ℝ ℂ ℂ)
    have h2 := regridAll_pair s.solver s.main a a' (LinearMap.snd ℝ ℂ ℂ)
    have h3 := regridAll_pair s.solver s.main a a' (LinearMap.fst ℝ ℂ ℂ + LinearMap.snd ℝ ℂ ℂ)
    change regridAll s.solver s.main a = _ at h1
    change regridAll s.solver s.main a' = _ at h2
    change regridAll s.solver s.main (a + a') = _ at h3
    rw [h] at h1
    rw [h'] at h2
    rw [h3]
    cases hr : regridAll s.solver s.main fun i j => (a i j, a' i j) with
    | none => rw [hr] at h1; cases h1
    | some r =>
      rw [hr] at h1 h2
      cases h1
      cases h2
      rfl
  · rw [if_neg hs] at *
    cases h
    cases h'
    rfl

/-- The sum of the arrays of two pulses that made the same steps. -/
def PulseArrays.plus (e e' : PulseArrays) : PulseArrays := ⟨e.a + e'.a, e.old + e'.old, e.nSteps, e.out + e'.out⟩

theorem init_plus (s : Setup) (prof prof' : ℝ → ℝ → ℂ) {e e' : PulseArrays} (h : s.init prof = some e) (h' : s.init prof' = some e') :
    s.init (prof + prof') = some (e.plus e') ∧ e.nSteps = 0 ∧ e'.nSteps = 0 := by
  unfold Setup.init at *
  dsimp only at *
  simp only [Option.bind_eq_bind, Option.bind_eq_some_iff] at h h'
  obtain ⟨o, ho, he⟩ := h
  obtain ⟨o', ho', he'⟩ := h'
  have hp : (fun i j => if i < s.solver.nz ∧ j < s.solver.nr then (prof + prof') (s.solver.zs i) (s.solver.rs j) else 0 : GridC) =
      (fun i j => if i < s.solver.nz ∧ j < s.solver.nr then prof (s.solver.zs i) (s.solver.rs j) else 0 : GridC) +
      (fun i j => if i < s.solver.nz ∧ j < s.solver.nr then prof' (s.solver.zs i) (s.solver.rs j) else 0 : GridC) := by
    funext i j
    simp only [Pi.add_apply]
    split_ifs <;> simp
  rw [hp, output_plus s _ _ ho ho']
  cases he
  cases he'
  refine ⟨?_, rfl, rfl⟩
  simp [PulseArrays.plus]

theorem evolve_pulse_plus (s : Setup) (hs : s.usePhase = false) (x : (ℕ → ℕ → ℝ) × ℝ) {d d' e e' : PulseArrays} (hn : d.nSteps = d'.nSteps)
    (h : s.evolve x d = some e) (h' : s.evolve x d' = some e') : s.evolve x (d.plus d') = some (e.plus e') ∧ e.nSteps = e'.nSteps := by
  unfold Setup.evolve at *
  simp only [Option.bind_eq_bind, Option.bind_eq_some_iff] at h h'
  obtain ⟨chi, hc, o, ho, he⟩ := h
  obtain ⟨chi', hc', o', ho', he'⟩ := h'
  rw [hc] at hc'
  cases hc'
  have hp := evolve_plus (s.params x.2) hs (decide (d.nSteps ≠ 0)) chi (d.a, d.old) (d'.a, d'.old)
  rw [← hn] at ho' he'
  have hp' : (s.params x.2).evolve (decide ((d.plus d').nSteps ≠ 0)) chi ((d.plus d').a, (d.plus d').old) =
      (s.params x.2).evolve (decide (d.nSteps ≠ 0)) chi (d.a, d.old) + (s.params x.2).evolve (decide (d.nSteps ≠ 0)) chi (d'.a, d'.old) := hp
  rw [hc]
  simp only [Option.bind_eq_bind, Option.bind_some, hp']
  rw [Prod.fst_add, output_plus s _ _ ho ho']
  cases he
  cases he'
  exact ⟨rfl, rfl⟩

/-- **C162**, partial: if the phases are not used by the solver, then in a given plasma the envelope of the sum of two pulses is
the sum of the envelopes, after any number of steps.  Missing: `use_phase = True`, the default (`superposition_violated`). -/
theorem superposition_partial (s : Setup) (hs : s.usePhase = false) (prof prof' : ℝ → ℝ → ℂ) (l : List ((ℕ → ℕ → ℝ) × ℝ)) {e e' : PulseArrays}
    (h : s.run prof l = some e) (h' : s.run prof' l = some e') :
    ∃ e'', s.run (prof + prof') l = some e'' ∧ ∀ i j, e''.out i j = e.out i j + e'.out i j := by
  suffices s.run (prof + prof') l = some (e.plus e') ∧ e.nSteps = e'.nSteps from ⟨_, this.1, fun _ _ => rfl⟩
  induction l generalizing e e' with
  | nil =>
    obtain ⟨h1, h2, h3⟩ := init_plus s prof prof' h h'
    exact ⟨h1, h2.trans h3.symm⟩
  | cons x l ih =>
    rw [Setup.run, Option.bind_eq_some_iff] at h h'
    obtain ⟨d, hd, he⟩ := h
    obtain ⟨d', hd', he'⟩ := h'
    obtain ⟨h1, h2⟩ := ih hd hd'
    rw [Setup.run, h1, Option.bind_some]
    exact evolve_pulse_plus s hs x h2 he he'

/-! ### With phases -/

/-- A ring. -/
noncomputable def ringProf (_ r : ℝ) : ℂ := if 1 < r ∧ r < 2 then 1 else 0

/-- Its array. -/
def ringGrid : GridC := fun i j => if i < 2 ∧ j = 1 then 1 else 0

theorem ring_init (u : Bool) : (phaseSetup u).init ringProf = some ⟨ringGrid, 0, 0, ringGrid⟩ := by
  have ha : (fun i j => if i < (phaseSetup u).solver.nz ∧ j < (phaseSetup u).solver.nr then
      ringProf ((phaseSetup u).solver.zs i) ((phaseSetup u).solver.rs j) else 0) = ringGrid := by
    funext i j
    have h1 : (phaseSetup u).solver = ⟨0, 1, 3, 2, 3⟩ := rfl
    rw [h1]
    unfold ringGrid ringProf Mesh.rs linspace Mesh.dr
    dsimp only
    by_cases hi : i < 2
    · match j with
      | 0 => norm_num [hi]
      | 1 => norm_num [hi]
      | 2 => norm_num [hi]
      | j + 3 =>
        have : ¬ (i < 2 ∧ j + 3 < 3) := by omega
        rw [if_neg this, if_neg (by omega)]
    · rw [if_neg (by tauto), if_neg (by tauto)]
  unfold Setup.init
  dsimp only
  rw [ha]
  rfl

/-- The front row of the ring for phase differences `d1` and 0. -/
theorem ring_row {ph : ℕ → ℝ} {d1 : ℝ} (h1 : ph 2 - ph 1 = d1) (h2 : ph 3 - ph 2 = 0) :
    ∃ a b c d : ℕ → ℂ, ((phaseSetup true).params 1).row false (fun _ _ => 0) ph 1 ringGrid 0 0 0 0 =
      tdma 3 a b c d 0 ∧ a 0 = ⟨1/3, 0⟩ ∧ (∀ k, b k = ⟨-4, 2 + 3 * d1⟩) ∧ c 0 = ⟨1, 0⟩ ∧ c 1 = ⟨2/3, 0⟩ ∧
      d 0 = ⟨-1, 0⟩ ∧ d 1 = ⟨-2, 2 + 3 * d1⟩ ∧ d 2 = ⟨-2/5, 0⟩ := by
  have hdr : ((phaseSetup true).params 1).invDr = 1 := by
    norm_num [EnvParams.invDr, EnvParams.dr, Setup.params, phaseSetup, Setup.solver, Setup.main, Setup.useSub]
  have hdz : ((phaseSetup true).params 1).invDz = 1 := by
    norm_num [EnvParams.invDz, EnvParams.dz, Setup.params, phaseSetup, Setup.solver, Setup.main, Setup.useSub]
  have hdt : ((phaseSetup true).params 1).invDt = 1 := by
    norm_num [EnvParams.invDt, EnvParams.dtn, Setup.params, phaseSetup, Setup.solver, Setup.main, Setup.useSub]
  have hk0 : ((phaseSetup true).params 1).k0 = 1 := rfl
  have hkp : ((phaseSetup true).params 1).kp = 1 := rfl
  have hnr : ((phaseSetup true).params 1).nr = 3 := rfl
  refine ⟨((phaseSetup true).params 1).dLower, ((phaseSetup true).params 1).dMainN (fun _ _ => 0) (d1, 0) 1,
    ((phaseSetup true).params 1).dUpper, ((phaseSetup true).params 1).rhsN (fun _ _ => 0) (d1, 0) ringGrid 0 0 1,
    ?_, ?_, ?_, ?_, ?_, ?_, ?_, ?_⟩
  · have h : ((phaseSetup true).params 1).theta ph 1 = (d1, 0) := by
      unfold EnvParams.theta
      rw [if_pos (show ((phaseSetup true).params 1).usePhase = true from rfl), h1, h2]
    unfold EnvParams.row
    rw [h, hnr, if_neg Bool.false_ne_true]
  · unfold EnvParams.dLower EnvParams.lMinus
    rw [hdr]
    apply Complex.ext <;> simp <;> norm_num
  · intro k
    unfold EnvParams.dMainN EnvParams.cPlusN EnvParams.bigD EnvParams.invDzdt
    rw [hdr, hdz, hdt, hk0, hkp]
    apply Complex.ext <;> simp <;> norm_num
    ring
  · unfold EnvParams.dUpper EnvParams.lPlus
    rw [hdr]
    apply Complex.ext <;> simp <;> norm_num
  · unfold EnvParams.dUpper EnvParams.lPlus
    rw [hdr]
    apply Complex.ext <;> simp <;> norm_num
  · unfold EnvParams.rhsN EnvParams.lPlus ringGrid
    rw [hdr, hnr]
    apply Complex.ext <;> simp <;> norm_num
  · unfold EnvParams.rhsN EnvParams.cMinusN EnvParams.bigD EnvParams.invDzdt ringGrid
    rw [hdr, hdz, hdt, hk0, hkp]
    apply Complex.ext <;> simp <;> norm_num
    ring
  · unfold EnvParams.rhsN EnvParams.lMinus ringGrid
    rw [hdr]
    apply Complex.ext <;> simp <;> norm_num

theorem ring_value {ph : ℕ → ℝ} (h2 : ph 3 - ph 2 = 0) :
    (ph 2 - ph 1 = 0 → ((phaseSetup true).params 1).row false (fun _ _ => 0) ph 1 ringGrid 0 0 0 0 =
      ⟨75350148422 / 219748024445, 28633286024 / 219748024445⟩) ∧
    (ph 2 - ph 1 = -1 → ((phaseSetup true).params 1).row false (fun _ _ => 0) ph 1 ringGrid 0 0 0 0 =
      ⟨116732663 / 309591440, -21849517 / 309591440⟩) := by
  constructor
  · intro h1
    obtain ⟨a, b, c, d, h, ha, hb, hc0, hc1, hd0, hd1, hd2⟩ := ring_row h1 h2
    rw [h, tdma_three (w0 := ⟨-1/5, -1/10⟩) (g0 := ⟨1/5, 1/10⟩) (w1 := ⟨-472/3529, -244/3529⟩)
      (g1 := ⟨2183/3529, -636/3529⟩) (p2 := ⟨7960964/62269205, 3164378/62269205⟩)]
    · apply Complex.ext <;> norm_num
    all_goals simp only [hb, ha, hc0, hc1, hd0, hd1, hd2]
    all_goals first
      | (intro h; have := congrArg Complex.re h; norm_num at this; done)
      | (apply Complex.ext <;> norm_num)
  · intro h1
    obtain ⟨a, b, c, d, h, ha, hb, hc0, hc1, hd0, hd1, hd2⟩ := ring_row h1 h2
    rw [h, tdma_three (w0 := ⟨-4/17, 1/17⟩) (g0 := ⟨4/17, -1/17⟩) (w1 := ⟨-25/157, 13/314⟩)
      (g1 := ⟨175/314, 33/314⟩) (p2 := ⟨28019/197192, -27617/985960⟩)]
    · apply Complex.ext <;> norm_num
    all_goals simp only [hb, ha, hc0, hc1, hd0, hd1, hd2]
    all_goals first
      | (intro h; have := congrArg Complex.re h; norm_num at this; done)
      | (apply Complex.ext <;> norm_num)

/-- Only the differences of the phases enter. -/
theorem row_phases (p : EnvParams) (centered : Bool) (chi : ℕ → ℕ → ℝ) {ph ph' : ℕ → ℝ} (j : ℕ) (h1 : ph (j + 1) - ph j = ph' (j + 1) - ph' j)
    (h2 : ph (j + 2) - ph (j + 1) = ph' (j + 2) - ph' (j + 1)) (a o : GridC) (n1 n2 : RowC) :
    p.row centered chi ph j a o n1 n2 = p.row centered chi ph' j a o n1 n2 := by
  have : p.theta ph j = p.theta ph' j := by
    unfold EnvParams.theta
    rw [h1, h2]
  unfold EnvParams.row
  rw [this]

/-- **C162** fails if the phases are used: on a grid of 2 x 3 nodes, after one step in vacuum, the envelope of the sum of a pulse on axis
with a phase of 1 rad and a ring is not the sum of the envelopes.  The phases on axis are used at all radii. -/
theorem superposition_violated : ∃ (s : Setup) (prof prof' : ℝ → ℝ → ℂ) (e e' e'' : PulseArrays), s.Ok ∧ s.usePhase = true ∧
    s.run prof [(fun _ _ => 0, 1)] = some e ∧ s.run prof' [(fun _ _ => 0, 1)] = some e' ∧
    s.run (prof + prof') [(fun _ _ => 0, 1)] = some e'' ∧ e''.out 1 0 ≠ e.out 1 0 + e'.out 1 0 := by
  set μ := Complex.exp ((1 : ℝ) * Complex.I) with hμ
  have hi : (phaseSetup true).init (fun z r => μ * phaseProf z r) = some ⟨scaleG μ phaseGrid, 0, 0, scaleG μ phaseGrid⟩ := by
    rw [init_scale, phase_init]
    unfold PulseArrays.scale scaleG
    simp
    rfl
  have hs : (phaseSetup true).init ((fun z r => μ * phaseProf z r) + ringProf) =
      some ⟨scaleG μ phaseGrid + ringGrid, 0, 0, scaleG μ phaseGrid + ringGrid⟩ := by
    rw [(init_plus _ _ _ hi (ring_init true)).1]
    simp [PulseArrays.plus]
  obtain ⟨e, he, ho⟩ := front_out hi
  obtain ⟨e', he', ho'⟩ := front_out (ring_init true)
  obtain ⟨e'', he'', ho''⟩ := front_out hs
  refine ⟨phaseSetup true, _, ringProf, e, e', e'', phaseSetup_ok _, rfl, he, he', he'', ?_⟩
  have hpi := Real.two_le_pi
  have hg : ∀ i, 2 ≤ i → phaseGrid i 0 = 0 := fun i hi => if_neg (by omega)
  have hr : ∀ i, ringGrid i 0 = 0 := fun i => if_neg (by omega)
  have harg : (μ * phaseGrid 1 0).arg = 1 := by
    rw [show phaseGrid 1 0 = 1 from if_pos (by decide), mul_one, hμ, Complex.exp_mul_I]
    exact_mod_cast Complex.arg_cos_add_sin_mul_I ⟨by linarith, by linarith⟩
  have p1 := front_phases (a := scaleG μ phaseGrid) (φ := 1) (by rw [abs_one]; linarith) harg
    (by unfold scaleG; rw [hg 2 (by omega), mul_zero]) (by unfold scaleG; rw [hg 3 (by omega), mul_zero])
  have p2 := front_phases (a := scaleG μ phaseGrid + ringGrid) (φ := 1) (by rw [abs_one]; linarith)
    (by show (μ * phaseGrid 1 0 + ringGrid 1 0).arg = 1; rw [hr, add_zero]; exact harg)
    (by show μ * phaseGrid 2 0 + ringGrid 2 0 = 0; rw [hr, hg 2 (by omega), mul_zero, add_zero])
    (by show μ * phaseGrid 3 0 + ringGrid 3 0 = 0; rw [hr, hg 3 (by omega), mul_zero, add_zero])
  have p3 := front_phases (a := ringGrid) (φ := 0) (by simp [Real.pi_pos.le]) (by rw [hr]; exact Complex.arg_zero) (hr 2) (hr 3)
  have hsum := row_add ((phaseSetup true).params 1) false (fun _ _ => 0) (EnvParams.phases (scaleG μ phaseGrid + ringGrid)) 1
    (scaleG μ phaseGrid) ringGrid 0 0 0 0 0 0
  simp only [add_zero] at hsum
  rw [ho, ho', ho'', hsum, Pi.add_apply, row_phases _ _ _ 1 (p2.2.trans p1.2.symm) (p2.1.trans p1.1.symm) (scaleG μ phaseGrid)]
  intro h
  have h4 := add_left_cancel h
  rw [(ring_value p2.1).2 p2.2, (ring_value p3.1).1 (by rw [p3.2, neg_zero])] at h4
  have := congrArg Complex.re h4
  norm_num at this

/-- A pulse on axis and a ring, without the phases. -/
example : ∃ e e' e'', (phaseSetup false).run phaseProf [(fun _ _ => 0, 1)] = some e ∧
    (phaseSetup false).run ringProf [(fun _ _ => 0, 1)] = some e' ∧
    (phaseSetup false).run (phaseProf + ringProf) [(fun _ _ => 0, 1)] = some e'' ∧ e''.out 1 0 = e.out 1 0 + e'.out 1 0 := by
  obtain ⟨e, he, -⟩ := subgrid_in_bounds (phaseSetup_ok false) phaseProf [(fun _ _ => 0, 1)]
  obtain ⟨e', he', -⟩ := subgrid_in_bounds (phaseSetup_ok false) ringProf [(fun _ _ => 0, 1)]
  obtain ⟨e'', he'', h⟩ := superposition_partial _ rfl _ _ _ he he'
  exact ⟨e, e', e'', he, he', he'', h 1 0⟩

end WakeT.Laser
