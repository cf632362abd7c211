import Verif.Stage.WakeTurned
import Verif.Tracker.Related
import Verif.Laser.Scale

/-! # Linear and circular polarization (C123) -/

set_option linter.unusedSectionVars false

namespace WakeT.Stage

open Bunch FieldElement Laser
open Plasma (QS)
open Plasma.QS (Fld)
open Push (PField Sched)
open Fields (NumField)

/-- Specification: the circularly polarized pulse of the same intensity. -/
noncomputable def Pulse.circular (p : Pulse) : Pulse :=
  { p with polarization := "circular", prof := fun z r => ((1 / √2 : ℝ) : ℂ) * p.prof z r }

/-- Specification: the stage with another pulse. -/
def PStage.withLaser {F : Type} (p : PStage F) (l : Pulse) : PStage F := { p with wake := { p.wake with laser := some l } }

/-- The solvers see the intensity of the pulse only. -/
theorem solve_circular {w : Wake} (hw : w.IsModel) (a : ℕ → ℕ → ℂ) (t np : ℝ) (l : List Bunch) (f : Fld) :
    w.solve t np (some ("circular", fun i j => ((1 / √2 : ℝ) : ℂ) * a i j)) l f = w.solve t np (some ("linear", a)) l f := by
  have hn : ∀ i j, ‖((1 / √2 : ℝ) : ℂ) * a i j‖ = ‖a i j‖ / √2 := fun i j => by
    rw [norm_mul, Complex.norm_real, Real.norm_of_nonneg (by positivity)]
    ring
  rcases hw with ⟨b, q, hw⟩ | ⟨b, c, shape, hw⟩
  · rw [hw]
    unfold Wake.quasiCalc
    have h : aEnv2 (some ("circular", fun i j => ((1 / √2 : ℝ) : ℂ) * a i j)) = aEnv2 (some ("linear", a)) := by
      funext i j
      unfold aEnv2
      dsimp only
      rw [if_neg (by decide), if_pos rfl, hn, div_pow, Real.sq_sqrt (by norm_num)]
    rw [h]
  · rw [hw]
    unfold Wake.coldCalc
    have h : aEnvAbs (some ("circular", fun i j => ((1 / √2 : ℝ) : ℂ) * a i j)) = aEnvAbs (some ("linear", a)) := by
      unfold aEnvAbs
      rw [Option.map_some, Option.map_some]
      congr 1
      funext i j
      dsimp only
      rw [if_neg (by decide), if_pos rfl, hn]
    rw [h]

/-- The properties of the wakefield with another amplitude of the laser. -/
def Props.scale (μ : ℂ) (s : Props) : Props := { s with laser := s.laser.map (PulseArrays.scale μ) }

/-- Specification: the wakefields are in the same state, up to the amplitude of the laser. -/
def SameWake (μ : ℂ) (φ φ' : NumField ℝ (Option Props)) : Prop :=
  φ' = { φ with prop := φ.prop.map (Props.scale μ) }

variable {F : Type} [LinearOrder F]

theorem alike_circular {p : PStage F} (hm : p.wake.IsModel) {l : Pulse} (hl : p.wake.laser = some l)
    (hp : l.polarization = "linear") : p.elem.Alike (p.withLaser l.circular).elem (SameWake ((1 / √2 : ℝ) : ℂ)) where
  length := rfl
  dtBunch := rfl
  pusher := rfl
  nOut := rfl
  numFields := by
    show [(p.wake.dt0, true)] = [(p.wake.dt0, p.wake.laser.isSome)]
    rw [hl]
    rfl
  autoDt := rfl
  pushBefore := rfl
  c := rfl
  sch := rfl
  f32 := rfl
  felt := by
    rintro φ _ rfl
    show Wake.field { p.wake with laser := some l.circular } (φ.prop.map (Props.scale ((1 / √2 : ℝ) : ℂ))) ++ p.ext =
      p.wake.field φ.prop ++ p.ext
    cases φ.prop <;> rfl
  update := by
    rintro bs φ _ rfl j
    show SameWake _ (if j = 0 then φ.update (p.wake.ops φ.dt) bs else φ) (if j = 0 then _ else _)
    split_ifs with hj
    · have hf : Factor p.wake.usePhase ((1 / √2 : ℝ) : ℂ) := Or.inr ⟨1 / √2, by positivity, rfl⟩
      set μ : ℂ := ((1 / √2 : ℝ) : ℂ) with hμ
      have hi : ∀ dt, Wake.initProps { p.wake with laser := some l.circular } dt =
          (p.wake.initProps dt).map (Props.scale μ) := by
        intro dt
        unfold Wake.initProps
        rw [hl]
        dsimp only
        rw [show (Wake.setup { p.wake with laser := some l.circular } l.circular dt).init l.circular.prof =
          ((p.wake.setup l dt).init l.prof).map (PulseArrays.scale μ) from init_scale _ _ _]
        cases (p.wake.setup l dt).init l.prof <;> rfl
      have he : ∀ dt s, Wake.evolveProps { p.wake with laser := some l.circular } dt (Props.scale μ s) =
          (p.wake.evolveProps dt s).map (Props.scale μ) := by
        intro dt s
        obtain ⟨le, np, fld⟩ := s
        unfold Wake.evolveProps
        rw [hl]
        cases le with
        | none => rfl
        | some e =>
          dsimp only [Props.scale, Option.map_some]
          split_ifs
          · rw [show (Wake.setup { p.wake with laser := some l.circular } l.circular dt) = p.wake.setup l dt from rfl]
            show Option.map _ ((p.wake.setup l dt).evolve (fun i j => fld.chi (i + 2) (j + 2), p.wake.kp np) (e.scale μ)) = _
            rw [evolve_pulse_scale (p.wake.setup l dt) hf]
            cases (p.wake.setup l dt).evolve (fun i j => fld.chi (i + 2) (j + 2), p.wake.kp np) e <;> rfl
          · rfl
      have hc : ∀ t s, Wake.calculateProps { p.wake with laser := some l.circular } t bs (Props.scale μ s) =
          (p.wake.calculateProps t bs s).map (Props.scale μ) := by
        intro t s
        obtain ⟨le, np, fld⟩ := s
        unfold Wake.calculateProps
        dsimp only
        have hs : p.wake.solve t (p.wake.density (t * p.wake.k.c))
            (Wake.envelope { p.wake with laser := some l.circular } (le.map (PulseArrays.scale μ))) bs Wake.zeros =
            p.wake.solve t (p.wake.density (t * p.wake.k.c)) (p.wake.envelope le) bs Wake.zeros := by
          unfold Wake.envelope
          rw [hl]
          cases le with
          | none => rfl
          | some e =>
            show p.wake.solve _ _ (some ("circular", fun i j => μ * e.out i j)) _ _ =
              p.wake.solve _ _ (some (l.polarization, e.out)) _ _
            rw [hp]
            exact solve_circular hm _ _ _ _ _
        show Option.map _ (p.wake.solve t (p.wake.density (t * p.wake.k.c))
            (Wake.envelope { p.wake with laser := some l.circular } (le.map (PulseArrays.scale μ))) bs Wake.zeros) = _
        rw [hs]
        cases p.wake.solve t (p.wake.density (t * p.wake.k.c)) (p.wake.envelope le) bs Wake.zeros <;> rfl
      show NumField.update (Wake.ops { p.wake with laser := some l.circular } φ.dt)
          { φ with prop := φ.prop.map (Props.scale μ) } bs = _
      obtain ⟨dt, ini, t, prop⟩ := φ
      unfold NumField.update Wake.ops
      dsimp only
      cases ini with
      | false =>
        simp only [Bool.false_eq_true, not_false_eq_true, if_true]
        rw [hi]
        cases p.wake.initProps dt with
        | none => rfl
        | some s =>
          simp only [Option.map_some, Option.bind_some]
          rw [hc]
      | true =>
        simp only [not_true_eq_false, if_false]
        cases prop with
        | none => rfl
        | some s =>
          simp only [Option.map_some, Option.bind_some]
          rw [he]
          cases p.wake.evolveProps dt s with
          | none => rfl
          | some s =>
            simp only [Option.map_some, Option.bind_some]
            rw [hc]
    · rfl

/-- **C123**. In a plasma stage with a wakefield from the quasistatic or the cold fluid model, a
linearly polarized pulse is replaced by the circularly polarized one of the same intensity: the
bunches at all outputs are the same, at the end the fields of the wakefield are the same, and the
envelope is that of the linear pulse divided by √2. -/
theorem stage_circular {p : PStage F} (hm : p.wake.IsModel) {l : Pulse} (hl : p.wake.laser = some l)
    (hp : l.polarization = "linear") (opmd : Bool) (fuel : ℕ) (bs : OneOrMany Bunch) (b0 : Bunch)
    {r : OneOrMany (List Bunch)} {w : World (NumField ℝ (Option Props))}
    (hr : p.track opmd fuel bs b0 = .returned (r, w)) :
    ∃ w', (p.withLaser l.circular).track opmd fuel bs b0 = .returned (r, w') ∧ w'.bunch = w.bunch ∧
      w'.flds.t = w.flds.t ∧ w'.flds.prop.map (fun s => (s.np, s.fld)) = w.flds.prop.map (fun s => (s.np, s.fld)) ∧
      ∀ s e, w.flds.prop = some s → s.laser = some e → ∃ s' e', w'.flds.prop = some s' ∧ s'.laser = some e' ∧
        ∀ i j, e'.out i j = ((1 / √2 : ℝ) : ℂ) * e.out i j := by
  unfold PStage.track at hr ⊢
  have hd' : (p.withLaser l.circular).wake.dtUpdate (p.withLaser l.circular).length = p.wake.dtUpdate p.length := by
    unfold Wake.dtUpdate
    rw [hl]
    rfl
  rw [hd']
  cases hd : p.wake.dtUpdate p.length with
  | none => rw [hd] at hr; cases hr
  | some dt =>
    rw [hd] at hr
    obtain ⟨w', h1, -, h3, h4⟩ := track_alike (alike_circular hm hl hp) (φ := Wake.start dt) (φ' := Wake.start dt) rfl
      opmd fuel bs b0 hr
    refine ⟨w', h1, h3, ?_⟩
    rw [show w'.flds = _ from h4]
    refine ⟨rfl, ?_, ?_⟩
    · dsimp only
      cases w.flds.prop <;> rfl
    · intro s e hs he
      refine ⟨Props.scale ((1 / √2 : ℝ) : ℂ) s, e.scale ((1 / √2 : ℝ) : ℂ), ?_, ?_, fun i j => rfl⟩
      · dsimp only
        rw [hs]
        rfl
      · unfold Props.scale
        rw [he]
        rfl

/-- The stage of the instance, with a laser that evolves. -/
example (sch : ℕ → Sched) (b : Bunch) : ∃ fuel l r w w', (demoStage true sch).wake.laser = some l ∧
    (demoStage true sch).track false fuel (.one b) b = .returned (r, w) ∧
    ((demoStage true sch).withLaser l.circular).track false fuel (.one b) b = .returned (r, w') ∧
    w'.bunch = w.bunch := by
  obtain ⟨fuel, ⟨r, w⟩, hr⟩ := demo_returns true sch (.one b) b
  obtain ⟨w', h1, h2, -⟩ := stage_circular (p := demoStage true sch) (Or.inl ⟨_, _, rfl⟩) rfl rfl false fuel _ _ hr
  exact ⟨fuel, _, r, w, w', rfl, hr, h1, h2⟩

end WakeT.Stage
