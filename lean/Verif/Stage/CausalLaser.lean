import Verif.Stage.Causal
import Verif.Laser.Ahead
import Verif.Plasma.Ahead

/-! # Bunches behind do not affect the laser and the bunches ahead (C146) -/

set_option linter.unusedSectionVars false

namespace WakeT.Stage

open Bunch FieldElement Laser
open Plasma (QS padded)
open Plasma.QS (Fld)
open Push (PField Sched Ph SameAhead)
open Fields (NumField FieldOps)

variable {F : Type} [LinearOrder F]

/-! ### Specification -/

/-- Bunches at `Y` and behind, and the laser behind slice `i`, make no difference to the
susceptibility of the plasma in slice `i` and ahead of it. -/
def Wake.CausalChi (w : Wake) (i : ℕ) (Y : ℝ) : Prop :=
  ∀ t env env' ds ds' ws f f', w.SameEnv i env env' → List.Forall₂ Same ds ds' → (∀ b ∈ ws, Behind Y b) →
    w.solve t (w.density (t * w.k.c)) env (ds ++ ws) Wake.zeros = some f →
    w.solve t (w.density (t * w.k.c)) env' ds' Wake.zeros = some f' →
    ∀ k j : ℕ, i ≤ k → k < w.nXi → j < w.nR → f'.chi (k + 2) (j + 2) = f.chi (k + 2) (j + 2)

/-! ### The general statement -/

/-- Pulses that agree in slice `i` and ahead of it, on the grid of the solver and on that of the
plasma. -/
def SameLaser (w : Wake) (i : ℕ) (l l' : Option PulseArrays) : Prop :=
  (l = none ∧ l' = none) ∨ ∃ e e', l = some e ∧ l' = some e' ∧ ∀ p dt, (w.setup p dt).SameFront i e e'

/-- Properties of the wakefield with and without the bunches behind. -/
structure SameProps (w : Wake) (i : ℕ) (X : ℝ) (s s' : Props) : Prop where
  laser : SameLaser w i s.laser s'.laser
  np : s'.np = s.np
  chi : ∀ k j : ℕ, i ≤ k → k < w.nXi → j < w.nR → s'.fld.chi (k + 2) (j + 2) = s.fld.chi (k + 2) (j + 2)
  felt : SameAhead X (w.field (some s)) (w.field (some s'))

/-- States of the wakefield with and without the bunches behind. -/
def SameState (w : Wake) (i : ℕ) (X : ℝ) (φ φ' : NumField ℝ (Option Props)) : Prop :=
  φ'.dt = φ.dt ∧ φ'.t = φ.t ∧ φ'.initialized = φ.initialized ∧
  ((φ.prop = none ∧ φ'.prop = none) ∨ ∃ s s', φ.prop = some s ∧ φ'.prop = some s' ∧ SameProps w i X s s')

theorem SameLaser.refl (w : Wake) (i : ℕ) (l : Option PulseArrays) : SameLaser w i l l := by
  cases l with
  | none => exact .inl ⟨rfl, rfl⟩
  | some e => exact .inr ⟨e, e, rfl, rfl, fun _ _ => .refl _ _ _⟩

theorem SameLaser.env {w : Wake} {i : ℕ} {l l' : Option PulseArrays} (h : SameLaser w i l l') :
    w.SameEnv i (w.envelope l) (w.envelope l') := by
  unfold Wake.envelope
  cases w.laser with
  | none => exact .inl ⟨rfl, rfl⟩
  | some p =>
    rcases h with ⟨rfl, rfl⟩ | ⟨e, e', rfl, rfl, h⟩
    · exact .inl ⟨rfl, rfl⟩
    · exact .inr ⟨_, _, _, rfl, rfl, fun k j hk hkn hj => (h p 0).out k hk hkn j hj⟩

theorem calc_same {w : Wake} {i : ℕ} {X Y : ℝ} (hc : w.CausalEnv i X Y) (hchi : w.CausalChi i Y) (hw : w.Works) (t : ℝ)
    {ds ds' ws : List Bunch} (hds : List.Forall₂ Same ds ds') (hws : ∀ b ∈ ws, Behind Y b) {s s' : Props}
    (hl : SameLaser w i s.laser s'.laser) :
    ∃ r r', w.calculateProps t (ds ++ ws) s = some r ∧ w.calculateProps t ds' s' = some r' ∧ SameProps w i X r r' := by
  obtain ⟨f, hf⟩ := hw.solve t (w.envelope s.laser) (ds ++ ws)
  obtain ⟨f', hf'⟩ := hw.solve t (w.envelope s'.laser) ds'
  refine ⟨{ s with np := w.density (t * w.k.c), fld := f }, { s' with np := w.density (t * w.k.c), fld := f' }, ?_, ?_,
    hl, rfl, hchi t _ _ ds ds' ws f f' hl.env hds hws hf hf', hc t _ _ ds ds' ws f f' hl.env hds hws hf hf'⟩
  · unfold Wake.calculateProps
    dsimp only
    rw [hf]
    rfl
  · unfold Wake.calculateProps
    dsimp only
    rw [hf']
    rfl

theorem evolve_same {w : Wake} {i : ℕ} {X : ℝ} (hw : w.Works) (hz : w.laserNxi.getD w.nXi = w.nXi) (dt : ℝ) {s s' : Props}
    (h : SameProps w i X s s') : ∃ r r', w.evolveProps dt s = some r ∧ w.evolveProps dt s' = some r' ∧
      SameLaser w i r.laser r'.laser := by
  unfold Wake.evolveProps
  cases hp : w.laser with
  | none => exact ⟨s, s', rfl, rfl, h.laser⟩
  | some p =>
    rcases h.laser with ⟨h1, h2⟩ | ⟨e, e', h1, h2, h3⟩
    · rw [h1, h2]
      exact ⟨s, s', rfl, rfl, h.laser⟩
    · rw [h1, h2]
      dsimp only
      by_cases hev : w.laserEvolution = true
      · obtain ⟨r, r', g1, g2, g3⟩ := pulse_ahead (s := w.setup p dt) (hw.laser p hp dt) hz
          (chi := fun i j => s.fld.chi (i + 2) (j + 2)) (chi' := fun i j => s'.fld.chi (i + 2) (j + 2)) (w.kp s.np)
          (fun k hk hkn j hj => h.chi k j hk hkn hj) (h3 p dt)
        rw [if_pos hev, if_pos hev, h.np, g1, g2]
        exact ⟨_, _, rfl, rfl, .inr ⟨r, r', rfl, rfl, fun p dt => ⟨g3.steps, g3.a, g3.old, g3.out⟩⟩⟩
      · rw [if_neg hev, if_neg hev]
        exact ⟨s, s', rfl, rfl, h.laser⟩

theorem elem_causal_laser {p : PStage F} {i : ℕ} {X Y : ℝ} (hc : p.wake.CausalEnv i X Y) (hchi : p.wake.CausalChi i Y)
    (hw : p.wake.Works) (hz : p.wake.laserNxi.getD p.wake.nXi = p.wake.nXi) (hsch : ∀ n, (p.sch n).Valid n)
    (hA : ∀ b b', Same b b' → p.autoDt b' = p.autoDt b) : p.elem.Causal X Y (SameState p.wake i X) where
  felt := by
    rintro φ φ' ⟨-, -, -, h | ⟨s, s', h1, h2, h3⟩⟩
    · intro t q _
      show Push.felt (p.wake.field φ'.prop ++ p.ext) t q = Push.felt (p.wake.field φ.prop ++ p.ext) t q
      rw [h.1, h.2]
    · intro t q hq
      show Push.felt (p.wake.field φ'.prop ++ p.ext) t q = Push.felt (p.wake.field φ.prop ++ p.ext) t q
      have := h3.felt t q hq
      rw [h1, h2]
      unfold Push.felt at this ⊢
      rw [List.foldl_append, List.foldl_append, this]
  update := by
    rintro ds ds' ws φ φ' j hds hws ⟨h1, h2, h3, h4⟩
    show SameState p.wake i X (if j = 0 then φ.update (p.wake.ops φ.dt) (ds ++ ws) else φ)
      (if j = 0 then φ'.update (p.wake.ops φ'.dt) ds' else φ')
    by_cases hj : j = 0
    swap
    · rw [if_neg hj, if_neg hj]
      exact ⟨h1, h2, h3, h4⟩
    rw [if_pos hj, if_pos hj, h1]
    unfold NumField.update
    dsimp only
    cases hi : φ.initialized with
    | false =>
      rw [h3, hi]
      simp only [Bool.false_eq_true, not_false_eq_true, if_true]
      refine ⟨h1, rfl, rfl, ?_⟩
      show ((p.wake.initProps φ.dt).bind _ = none ∧ (p.wake.initProps φ.dt).bind _ = none) ∨ _
      cases hp : p.wake.initProps φ.dt with
      | none => exact .inl ⟨rfl, rfl⟩
      | some s =>
        obtain ⟨r, r', e1, e2, e3⟩ := calc_same hc hchi hw 0 hds hws (s := s) (s' := s) (.refl _ _ _)
        refine .inr ⟨r, r', ?_, ?_, e3⟩
        · show (p.wake.initProps φ.dt).bind (p.wake.calculateProps 0 (ds ++ ws)) = _
          rw [hp]
          exact e1
        · show (p.wake.initProps φ.dt).bind (p.wake.calculateProps 0 ds') = _
          rw [hp]
          exact e2
    | true =>
      rw [h3, hi]
      simp only [not_true_eq_false, if_false]
      refine ⟨h1, by rw [h2, h1], rfl, ?_⟩
      rcases h4 with ⟨h4, h5⟩ | ⟨s, s', h4, h5, h6⟩
      · left
        constructor
        · show (φ.prop.bind _).bind _ = none
          rw [h4]
          rfl
        · show (φ'.prop.bind _).bind _ = none
          rw [h5]
          rfl
      · obtain ⟨q, q', g1, g2, g3⟩ := evolve_same hw hz φ.dt h6
        obtain ⟨r, r', e1, e2, e3⟩ := calc_same hc hchi hw (φ.t + φ.dt) hds hws (s := q) (s' := q') g3
        refine .inr ⟨r, r', ?_, ?_, e3⟩
        · show (φ.prop.bind (p.wake.evolveProps φ.dt)).bind (p.wake.calculateProps (φ.t + φ.dt) (ds ++ ws)) = _
          rw [h4, Option.bind_some, g1, Option.bind_some]
          exact e1
        · show (φ'.prop.bind (p.wake.evolveProps φ.dt)).bind (p.wake.calculateProps (φ'.t + φ'.dt) ds') = _
          rw [h5, Option.bind_some, g2, Option.bind_some, h1, h2]
          exact e2
  autoDt := hA
  sch := hsch

/-- **C146.** In a stage in which the laser evolves, the first bunches and the laser ahead are not
affected by bunches behind: the outputs of the first bunches are those obtained without the others,
and at the end the envelope in slice `i` and ahead of it is the same, if the other bunches start at `Y`
or behind and the first bunches are at `X` or ahead at the end. -/
theorem stage_causal_laser {p : PStage F} {i : ℕ} {X Y : ℝ} (hc : p.wake.CausalEnv i X Y) (hchi : p.wake.CausalChi i Y)
    (hw : p.wake.Works) (hz : p.wake.laserNxi.getD p.wake.nXi = p.wake.nXi) (hk : p.elem.Ok) (hm : StrictMono p.f32)
    (hp : p.pusher = "rk4" ∨ p.pusher = "boris") (hsch : ∀ n, (p.sch n).Valid n)
    (hA : ∀ b b', Same b b' → p.autoDt b' = p.autoDt b) {D : ℝ} (hD0 : 0 ≤ D)
    (hD : p.pusher = "rk4" → ∀ d, some d ∈ p.dtBunch.toList → d ≤ D)
    (hDA : p.pusher = "rk4" → none ∈ p.dtBunch.toList → ∀ b, p.autoDt b ≤ D) (opmd : Bool) (fuel : ℕ) (ds ws : List Bunch)
    (hf : ∀ b ∈ ds ++ ws, b.Fits) (hY : ∀ b ∈ ws, Behind Y b) (b0 : Bunch) {r : OneOrMany (List Bunch)}
    {w : World (NumField ℝ (Option Props))} (hr : p.track opmd fuel (.many (ds ++ ws)) b0 = .returned (r, w))
    (hX : ∀ i < ds.length, AheadOf (X + if p.pusher = "rk4" then 2 * p.wake.k.c * D else 0) (w.bunch i)) :
    ∃ ls ls' w', r = pack ls ∧ ls.length = ds.length + ws.length ∧
      (p.first ds.length).track opmd fuel (.many ds) b0 = .returned (pack ls', w') ∧
      List.Forall₂ (List.Forall₂ Same) (ls.take ds.length) ls' ∧
      ∀ s, w.flds.prop = some s → ∃ s', w'.flds.prop = some s' ∧
        p.wake.SameEnv i (p.wake.envelope s.laser) (p.wake.envelope s'.laser) := by
  have e1 : (p.first ds.length).wake = p.wake ∧ (p.first ds.length).length = p.length ∧
      (p.first ds.length).elem = p.elem.first ds.length := by
    unfold PStage.first Elem.first
    show _ ∧ _ ∧ _ = match p.dtBunch with
      | .one _ => p.elem
      | .many l => { p.elem with dtBunch := .many (l.take ds.length) }
    cases h : p.dtBunch <;> exact ⟨rfl, rfl, rfl⟩
  unfold PStage.track at hr ⊢
  rw [e1.1, e1.2.1, e1.2.2]
  cases hdt : p.wake.dtUpdate p.length with
  | none => rw [hdt] at hr; cases hr
  | some dt =>
    rw [hdt] at hr
    obtain ⟨ls, ls', w', h1, h2, h3, h4, -, -, -, h5⟩ := track_ahead (elem_causal_laser hc hchi hw hz hsch hA) hk hm hp hD0 hD hDA
      opmd fuel ds ws hf hY b0 (Wake.start dt) (Wake.start dt) ⟨rfl, rfl, rfl, .inl ⟨rfl, rfl⟩⟩ hr hX
    refine ⟨ls, ls', w', h1, h2, h3, h4, fun s hs => ?_⟩
    rcases h5 with ⟨h5, -⟩ | ⟨s1, s', h5, h6, h7⟩
    · rw [h5] at hs
      cases hs
    · rw [h5] at hs
      cases hs
      exact ⟨s', h6, h7.laser.env⟩

/-! ### The two wakefield models -/

/-- With the linear shape the susceptibility of the quasistatic model is causal. -/
theorem quasi_causal_chi {w : Wake} (a : Plasma1) (q : QArgs) (hs : w.solve = w.quasiCalc a q) (hq : q.pShape = "linear")
    (hx : w.xiMin < w.xiMax) (hnx : 2 ≤ w.nXi) (hsd : ∀ z, 0 < a.skinDepth (w.density z / 1e6)) (i : ℕ) :
    w.CausalChi i (w.xiMin + ((i : ℝ) - 2) * ((w.xiMax - w.xiMin) / ((w.nXi : ℝ) - 1))) := by
  intro t env env' ds ds' ws f f' henv hds hws hf hf' k j hk hkn hj
  have hn1 : (0 : ℝ) < (w.nXi : ℝ) - 1 := by
    have : (2 : ℝ) ≤ w.nXi := by exact_mod_cast hnx
    linarith
  have hd : 0 < w.box.dz := div_pos (by linarith) hn1
  rw [hs] at hf hf'
  unfold Wake.quasiCalc at hf hf'
  dsimp only at hf hf'
  have hsp := hsd (t * w.k.c)
  rw [parts_same hds] at hf'
  rw [List.map_append] at hf
  set s := a.skinDepth (w.density (t * w.k.c) / 1e6) with hsdef
  set c := w.quasi q s (q.parabolic (t * w.k.c)) with hc
  set fac := 1 / w.k.e / (2 * Real.pi * c.dr * c.dxi * s ^ 3 * w.density (t * w.k.c)) with hfac
  have ho : ∀ {ε α : Type} {x : Except ε α} {r : α}, x.toOption = some r → x = .ok r := by
    intro ε α x r h
    cases x with
    | error e => cases h
    | ok v => cases h; rfl
  have hf := ho hf
  have hf' := ho hf'
  have hcd : c.dxi = w.box.dz / s := by
    show (w.xiMax / s - w.xiMin / s) / ((w.nXi : ℝ) - 1) = (w.xiMax - w.xiMin) / ((w.nXi : ℝ) - 1) / s
    field_simp
  have hcx : c.xi i - 2 * c.dxi = (w.xiMin + ((i : ℝ) - 2) * w.box.dz) / s := by
    show w.xiMin / s + i * c.dxi - 2 * c.dxi = _
    rw [hcd]
    field_simp
    ring
  have hcd0 : 0 < c.dxi := by
    rw [hcd]
    exact div_pos hd hsp
  have hB : c.SameBeamAhead i (ds.map (partsOf s fac) ++ ws.map (partsOf s fac)) (ds.map (partsOf s fac)) := by
    unfold QS.SameBeamAhead
    rw [hcx, List.flatten_append]
    have h0 : ∀ x l l', Plasma.beyond x (l ++ l') = Plasma.beyond x l ++ Plasma.beyond x l' := fun x l l' => List.filter_append _ _
    have h1 : Plasma.beyond ((w.xiMin + ((i : ℝ) - 2) * w.box.dz) / s) (ws.map (partsOf s fac)).flatten = [] :=
      beyond_behind hsp fac hws
    rw [h0, h1, List.append_nil]
  exact QS.causal_chi hcd0 hq q.pusher i (L := aEnv2 env) (L' := aEnv2 env')
    (fun k hk hkn j hj => aEnv2_same henv hk hkn hj) hB _ _ Wake.zeros hf hf' k _ hk hkn

/-- So is that of the cold fluid model. -/
theorem cold_causal_chi {w : Wake} (a : Plasma1) (bw : Bool) (shape : String) (hs : w.solve = w.coldCalc a bw shape)
    (hx : w.xiMin < w.xiMax) (hr : 0 < w.rMax) (hnx : 2 ≤ w.nXi) (hsd : ∀ z, 0 < a.skinDepth (w.density z / 1e6)) (i : ℕ) :
    w.CausalChi i (w.xiMin + ((i : ℝ) - 2) * ((w.xiMax - w.xiMin) / ((w.nXi : ℝ) - 1))) := by
  intro t env env' ds ds' ws f f' henv hds hws hf hf' k j hk hkn hj
  have hn1 : (0 : ℝ) < (w.nXi : ℝ) - 1 := by
    have : (2 : ℝ) ≤ w.nXi := by exact_mod_cast hnx
    linarith
  have hd : 0 < w.box.dz := div_pos (by linarith) hn1
  rw [hs] at hf hf'
  unfold Wake.coldCalc at hf hf'
  dsimp only at hf hf'
  have hsp := hsd (t * w.k.c)
  set s := a.skinDepth (w.density (t * w.k.c) / 1e6) with hsdef
  obtain ⟨h, hh, hfe⟩ := Option.map_eq_some_iff.mp hf
  obtain ⟨h', hh', hfe'⟩ := Option.map_eq_some_iff.mp hf'
  have hrr : 0 < w.rMax / w.nR / s := by
    have : (0 : ℝ) < w.nR := by exact_mod_cast (by omega : 0 < w.nR)
    positivity
  rw [← hfe, ← hfe']
  dsimp only
  rw [QS.setInner_node _ _ _ _ k j hkn hj, QS.setInner_node _ _ _ _ k j hkn hj]
  have hu := ColdFluid.causal
    ⟨w.nXi, w.nR, w.xiMin / s, (w.xiMax - w.xiMin) / ((w.nXi : ℝ) - 1) / s, w.rMax / w.nR / s, bw, aEnvAbs env, h⟩
    ⟨w.nXi, w.nR, w.xiMin / s, (w.xiMax - w.xiMin) / ((w.nXi : ℝ) - 1) / s, w.rMax / w.nR / s, bw, aEnvAbs env', h'⟩
    rfl rfl rfl rfl (div_pos hd hsp) hrr hrr i j hj (fun l hl hln => aEnv_same henv rfl rfl hl hln hj)
    (fun l hl _ => beamHist_same hsp hd hds hws hh hh' hl.le) k hk hkn
  have ha := aEnv_same henv
    (m := ⟨w.nXi, w.nR, w.xiMin / s, (w.xiMax - w.xiMin) / ((w.nXi : ℝ) - 1) / s, w.rMax / w.nR / s, bw, aEnvAbs env, h⟩)
    (m' := ⟨w.nXi, w.nR, w.xiMin / s, (w.xiMax - w.xiMin) / ((w.nXi : ℝ) - 1) / s, w.rMax / w.nR / s, bw, aEnvAbs env', h'⟩)
    rfl rfl hk hkn hj
  unfold ColdFluid.Cold.chi ColdFluid.Cold.rho ColdFluid.Cold.gamma
  rw [hu, ha]

/-! ### An instance -/

/-- A wakefield on 81 slices between -8 and 0, with a laser that evolves on a finer radial grid. -/
noncomputable def demoWake3 : Wake :=
  { demoWake2 with
    laser := some ⟨1, "linear", fun xi r => (Real.exp (-(xi + 2) ^ 2 - r ^ 2) : ℝ)⟩
    laserEvolution := true
    laserNr := some 8 }

theorem demo3_works : demoWake3.Works := by
  refine quasi_works (w := demoWake3) ⟨fun _ => 1, fun _ => 1⟩
    ⟨2, none, fun _ => 0, "linear", 10, "ab5", fun _ i => i⟩ rfl ?_ ?_ ?_ ?_ (Or.inl rfl) (Or.inl rfl) ?_ ?_
  · norm_num [demoWake3, demoWake2]
  · norm_num [demoWake3, demoWake2]
  · norm_num [demoWake3, demoWake2]
  · norm_num [demoWake3, demoWake2]
  · intro z
    norm_num
  · intro q _ dt
    constructor <;> constructor <;> norm_num [Wake.setup, demoWake3, demoWake2, Setup.main, Setup.solver, Setup.useSub]

theorem demo3_causal : demoWake3.CausalEnv 48 (-3) (-17 / 5) ∧ demoWake3.CausalChi 48 (-17 / 5) := by
  have h := quasi_causal_env (w := demoWake3) ⟨fun _ => 1, fun _ => 1⟩
    ⟨2, none, fun _ => 0, "linear", 10, "ab5", fun _ i => i⟩ rfl (by norm_num [demoWake3, demoWake2])
    (by norm_num [demoWake3, demoWake2]) (fun _ => by norm_num) 48
  have h' := quasi_causal_chi (w := demoWake3) ⟨fun _ => 1, fun _ => 1⟩
    ⟨2, none, fun _ => 0, "linear", 10, "ab5", fun _ i => i⟩ rfl rfl (by norm_num [demoWake3, demoWake2])
    (by norm_num [demoWake3, demoWake2]) (fun _ => by norm_num) 48
  have e1 : demoWake3.xiMin + (((48 : ℕ) : ℝ) + 2) * ((demoWake3.xiMax - demoWake3.xiMin) / ((demoWake3.nXi : ℝ) - 1)) = -3 := by
    norm_num [demoWake3, demoWake2]
  have e2 : demoWake3.xiMin + (((48 : ℕ) : ℝ) - 2) * ((demoWake3.xiMax - demoWake3.xiMin) / ((demoWake3.nXi : ℝ) - 1)) =
      -17 / 5 := by
    norm_num [demoWake3, demoWake2]
  rw [e1, e2] at h
  rw [e2] at h'
  exact ⟨h, h'⟩

/-- A stage of length 1 with this wakefield. -/
noncomputable def demoStage3 (sch : ℕ → Sched) : PStage ℝ := { demoStage2 sch with wake := demoWake3 }

theorem demo3_ok (sch : ℕ → Sched) : (demoStage3 sch).elem.Ok where
  length := by norm_num [PStage.elem, demoStage3, demoStage2]
  c := by norm_num [PStage.elem, demoStage3, demoWake3, demoWake2]
  steps := by
    intro d hd
    simp [PStage.elem, demoStage3, demoStage2, OneOrMany.toList] at hd
    rw [hd]
    norm_num
  auto := fun b => by
    show (0 : ℝ) < 1 / 5 + b.propDistance ^ 2
    positivity
  fields := by
    intro x hx
    simp [PStage.elem, demoStage3] at hx
    rw [hx]
    norm_num [Wake.dt0, demoWake3, demoWake2]
  mono := monotone_id
  sep := by norm_num [PStage.elem, demoStage3, demoStage2, demoWake3, demoWake2]

theorem demo3_dt : demoWake3.dtUpdate 1 = some (1 / 2) := by
  show Fields.adjustDt true ((1 : ℝ) / 1) (3 / 5 / 1) = _
  have h : ⌈((1 : ℝ) / 1) / (3 / 5 / 1)⌉ = 2 := by rw [Int.ceil_eq_iff]; norm_num
  unfold Fields.adjustDt
  rw [if_pos rfl, if_neg (by norm_num)]
  dsimp only
  rw [h, if_neg (by norm_num)]
  norm_num

/-- A driver that starts at -1 or ahead, and the laser in slice 48 (at -16/5) and ahead of it, evolve
as if the witness, at -17/5 or behind, were not there. -/
example (sch : ℕ → Sched) (hsch : ∀ n, (sch n).Valid n) (d w : Bunch) (hd : d.Fits) (hw : w.Fits) (hX : AheadOf (-1) d)
    (hY : Behind (-17 / 5) w) : ∃ fuel a a' l x y,
      (demoStage3 sch).track false fuel (.many [d, w]) d = .returned (.many [a, l], x) ∧
      ((demoStage3 sch).first 1).track false fuel (.many [d]) d = .returned (.one a', y) ∧ List.Forall₂ Same a a' ∧
      ∀ s, x.flds.prop = some s → ∃ s', y.flds.prop = some s' ∧
        demoWake3.SameEnv 48 (demoWake3.envelope s.laser) (demoWake3.envelope s'.laser) := by
  obtain ⟨fuel, ⟨r, x⟩, hr⟩ : ∃ fuel r, (demoStage3 sch).track false fuel (.many ([d] ++ [w])) d = .returned r := by
    unfold PStage.track
    have : (demoStage3 sch).wake.dtUpdate (demoStage3 sch).length = some (1 / 2) := demo3_dt
    rw [this]
    exact track_returns (demo3_ok sch) strictMono_id (by norm_num [PStage.elem, demoStage3, demoStage2]) (δ := 1 / 5)
      (by norm_num) (fun b => by show (1 / 5 : ℝ) ≤ 1 / 5 + b.propDistance ^ 2; nlinarith [sq_nonneg b.propDistance])
      _ (by intro l hl; cases hl; rfl) false d _
  have hfit : ∀ b ∈ [d] ++ [w], b.Fits := by
    intro b hb
    simp only [List.mem_append, List.mem_singleton] at hb
    rcases hb with rfl | rfl
    · exact hd
    · exact hw
  have hend : ∀ i < ([d] : List Bunch).length, AheadOf (-3 + if (demoStage3 sch).pusher = "rk4" then
      2 * (demoStage3 sch).wake.k.c * 0 else 0) (x.bunch i) := by
    intro i hi q hq
    have hi0 : i = 0 := by simpa using hi
    subst hi0
    have hr' := hr
    unfold PStage.track at hr'
    rw [show (demoStage3 sch).wake.dtUpdate (demoStage3 sch).length = some (1 / 2) from demo3_dt] at hr'
    obtain ⟨h1, h2⟩ := final_slow (demo3_ok sch) strictMono_id (.inr rfl) hsch false fuel (.many ([d] ++ [w])) hfit d
      (Wake.start (1 / 2)) hr' 0 d rfl
    rw [h1] at hq
    have h4 := (h2 q hq).1
    have h5 : (demoStage3 sch).elem.length = 1 := rfl
    rw [h5] at h4
    have := hX q hq
    norm_num [demoStage3, demoStage2]
    linarith
  obtain ⟨ls, ls', y, h1, h2, h3, h4, h5⟩ := stage_causal_laser (p := demoStage3 sch) demo3_causal.1 demo3_causal.2 demo3_works rfl
    (demo3_ok sch) strictMono_id (.inr rfl) hsch
    (fun b b' h => by show (1 / 5 : ℝ) + b'.propDistance ^ 2 = 1 / 5 + b.propDistance ^ 2; rw [h.propDistance])
    (D := 0) le_rfl (fun h => absurd h (by simp [demoStage3, demoStage2])) (fun h => absurd h (by simp [demoStage3, demoStage2]))
    false fuel [d] [w] hfit
    (by intro b hb; rw [List.mem_singleton.mp hb]; exact hY) d hr hend
  subst h1
  match ls, h2, h4 with
  | [a, l], _, h4 =>
    cases h4 with
    | cons h6 h7 =>
      cases h7
      exact ⟨fuel, a, _, l, x, y, hr, h3, h6, h5⟩

end WakeT.Stage
