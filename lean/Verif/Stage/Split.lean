import Verif.Tracker.Split
import Verif.Stage.History
import Verif.Stage.WakeTurned

/-! # A plasma stage in two parts (C133)

A plasma stage can be divided into two stages, the second of which continues with the bunches and the laser pulse that
leave the first one. -/

set_option linter.unusedSectionVars false

namespace WakeT.Laser

/-- `set_envelope_solver_params` and `initialize_envelope` of a pulse that has been used before with the parameters
`old` (laser_pulse.py 106-166): the arrays are kept, as `a_env` exists already (153).  `none` is a `ValueError`. -/
noncomputable def Setup.reuse (s old : Setup) (e : PulseArrays) : Option PulseArrays :=
  open Classical in
  if s.nt < 1 then none
  else if 0 < e.nSteps then
    if s.solver.zMin ≠ old.solver.zMin ∧ s.solver.zMax ≠ old.solver.zMax ∧ s.solver.rMax ≠ old.solver.rMax ∧
      s.solver.nz ≠ old.solver.nz ∧ s.solver.nr ≠ old.solver.nr then none
    else some { e with nSteps := if s.dt / s.nt ≠ old.dt / old.nt then 0 else e.nSteps }
  else some e

end WakeT.Laser

namespace WakeT.Push

/-- A field at later times. -/
def PField.later (f : PField) (T : ℝ) : PField := fun t => f (t + T)

theorem gather_later (T : ℝ) (fields : List PField) (sch : ℕ → List ℕ) (t : ℝ) (pos : ℕ → Ph) (a : ℕ → Fields.EB ℝ) :
    gatherFields (fields.map fun f => PField.later f T) sch t pos a = gatherFields fields sch (t + T) pos a := by
  unfold gatherFields
  rw [List.zipIdx_map, List.foldl_map]
  rfl

theorem boris_later (T : ℝ) (k : Const) (fields : List PField) (sch : Sched) (t dt : ℝ) (b : ℕ → Ph) (eb : ℕ → Fields.EB ℝ) :
    boris k (fields.map fun f => PField.later f T) sch t dt b eb = boris k fields sch (t + T) dt b eb := by
  unfold boris
  simp only [gather_later]
  rw [add_right_comm]

theorem rk4_later (T : ℝ) (k : Const) (fields : List PField) (sch : Sched) (t dt : ℝ) (b : ℕ → Ph) (bu : Bufs)
    (eb : ℕ → Fields.EB ℝ) :
    rk4 k (fields.map fun f => PField.later f T) sch t dt b bu eb = rk4 k fields sch (t + T) dt b bu eb := by
  have h : ∀ i s, rk4Stage k (fields.map fun f => PField.later f T) sch t dt b i s = rk4Stage k fields sch (t + T) dt b i s := by
    intro i s
    have hf : factors i (t + T) dt = ((factors i t dt).1, (factors i t dt).2.1, (factors i t dt).2.2 + T) := by
      unfold factors
      split_ifs <;> simp [add_right_comm]
    unfold rk4Stage
    simp only [hf, gather_later]
  unfold rk4
  simp only [h]

end WakeT.Push

namespace WakeT.Bunch

open Push (PField Sched)

theorem evolve_later (T : ℝ) (c : ℝ) (b : Bunch) (fields : List PField) (sch : Sched) (t dt : ℝ) (pusher : String) :
    b.evolve c (fields.map fun f => PField.later f T) sch t dt pusher = b.evolve c fields sch (t + T) dt pusher := by
  have ha : b.activeFields (fields.map fun f => PField.later f T) =
      (b.activeFields fields).map fun l => l.map fun f => PField.later f T := by
    unfold Bunch.activeFields
    cases b.zInjection with
    | none => rfl
    | some z =>
      dsimp only
      cases amax b.n (fun i => (b.ph i).xi) with
      | none => rfl
      | some m =>
        dsimp only
        split_ifs <;> rfl
  unfold Bunch.evolve
  rw [ha]
  cases b.activeFields fields with
  | error e => rfl
  | ok l =>
    show (if pusher = "rk4" then _ else _) = _
    simp only [Push.boris_later, Push.rk4_later]

/-- A push by zero time keeps what the solvers of the wakefields see. -/
theorem evolve_still (c : ℝ) (b : Bunch) (fields : List PField) {sch : Sched} (hs : sch.Valid b.n) (t : ℝ) (pusher : String) :
    (b.evolve c fields sch t 0 pusher).1.n = b.n ∧ (b.evolve c fields sch t 0 pusher).1.ph = b.ph ∧
    (b.evolve c fields sch t 0 pusher).1.w = b.w ∧ (b.evolve c fields sch t 0 pusher).1.qSpecies = b.qSpecies := by
  unfold Bunch.evolve
  cases b.activeFields fields with
  | error e => exact ⟨rfl, rfl, rfl, rfl⟩
  | ok l =>
    dsimp only
    split_ifs
    · exact ⟨rfl, rfl, rfl, rfl⟩
    · exact ⟨rfl, (Push.push_zero _ l hs t b.ph _ _).2, rfl, rfl⟩
    · exact ⟨rfl, rfl, rfl, rfl⟩
    · exact ⟨rfl, (Push.push_zero _ l hs t b.ph ⟨b.ph, b.ph, b.ph⟩ _).1, rfl, rfl⟩
    · exact ⟨rfl, rfl, rfl, rfl⟩

end WakeT.Bunch

namespace WakeT.Stage

open Bunch FieldElement Laser Tracker
open Plasma.QS (Fld)
open Push (PField Sched)
open Fields (NumField FieldOps)

variable {F : Type} [LinearOrder F]

/-! ### Model of a stage with a used pulse -/

/-- `_initialize_properties` (rz_wakefield.py 108-128) with a pulse that has been used before, with the solver
parameters and arrays `u`. -/
noncomputable def Wake.initUsed (w : Wake) (u : Option (Setup × PulseArrays)) (dt : ℝ) : Option Props :=
  match w.laser, u with
  | some p, some (old, e) => ((w.setup p dt).reuse old e).map fun e' => ⟨some e', 0, Wake.zeros⟩
  | _, _ => w.initProps dt

/-- The methods of the wakefield (rz_wakefield.py 108-143) with a used pulse. -/
noncomputable def Wake.opsUsed (w : Wake) (u : Option (Setup × PulseArrays)) (dt : ℝ) :
    FieldOps ℝ (Option Props) (List Bunch) := { w.ops dt with init := fun _ _ _ => w.initUsed u dt }

/-- The element (plasma_stage.py 100-116) with a used pulse. -/
noncomputable def PStage.elemUsed (p : PStage F) (u : Option (Setup × PulseArrays)) : Elem F (NumField ℝ (Option Props)) :=
  { p.elem with update := fun bs φ j => if j = 0 then φ.update (p.wake.opsUsed u φ.dt) bs else φ }

/-- `track` of a stage that is used for the first time with a pulse that has been used before (field_element.py
79-154). -/
noncomputable def PStage.trackUsed (p : PStage F) (u : Option (Setup × PulseArrays)) (opmd : Bool) (fuel : ℕ)
    (bunches : OneOrMany Bunch) (b0 : Bunch) : Result (OneOrMany (List Bunch) × World (NumField ℝ (Option Props))) :=
  match p.wake.dtUpdate p.length with
  | none => .nan
  | some dt => (p.elemUsed u).track opmd fuel bunches b0 (Wake.start dt)

/-! ### Specification -/

/-- The first part of a stage, of length `L` and with `n` outputs. -/
def PStage.upTo (p : PStage F) (L : ℝ) (n : ℕ) : PStage F := { p with length := L, nOut := n }

/-- The wakefield in the plasma behind `L`. -/
noncomputable def Wake.behind (w : Wake) (L : ℝ) : Wake :=
  { w with density := fun z => w.density (z + L), solve := fun t => w.solve (t + L / w.k.c) }

/-- The rest of a stage behind `L`, with `n` outputs; the external fields are those of later times. -/
noncomputable def PStage.behind (p : PStage F) (L : ℝ) (n : ℕ) : PStage F :=
  { p with
    wake := p.wake.behind L
    length := p.length - L
    nOut := n
    ext := p.ext.map fun f => PField.later f (L / p.wake.k.c) }

/-- The two models in the plasma behind `L` are the same models, with a channel that starts there. -/
theorem behind_quasi {w : Wake} {a : Plasma1} {q : QArgs} (hs : w.solve = w.quasiCalc a q) (hc : w.k.c ≠ 0) (L : ℝ) :
    (w.behind L).solve = (w.behind L).quasiCalc a { q with parabolic := fun z => q.parabolic (z + L) } := by
  funext t np env bs f
  have e : (t + L / w.k.c) * w.k.c = t * w.k.c + L := by field_simp
  show w.solve (t + L / w.k.c) np env bs f = _
  rw [hs]
  unfold Wake.quasiCalc
  rw [e]
  rfl

theorem behind_cold {w : Wake} {a : Plasma1} {bw : Bool} {shape : String} (hs : w.solve = w.coldCalc a bw shape) (L : ℝ) :
    (w.behind L).solve = (w.behind L).coldCalc a bw shape := by
  funext t np env bs f
  show w.solve (t + L / w.k.c) np env bs f = _
  rw [hs]
  rfl

/-- The cut at `L` fits the stage: the outputs of the parts have the distance of those of the whole stage, the time
step of every bunch is given and divides the time between outputs, and the wakefield is updated at the cut. -/
structure PStage.Cut (p : PStage F) (L : ℝ) (n₁ n₂ : ℕ) : Prop where
  c : 0 < p.wake.k.c
  left : 0 < L
  right : L < p.length
  first : 0 < n₁
  second : 0 < n₂
  outs : p.nOut = n₁ + n₂
  even : L / n₁ = (p.length - L) / n₂
  steps : ∀ x ∈ p.dtBunch.toList, ∃ d, x = some d ∧ 0 < d ∧ ∃ m : ℕ, p.length / p.wake.k.c / p.nOut = m * d
  fields : 0 < p.wake.dt0 ∧ (∃ m : ℕ, L / p.wake.k.c = m * p.wake.dt0) ∧
    ∃ m : ℕ, (p.length - L) / p.wake.k.c = m * p.wake.dt0

/-! ### Wakefield -/

theorem calc_behind {w : Wake} (hc : w.k.c ≠ 0) (L t : ℝ) (bs : List Bunch) (s : Props) :
    (w.behind L).calculateProps t bs s = w.calculateProps (t + L / w.k.c) bs s := by
  have e : (t + L / w.k.c) * w.k.c = t * w.k.c + L := by field_simp
  unfold Wake.calculateProps
  rw [e]
  rfl

theorem evolve_behind (w : Wake) (L dt : ℝ) (s : Props) : (w.behind L).evolveProps dt s = w.evolveProps dt s := rfl

theorem calc_again {w : Wake} {t : ℝ} {bs : List Bunch} {s r : Props} (h : w.calculateProps t bs s = some r) :
    w.calculateProps t bs r = some r := by
  unfold Wake.calculateProps at h ⊢
  dsimp only at h ⊢
  obtain ⟨f, hf, rfl⟩ := Option.map_eq_some_iff.mp h
  dsimp only
  rw [hf]
  rfl

theorem adjust_even (force : Bool) {T dt : ℝ} (hd : 0 < dt) (hT : 0 < T) (h : ∃ m : ℕ, T = m * dt) :
    Fields.adjustDt force T dt = some dt := by
  obtain ⟨m, rfl⟩ := h
  unfold Fields.adjustDt
  cases force with
  | false => rfl
  | true =>
    have hm : (m : ℝ) ≠ 0 := by
      intro h0
      rw [h0, zero_mul] at hT
      exact lt_irrefl _ hT
    have hc : ⌈(m * dt) / dt⌉ = (m : ℤ) := by
      rw [mul_div_cancel_right₀ _ hd.ne']
      exact Int.ceil_natCast m
    rw [if_pos rfl, if_neg hd.ne']
    dsimp only
    have hm' : (m : ℤ) ≠ 0 := by exact_mod_cast hm
    rw [hc, if_neg hm']
    congr 1
    push_cast
    field_simp

theorem same_solve {w : Wake} (hw : w.IsModel) {l l' : List Bunch}
    (h : List.Forall₂ (fun b b' : Bunch => b'.n = b.n ∧ b'.ph = b.ph ∧ b'.w = b.w ∧ b'.qSpecies = b.qSpecies) l l')
    (t np : ℝ) (env : Option (String × (ℕ → ℕ → ℂ))) (f : Fld) : w.solve t np env l' f = w.solve t np env l f := by
  have hp : ∀ b b' : Bunch, b'.n = b.n ∧ b'.ph = b.ph ∧ b'.w = b.w ∧ b'.qSpecies = b.qSpecies →
      ∀ s f, partsOf s f b' = partsOf s f b := by
    rintro b b' ⟨h1, h2, h3, h4⟩ s f
    unfold partsOf Bunch.q
    rw [h1, h2, h3, h4]
  have hm : ∀ s f, l'.map (partsOf s f) = l.map (partsOf s f) := fun s f =>
    (forall₂_map h fun b b' hb => (hp b b' hb s f).symm).symm
  have hfold : ∀ (sh : Deposition.Shape) (g : Deposition.Grid ℝ) (s f : ℝ) (a : ℤ → ℤ → ℝ),
      l'.foldl (fun h b => Deposition.depositShape sh true g (partsOf s f b) h) a =
      l.foldl (fun h b => Deposition.depositShape sh true g (partsOf s f b) h) a := by
    intro sh g s f a
    rw [← List.foldl_map (f := partsOf s f) (g := fun h x => Deposition.depositShape sh true g x h), hm, List.foldl_map]
  rcases hw with ⟨a, q, hw⟩ | ⟨a, b, shape, hw⟩
  · rw [hw]
    unfold Wake.quasiCalc
    dsimp only
    rw [hm]
  · rw [hw]
    unfold Wake.coldCalc
    dsimp only
    have hh : w.beamHist shape (a.skinDepth (np / 1e6)) np l' = w.beamHist shape (a.skinDepth (np / 1e6)) np l := by
      unfold Wake.beamHist
      dsimp only
      cases h with
      | nil => rfl
      | cons _ _ => simp only [hfold]
    rw [hh]

/-! ### Whole stage -/

/-- The wakefield has been calculated for the present bunches. -/
def FreshW (p : PStage F) (w : World (NumField ℝ (Option Props))) (_ : ℕ) : Prop :=
  w.flds.prop.bind (p.wake.calculateProps w.flds.t w.list) = w.flds.prop

/-- The wakefield has been initialized, has the internal time `t`, and has a laser if there is one. -/
def ClkW (p : PStage F) (n : ℕ) (w : World (NumField ℝ (Option Props))) (_ : ℕ) (t : ℝ) : Prop :=
  w.n = n ∧ w.flds.initialized = true ∧ w.flds.dt = p.wake.dt0 ∧ w.flds.t = t ∧
    ∀ s, w.flds.prop = some s → s.laser.isSome = p.wake.laser.isSome

theorem calc_laser {w : Wake} {t : ℝ} {bs : List Bunch} {s r : Props} (h : w.calculateProps t bs s = some r) :
    r.laser = s.laser := by
  unfold Wake.calculateProps at h
  dsimp only at h
  obtain ⟨f, -, rfl⟩ := Option.map_eq_some_iff.mp h
  rfl

theorem evolve_laser {w : Wake} {dt : ℝ} {s r : Props} (h : w.evolveProps dt s = some r) :
    r.laser.isSome = s.laser.isSome := by
  unfold Wake.evolveProps at h
  split at h
  · next p e h1 h2 =>
    split_ifs at h
    · obtain ⟨f, -, rfl⟩ := Option.map_eq_some_iff.mp h
      rw [h2]
      rfl
    · rw [← Option.some.inj h]
  · rw [← Option.some.inj h]

theorem init_laser {w : Wake} {dt : ℝ} {r : Props} (h : w.initProps dt = some r) : r.laser.isSome = w.laser.isSome := by
  unfold Wake.initProps at h
  cases hl : w.laser with
  | none => rw [hl] at h; rw [← Option.some.inj h]; rfl
  | some p =>
    rw [hl] at h
    obtain ⟨f, -, rfl⟩ := Option.map_eq_some_iff.mp h
    rfl

theorem updated_some {w : Wake} {dt : ℝ} {φ : NumField ℝ (Option Props)} (hi : φ.initialized = true) (bs : List Bunch) :
    φ.update (w.ops dt) bs =
      ⟨φ.dt, true, φ.t + φ.dt, (φ.prop.bind (w.evolveProps dt)).bind (w.calculateProps (φ.t + φ.dt) bs)⟩ := by
  unfold NumField.update
  rw [hi]
  rfl

theorem updated_none {dt : ℝ} {φ : NumField ℝ (Option Props)} (ops : FieldOps ℝ (Option Props) (List Bunch))
    (hi : φ.initialized = false) (bs : List Bunch) :
    φ.update ops bs = ⟨φ.dt, true, 0, ops.calculate (ops.init φ.prop 0 bs) 0 bs⟩ := by
  unfold NumField.update
  rw [hi]
  rfl

theorem bind_again {w : Wake} {t : ℝ} {bs : List Bunch} (x : Option Props) :
    (x.bind (w.calculateProps t bs)).bind (w.calculateProps t bs) = x.bind (w.calculateProps t bs) := by
  cases x with
  | none => rfl
  | some s =>
    rw [Option.bind_some]
    cases h : w.calculateProps t bs s with
    | none => rfl
    | some r =>
      rw [Option.bind_some]
      exact calc_again h

theorem fresher {p : PStage F} (hw : p.wake.IsModel) (hsch : ∀ n, (p.sch n).Valid n) (opmd : Bool) (n : ℕ)
    (dts : List (Option ℝ)) : Fresher (p.elem.cfg opmd n dts [p.wake.dt0]) (FreshW p) (ClkW p n) where
  update := by
    intro w j hj
    have hj : j = 0 := by
      have : j < 1 := hj
      omega
    subst hj
    show (w.flds.update (p.wake.ops w.flds.dt) w.list).prop.bind (p.wake.calculateProps
      (w.flds.update (p.wake.ops w.flds.dt) w.list).t w.list) = (w.flds.update (p.wake.ops w.flds.dt) w.list).prop
    cases hi : w.flds.initialized with
    | false =>
      rw [updated_none (dt := 0) _ hi]
      exact bind_again (p.wake.initProps w.flds.dt)
    | true =>
      rw [updated_some hi]
      exact bind_again _
  other := by
    intro w j hj k hk hkj
    have hj : j < 1 := hj
    have hk : k < 1 := hk
    omega
  zero := by
    intro w i hi t j hj hfr
    unfold FreshW at hfr ⊢
    show w.flds.prop.bind (p.wake.calculateProps w.flds.t _) = w.flds.prop
    rw [← hfr]
    have hl : ∀ s, p.wake.calculateProps w.flds.t ((p.elem.cfg opmd n dts [p.wake.dt0]).evolve w i t 0).list s =
        p.wake.calculateProps w.flds.t w.list s := by
      intro s
      unfold Wake.calculateProps
      dsimp only
      rw [same_solve hw (l := w.list)]
      unfold World.list
      show List.Forall₂ _ _ ((List.range w.n).map _)
      rw [List.forall₂_map_left_iff, List.forall₂_map_right_iff]
      apply List.forall₂_same.mpr
      intro k _
      show _ ∧ _ ∧ _ ∧ _
      by_cases hki : k = i
      · subst hki
        have := evolve_still p.wake.k.c (w.bunch k) (p.elem.felt w.flds) (hsch (w.bunch k).n) t p.pusher
        show (Function.update w.bunch k _ k).n = _ ∧ (Function.update w.bunch k _ k).ph = _ ∧
          (Function.update w.bunch k _ k).w = _ ∧ (Function.update w.bunch k _ k).qSpecies = _
        rw [Function.update_self]
        exact this
      · show (Function.update w.bunch i _ k).n = _ ∧ (Function.update w.bunch i _ k).ph = _ ∧
          (Function.update w.bunch i _ k).w = _ ∧ (Function.update w.bunch i _ k).qSpecies = _
        rw [Function.update_of_ne hki]
        exact ⟨rfl, rfl, rfl, rfl⟩
    have hl' : p.wake.calculateProps w.flds.t ((p.elem.cfg opmd n dts [p.wake.dt0]).evolve w i t 0).list =
        p.wake.calculateProps w.flds.t w.list := funext hl
    rw [hl', hfr, hfr]
  clkUpdate := by
    rintro w j hj t ⟨h0, h1, h2, h3, h4⟩
    have hj : j = 0 := by
      have : j < 1 := hj
      omega
    subst hj
    refine ⟨h0, ?_⟩
    show (w.flds.update (p.wake.ops w.flds.dt) w.list).initialized = true ∧
      (w.flds.update (p.wake.ops w.flds.dt) w.list).dt = _ ∧ (w.flds.update (p.wake.ops w.flds.dt) w.list).t = t + p.wake.dt0 ∧
      ∀ s, (w.flds.update (p.wake.ops w.flds.dt) w.list).prop = some s → _
    rw [updated_some h1]
    refine ⟨rfl, h2, by rw [h3, h2], fun s hs => ?_⟩
    obtain ⟨s1, e1, e2⟩ := Option.bind_eq_some_iff.mp hs
    obtain ⟨s2, e3, e4⟩ := Option.bind_eq_some_iff.mp e1
    rw [calc_laser e2, evolve_laser e4, h4 s2 e3]
  clkOther := by
    intro w j hj k hk hkj
    have hj : j < 1 := hj
    have hk : k < 1 := hk
    omega
  clkEvolve := by
    rintro w i hi t dt j hj t' h
    exact h

/-- The worlds of the whole stage and of the second part. -/
def LaterW (p : PStage F) (n : ℕ) (T : ℝ) (w w' : World (NumField ℝ (Option Props))) : Prop :=
  w.n = n ∧ w'.n = n ∧ (∀ i < n, w.bunch i = w'.bunch i) ∧ w.flds.initialized = true ∧ w'.flds.initialized = true ∧
    w.flds.dt = p.wake.dt0 ∧ w'.flds.dt = p.wake.dt0 ∧ w.flds.t = w'.flds.t + T ∧ w.flds.prop = w'.flds.prop

theorem laterW_list {p : PStage F} {n : ℕ} {T : ℝ} {w w' : World (NumField ℝ (Option Props))} (h : LaterW p n T w w') :
    w.list = w'.list := by
  obtain ⟨h1, h2, h3, -⟩ := h
  unfold World.list
  rw [h1, h2]
  exact List.map_congr_left fun i hi => h3 i (List.mem_range.mp hi)

theorem felt_behind (p : PStage F) (L : ℝ) (n : ℕ) (u : Option (Setup × PulseArrays)) {φ φ' : NumField ℝ (Option Props)}
    (h : φ.prop = φ'.prop) :
    ((p.behind L n).elemUsed u).felt φ' = (p.elem.felt φ).map fun f => PField.later f (L / p.wake.k.c) := by
  show (p.wake.behind L).field φ'.prop ++ _ = (p.wake.field φ.prop ++ p.ext).map _
  rw [List.map_append, h]
  congr 1
  unfold Wake.field
  cases φ'.prop with
  | none => rfl
  | some s => rfl

theorem later_cfg {p : PStage F} {L : ℝ} {n₁ n₂ : ℕ} (hc : p.Cut L n₁ n₂) (hm : StrictMono p.f32)
    (u : Option (Setup × PulseArrays)) (opmd opmd' : Bool) {n : ℕ} {dts : List (Option ℝ)} (hl : dts.length = n)
    (hd : ∀ x ∈ dts, x ≠ none) :
    Later (L / p.wake.k.c) (p.elem.cfg opmd n dts [p.wake.dt0]) (((p.behind L n₂).elemUsed u).cfg opmd' n dts [p.wake.dt0])
      (LaterW p n (L / p.wake.k.c)) where
  tFinal := by
    show p.length / p.wake.k.c = (p.length - L) / p.wake.k.c + L / p.wake.k.c
    ring
  nBunch := rfl
  nField := rfl
  nDiag := by
    show 0 < p.nOut
    rw [hc.outs]
    have := hc.first
    omega
  nDiag' := hc.second
  dtDiag := by
    show (p.length - L) / p.wake.k.c / n₂ = p.length / p.wake.k.c / p.nOut
    have h1 : (0 : ℝ) < n₁ := by exact_mod_cast hc.first
    have h2 : (0 : ℝ) < n₂ := by exact_mod_cast hc.second
    have h3 := hc.c.ne'
    have h := hc.even
    rw [hc.outs]
    push_cast
    rw [div_eq_div_iff h1.ne' h2.ne'] at h
    rw [div_div, div_div, div_eq_div_iff (by positivity) (by positivity)]
    linear_combination -p.wake.k.c * h
  pushBefore := rfl
  mono := hm
  mono' := hm
  fixed := by
    intro i hi
    have hi : i < dts.length := by rw [hl]; exact hi
    show dts.getD i none ≠ none
    rw [List.getD_eq_getElem?_getD, List.getElem?_eq_getElem hi]
    exact hd _ (List.getElem_mem hi)
  dtBunch := fun _ _ => rfl
  dtField := fun _ _ => rfl
  evolve := by
    rintro i hi w w' t dt ⟨h1, h2, h3, h4, h5, h6, h7, h8, h9⟩
    refine ⟨h1, h2, fun k hk => ?_, h4, h5, h6, h7, h8, h9⟩
    have hb : ((w.bunch i).evolve p.wake.k.c (p.elem.felt w.flds) (p.sch (w.bunch i).n) (t + L / p.wake.k.c) dt p.pusher).1 =
        ((w'.bunch i).evolve p.wake.k.c (((p.behind L n₂).elemUsed u).felt w'.flds) (p.sch (w'.bunch i).n) t dt p.pusher).1 := by
      rw [felt_behind p L n₂ u h9, evolve_later, h3 i hi]
    show Function.update w.bunch i _ k = Function.update w'.bunch i _ k
    by_cases hki : k = i
    · subst hki
      rw [Function.update_self, Function.update_self]
      exact hb
    · rw [Function.update_of_ne hki, Function.update_of_ne hki]
      exact h3 k hk
  update := by
    intro j hj w w' h
    have hj : j = 0 := by
      have : j < 1 := hj
      omega
    subst hj
    have hlist := laterW_list h
    obtain ⟨h1, h2, h3, h4, h5, h6, h7, h8, h9⟩ := h
    have e1 : w.flds.update (p.wake.ops w.flds.dt) w.list = _ := updated_some h4 w.list
    have e2 : w'.flds.update ((p.wake.behind L).opsUsed u w'.flds.dt) w'.list =
        ⟨w'.flds.dt, true, w'.flds.t + w'.flds.dt, (w'.flds.prop.bind ((p.wake.behind L).evolveProps w'.flds.dt)).bind
          ((p.wake.behind L).calculateProps (w'.flds.t + w'.flds.dt) w'.list)⟩ := by
      unfold NumField.update
      rw [h5]
      rfl
    have ht : w'.flds.t + w'.flds.dt + L / p.wake.k.c = w.flds.t + w.flds.dt := by rw [h8, h6, h7]; ring
    have e3 : (p.wake.behind L).calculateProps (w'.flds.t + w'.flds.dt) w'.list =
        p.wake.calculateProps (w.flds.t + w.flds.dt) w.list := by
      funext s
      rw [calc_behind hc.c.ne', ht, hlist]
    have e4 : (p.wake.behind L).evolveProps w'.flds.dt = p.wake.evolveProps w.flds.dt := by
      funext s
      rw [evolve_behind, h6, h7]
    rw [e3, e4] at e2
    refine ⟨h1, h2, h3, ?_⟩
    show (w.flds.update (p.wake.ops w.flds.dt) w.list).initialized = true ∧
      (w'.flds.update ((p.wake.behind L).opsUsed u w'.flds.dt) w'.list).initialized = true ∧
      (w.flds.update (p.wake.ops w.flds.dt) w.list).dt = _ ∧
      (w'.flds.update ((p.wake.behind L).opsUsed u w'.flds.dt) w'.list).dt = _ ∧
      (w.flds.update (p.wake.ops w.flds.dt) w.list).t =
        (w'.flds.update ((p.wake.behind L).opsUsed u w'.flds.dt) w'.list).t + _ ∧
      (w.flds.update (p.wake.ops w.flds.dt) w.list).prop =
        (w'.flds.update ((p.wake.behind L).opsUsed u w'.flds.dt) w'.list).prop
    rw [e1, e2]
    refine ⟨rfl, rfl, h6, h7, ht.symm, ?_⟩
    rw [h9]

theorem even_cfg {p : PStage F} {L : ℝ} {n₁ n₂ : ℕ} (hc : p.Cut L n₁ n₂) (opmd : Bool) {n : ℕ} {dts : List (Option ℝ)}
    (hl : dts.length = n) (hd : ∀ x ∈ dts, x ∈ p.dtBunch.toList) :
    (p.elem.cfg opmd n dts [p.wake.dt0]).Even (L / p.wake.k.c) ∧
      ∀ i < (p.elem.cfg opmd n dts [p.wake.dt0]).nObj, L / p.wake.k.c + (p.elem.cfg opmd n dts [p.wake.dt0]).per i ≤
        p.length / p.wake.k.c := by
  have h1 : (0 : ℝ) < n₁ := by exact_mod_cast hc.first
  have h2 : (0 : ℝ) < n₂ := by exact_mod_cast hc.second
  have hcc := hc.c
  have heven := hc.even
  rw [div_eq_div_iff h1.ne' h2.ne'] at heven
  set τ : ℝ := p.length / p.wake.k.c / p.nOut with hτ
  have hN : (p.nOut : ℝ) = n₁ + n₂ := by rw [hc.outs]; push_cast; ring
  have hL1 : L / p.wake.k.c = n₁ * τ := by
    rw [hτ, hN]
    field_simp
    linear_combination heven
  have hL2 : (p.length - L) / p.wake.k.c = n₂ * τ := by
    rw [hτ, hN]
    field_simp
    linear_combination -heven
  have hlen : 0 < p.length := hc.left.trans hc.right
  have hτ0 : 0 < τ := by
    rw [hτ, hN]
    positivity
  have hb : ∀ i < n, ∃ d, dts.getD i none = some d ∧ 0 < d ∧ ∃ m : ℕ, τ = m * d := by
    intro i hi
    have hi : i < dts.length := by rw [hl]; exact hi
    obtain ⟨d, e1, e2, e3⟩ := hc.steps _ (hd _ (List.getElem_mem hi))
    refine ⟨d, ?_, e2, e3⟩
    rw [List.getD_eq_getElem?_getD, List.getElem?_eq_getElem hi]
    exact e1
  have hper : ∀ i, (p.elem.cfg opmd n dts [p.wake.dt0]).per i =
      if i < n then (dts.getD i none).getD 0 else if i < n + 1 then [p.wake.dt0].getD (i - n) 0 else τ := fun _ => rfl
  -- every period divides the lengths of both parts
  have hall : ∀ i < (p.elem.cfg opmd n dts [p.wake.dt0]).nObj, 0 < (p.elem.cfg opmd n dts [p.wake.dt0]).per i ∧
      (∃ m : ℕ, L / p.wake.k.c = m * (p.elem.cfg opmd n dts [p.wake.dt0]).per i) ∧
      ∃ m : ℕ, (p.length - L) / p.wake.k.c = m * (p.elem.cfg opmd n dts [p.wake.dt0]).per i := by
    intro i hi
    rw [hper]
    by_cases hi1 : i < n
    · rw [if_pos hi1]
      obtain ⟨d, e1, e2, m, e3⟩ := hb i hi1
      rw [e1]
      refine ⟨e2, ⟨n₁ * m, ?_⟩, n₂ * m, ?_⟩
      · rw [hL1, e3]
        push_cast
        show _ = _ * d
        ring
      · rw [hL2, e3]
        push_cast
        show _ = _ * d
        ring
    · rw [if_neg hi1]
      by_cases hi2 : i < n + 1
      · rw [if_pos hi2]
        have : i - n = 0 := by omega
        rw [this]
        exact hc.fields
      · rw [if_neg hi2]
        exact ⟨hτ0, ⟨n₁, hL1⟩, n₂, hL2⟩
  refine ⟨⟨fun i hi => (hall i hi).1, ?_, fun i hi => (hall i hi).2.1, ?_⟩, fun i hi => ?_⟩
  · intro i hi
    obtain ⟨d, e1, -⟩ := hb i hi
    show dts.getD i none ≠ none
    rw [e1]
    simp
  · intro i hi
    have hi : i < n := hi
    obtain ⟨d, e1, e2, m, e3⟩ := hb i hi
    refine ⟨m, ?_⟩
    rw [hper, if_pos hi, e1]
    exact e3
  · obtain ⟨e1, -, m, e2⟩ := hall i hi
    have hpos : 0 < (p.length - L) / p.wake.k.c := div_pos (by linarith [hc.right]) hcc
    have hm1 : (1 : ℝ) ≤ m := by
      have : m ≠ 0 := by
        rintro rfl
        rw [e2] at hpos
        simp at hpos
      exact_mod_cast Nat.one_le_iff_ne_zero.mpr this
    have hle : (p.elem.cfg opmd n dts [p.wake.dt0]).per i ≤ (p.length - L) / p.wake.k.c := by
      rw [e2]
      nlinarith
    have : p.length / p.wake.k.c = L / p.wake.k.c + (p.length - L) / p.wake.k.c := by ring
    linarith

/-- What a pulse is after a stage: the parameters of its solver and its arrays. -/
noncomputable def PStage.pulseAfter (p : PStage F) (w : World (NumField ℝ (Option Props))) : Option (Setup × PulseArrays) :=
  match p.wake.laser, w.flds.prop.bind Props.laser with
  | some l, some e => some (p.wake.setup l w.flds.dt, e)
  | _, _ => none

theorem reuse_same {s : Setup} (h : 1 ≤ s.nt) (e : PulseArrays) : s.reuse s e = some e := by
  unfold Setup.reuse
  rw [if_neg (by omega)]
  by_cases h1 : 0 < e.nSteps
  · rw [if_pos h1, if_neg (fun h2 => h2.1 rfl), if_neg (not_not.mpr rfl)]
  · rw [if_neg h1]

theorem track_unfold {e : Elem F (NumField ℝ (Option Props))} {opmd : Bool} {fuel : ℕ} {bs : OneOrMany Bunch} {b0 : Bunch}
    {φ : NumField ℝ (Option Props)} {r : OneOrMany (List Bunch)} {w : World (NumField ℝ (Option Props))}
    (h : e.track opmd fuel bs b0 φ = .returned (r, w)) : ∃ dts dtF s, e.dtList bs.toList.length = some dts ∧
      e.dtFields = some dtF ∧ doTracking (e.cfg opmd bs.toList.length dts dtF) fuel (world bs.toList b0 φ) = .returned s ∧
      r = pack (bunchLists bs.toList.length s.snaps) ∧ w = s.w := by
  unfold Elem.track at h
  dsimp only at h
  split at h
  · cases h
  next dts hd =>
  split at h
  · cases h
  next dtF hf =>
  split at h
  next s hs =>
    injection h with h
    injection h with h1 h2
    exact ⟨dts, dtF, s, hd, hf, hs, h1.symm, h2.symm⟩
  all_goals cases h

/-- **C133.** A stage can be divided.  If the bunches and the pulse that leave the first part are tracked through the
second part, then the outputs of every bunch are, together, those of the whole stage, and bunches, wakefield and pulse
at the end are the same. -/
theorem stage_split {p : PStage F} {L : ℝ} {n₁ n₂ : ℕ} (hc : p.Cut L n₁ n₂) (hw : p.wake.IsModel) (hm : StrictMono p.f32)
    (hsch : ∀ n, (p.sch n).Valid n) (hsub : 1 ≤ p.wake.substeps) (opmd opmd₂ : Bool) {fuel₁ fuel₂ : ℕ}
    {bunches bunches₂ : OneOrMany Bunch} {b0 b0' : Bunch} {r₁ r₂ : OneOrMany (List Bunch)}
    {w₁ w₂ : World (NumField ℝ (Option Props))}
    (h₁ : (p.upTo L n₁).track opmd fuel₁ bunches b0 = .returned (r₁, w₁)) (hp : w₁.flds.prop ≠ none)
    (hb : bunches₂.toList = w₁.list)
    (h₂ : (p.behind L n₂).trackUsed ((p.upTo L n₁).pulseAfter w₁) opmd₂ fuel₂ bunches₂ b0' = .returned (r₂, w₂)) :
    ∃ fuel ls₁ ls₂ w, r₁ = pack ls₁ ∧ r₂ = pack ls₂ ∧ ls₁.length = bunches.toList.length ∧
      ls₂.length = bunches.toList.length ∧
      p.track opmd fuel bunches b0 = .returned (pack (List.zipWith (fun a b => a ++ b.tail) ls₁ ls₂), w) ∧
      w.list = w₂.list ∧ w.flds.prop = w₂.flds.prop := by
  have hT : 0 < L / p.wake.k.c := div_pos hc.left hc.c
  have hT2 : 0 < (p.length - L) / p.wake.k.c := div_pos (by linarith [hc.right]) hc.c
  have hd : ∀ len : ℝ, len = L ∨ len = p.length - L ∨ len = p.length →
      Fields.adjustDt p.wake.laser.isSome (len / p.wake.k.c) p.wake.dt0 = some p.wake.dt0 := by
    obtain ⟨h0, ⟨m, hm1⟩, m', hm2⟩ := hc.fields
    rintro len (rfl | rfl | rfl)
    · exact adjust_even _ h0 hT ⟨m, hm1⟩
    · exact adjust_even _ h0 hT2 ⟨m', hm2⟩
    · refine adjust_even _ h0 (div_pos (hc.left.trans hc.right) hc.c) ⟨m + m', ?_⟩
      have : p.length / p.wake.k.c = L / p.wake.k.c + (p.length - L) / p.wake.k.c := by ring
      rw [this, hm1, hm2]
      push_cast
      ring
  have hF : ∀ (e : Elem F (NumField ℝ (Option Props))), e.numFields = [(p.wake.dt0, p.wake.laser.isSome)] →
      e.c = p.wake.k.c → e.length = L ∨ e.length = p.length - L ∨ e.length = p.length → e.dtFields = some [p.wake.dt0] := by
    intro e h1 h2 h3
    unfold Elem.dtFields
    rw [h1, h2]
    simp [hd _ h3]
  -- the first part
  have hu1 : (p.upTo L n₁).track opmd fuel₁ bunches b0 =
      (p.upTo L n₁).elem.track opmd fuel₁ bunches b0 (Wake.start p.wake.dt0) := by
    unfold PStage.track
    show (match Fields.adjustDt p.wake.laser.isSome (L / p.wake.k.c) p.wake.dt0 with | none => _ | some dt => _) = _
    rw [hd L (.inl rfl)]
  rw [hu1] at h₁
  obtain ⟨dts, dtF, s, d1, d2, d3, rfl, rfl⟩ := track_unfold h₁
  rw [hF (p.upTo L n₁).elem rfl rfl (.inl rfl)] at d2
  cases d2
  have d1 : p.elem.dtList bunches.toList.length = some dts := d1
  -- the second part
  have hu2 : (p.behind L n₂).trackUsed ((p.upTo L n₁).pulseAfter s.w) opmd₂ fuel₂ bunches₂ b0' =
      ((p.behind L n₂).elemUsed ((p.upTo L n₁).pulseAfter s.w)).track opmd₂ fuel₂ bunches₂ b0' (Wake.start p.wake.dt0) := by
    unfold PStage.trackUsed
    show (match Fields.adjustDt p.wake.laser.isSome ((p.length - L) / p.wake.k.c) p.wake.dt0 with
      | none => _ | some dt => _) = _
    rw [hd _ (.inr (.inl rfl))]
  rw [hu2] at h₂
  obtain ⟨dts', dtF', s', d1', d2', d3', rfl, rfl⟩ := track_unfold h₂
  rw [hF ((p.behind L n₂).elemUsed ((p.upTo L n₁).pulseAfter s.w)) rfl rfl (.inr (.inl rfl))] at d2'
  cases d2'
  set n := bunches.toList.length with hn
  have hwn : s.w.n = n := by
    obtain ⟨hrep, -⟩ := snapshots_replay _ _ _ _ d3
    rw [hrep, replay_n]
    rfl
  have hn2 : bunches₂.toList.length = n := by
    rw [hb]
    unfold World.list
    rw [List.length_map, List.length_range, hwn]
  rw [hn2] at d1' d3'
  have d1' : p.elem.dtList n = some dts' := d1'
  rw [d1] at d1'
  cases d1'
  have hmem : dts.length = n ∧ ∀ x ∈ dts, x ∈ p.dtBunch.toList := by
    unfold Elem.dtList at d1
    have hdb : p.elem.dtBunch = p.dtBunch := rfl
    rw [hdb] at d1
    cases hx : p.dtBunch with
    | one d =>
      rw [hx] at d1
      cases d1
      refine ⟨List.length_replicate, fun x hx => ?_⟩
      rw [List.eq_of_mem_replicate hx]
      exact List.mem_singleton.mpr rfl
    | many l =>
      rw [hx] at d1
      dsimp only at d1
      split_ifs at d1 with h1
      cases d1
      exact ⟨not_not.mp h1, fun x hx => hx⟩
  have hdn : ∀ x ∈ dts, x ≠ none := by
    intro x hx
    obtain ⟨d, rfl, -⟩ := hc.steps x (hmem.2 x hx)
    simp
  obtain ⟨he, hTe⟩ := even_cfg hc opmd hmem.1 hmem.2
  have hlater := later_cfg hc hm ((p.upTo L n₁).pulseAfter s.w) opmd opmd₂ hmem.1 hdn
  have d3 : doTracking ((p.elem.cfg opmd n dts [p.wake.dt0]).part (L / p.wake.k.c) n₁) fuel₁
      (world bunches.toList b0 (Wake.start p.wake.dt0)) = .returned s := d3
  have hdiag : ((p.elem.cfg opmd n dts [p.wake.dt0]).part (L / p.wake.k.c) n₁).dtDiag =
      (p.elem.cfg opmd n dts [p.wake.dt0]).dtDiag := by
    show L / p.wake.k.c / n₁ = p.length / p.wake.k.c / p.nOut
    have h1 : (0 : ℝ) < n₁ := by exact_mod_cast hc.first
    have h2 : (0 : ℝ) < n₂ := by exact_mod_cast hc.second
    have h3 := hc.c.ne'
    have h := hc.even
    rw [hc.outs]
    push_cast
    rw [div_eq_div_iff h1.ne' h2.ne'] at h
    rw [div_div, div_div, div_eq_div_iff (by positivity) (by positivity)]
    linear_combination p.wake.k.c * h
  have hstart : ∀ bs, (Wake.start p.wake.dt0).update (p.wake.ops p.wake.dt0) bs =
      ⟨p.wake.dt0, true, 0, (p.wake.initProps p.wake.dt0).bind (p.wake.calculateProps 0 bs)⟩ :=
    fun bs => updated_none (dt := 0) _ rfl bs
  obtain ⟨fuel, x, l, l', g1, g2, g3, g4, g5⟩ := split_tracking (Fresh := FreshW p) (Clk := ClkW p n) hlater hT hc.first he hTe
    hdiag (fresher hw hsch opmd n dts) (by
      intro j hj
      show ClkW p n ⟨n, _, (Wake.start p.wake.dt0).update (p.wake.ops p.wake.dt0) (world bunches.toList b0 _).list⟩ j 0
      rw [hstart]
      refine ⟨rfl, rfl, rfl, rfl, fun r hr => ?_⟩
      obtain ⟨r1, e1, e2⟩ := Option.bind_eq_some_iff.mp hr
      rw [calc_laser e2, init_laser e1]) d3 (by
      intro hfr
      obtain ⟨f1, f2, f3, f4, f5, f6⟩ := hfr 0 Nat.zero_lt_one
      have hlist : (world bunches₂.toList b0' (Wake.start p.wake.dt0)).list = s.w.list := by rw [world_list, hb]
      show LaterW p n _ s.w ⟨bunches₂.toList.length, fun i => bunches₂.toList.getD i b0', (Wake.start p.wake.dt0).update
        ((p.wake.behind L).opsUsed ((p.upTo L n₁).pulseAfter s.w) p.wake.dt0)
        (world bunches₂.toList b0' (Wake.start p.wake.dt0)).list⟩
      rw [hlist, updated_none (dt := 0) _ rfl]
      refine ⟨hwn, hn2, fun i hi => ?_, f3, rfl, f4, rfl, ?_, ?_⟩
      · dsimp only
        rw [hb]
        unfold World.list
        rw [List.getD_eq_getElem?_getD, List.getElem?_map, List.getElem?_range (by rw [hwn]; exact hi)]
        rfl
      · rw [f5]
        exact (zero_add _).symm
      · cases hq : s.w.flds.prop with
        | none => exact absurd hq hp
        | some q =>
          have hfix : p.wake.calculateProps (L / p.wake.k.c) s.w.list q = some q := by
            have : s.w.flds.prop.bind (p.wake.calculateProps s.w.flds.t s.w.list) = s.w.flds.prop := f1
            rw [hq, Option.bind_some, f5] at this
            exact this
          have hl := f6 q hq
          have hinit : ∃ q', (p.wake.behind L).initUsed ((p.upTo L n₁).pulseAfter s.w) p.wake.dt0 = some q' ∧
              q'.laser = q.laser := by
            unfold Wake.initUsed PStage.pulseAfter
            show ∃ q', (match p.wake.laser, (match p.wake.laser, s.w.flds.prop.bind Props.laser with
              | some l, some e => some (p.wake.setup l s.w.flds.dt, e)
              | _, _ => none) with
              | some p', some (old, e) => ((p.wake.setup p' p.wake.dt0).reuse old e).map fun e' => (⟨some e', 0, Wake.zeros⟩ : Props)
              | _, _ => (p.wake.behind L).initProps p.wake.dt0) = some q' ∧ _
            rw [hq, Option.bind_some, f4]
            cases hw1 : p.wake.laser with
            | none =>
              have hnone : q.laser = none := by
                rw [hw1] at hl
                exact Option.isSome_eq_false_iff.mp hl |> Option.isNone_iff_eq_none.mp
              refine ⟨⟨none, 0, Wake.zeros⟩, ?_, hnone.symm⟩
              unfold Wake.initProps
              have : (p.wake.behind L).laser = none := hw1
              rw [this]
            | some pl =>
              rw [hw1] at hl
              obtain ⟨e, he⟩ := Option.isSome_iff_exists.mp hl
              rw [he]
              dsimp only
              rw [reuse_same hsub]
              exact ⟨_, rfl, rfl⟩
          obtain ⟨q', hq1, hq2⟩ := hinit
          show some q = ((p.wake.behind L).initUsed ((p.upTo L n₁).pulseAfter s.w) p.wake.dt0).bind
            ((p.wake.behind L).calculateProps 0 s.w.list)
          rw [hq1, Option.bind_some, calc_behind hc.c.ne', zero_add, ← hfix]
          unfold Wake.calculateProps
          dsimp only
          rw [hq2]) d3'
  have hu : p.track opmd fuel bunches b0 = p.elem.track opmd fuel bunches b0 (Wake.start p.wake.dt0) := by
    unfold PStage.track
    show (match Fields.adjustDt p.wake.laser.isSome (p.length / p.wake.k.c) p.wake.dt0 with | none => _ | some dt => _) = _
    rw [hd _ (.inr (.inr rfl))]
  refine ⟨fuel, bunchLists n s.snaps, bunchLists n s'.snaps, x.w, rfl, by rw [hn2], by simp [bunchLists],
    by simp [bunchLists], ?_, laterW_list g2, g2.2.2.2.2.2.2.2.2⟩
  rw [hu]
  unfold Elem.track
  dsimp only
  rw [← hn, d1]
  dsimp only
  rw [hF p.elem rfl rfl (.inr (.inr rfl))]
  dsimp only
  rw [g1]
  dsimp only
  congr 2
  congr 1
  rw [g3, g4]
  unfold bunchLists
  rw [List.zipWith_map, List.zipWith_self]
  refine List.map_congr_left fun i hi => ?_
  rw [List.map_append, List.map_cons, List.tail_cons]
  congr 1
  exact forall₂_map g5 fun a b hab => hab.2.2.1 i (List.mem_range.mp hi)

/-! ### An instance -/

/-- A stage with an evolving laser, with four updates, two outputs and eight steps. -/
noncomputable def cutStage (sch : ℕ → Sched) : PStage ℝ :=
  { demoStage true sch with dtBunch := .one (some (1 / 8)), wake := { demoWake true with dzFields := some (1 / 4) } }

theorem cut_model (sch : ℕ → Sched) : (cutStage sch).wake.IsModel := .inl ⟨_, _, rfl⟩

theorem cut_works (sch : ℕ → Sched) : (cutStage sch).wake.Works :=
  ⟨(demo_works true).solve, (demo_works true).laser⟩

/-- It can be cut in the middle. -/
theorem cut_cut (sch : ℕ → Sched) : (cutStage sch).Cut (1 / 2) 1 1 where
  c := by norm_num [cutStage, demoWake]
  left := by norm_num
  right := by norm_num [cutStage, demoStage]
  first := Nat.one_pos
  second := Nat.one_pos
  outs := rfl
  even := by norm_num [cutStage, demoStage]
  steps := by
    intro x hx
    rw [List.mem_singleton.mp hx]
    exact ⟨1 / 8, rfl, by norm_num, 4, by norm_num [cutStage, demoStage, demoWake]⟩
  fields := by
    refine ⟨?_, ⟨2, ?_⟩, 2, ?_⟩ <;> norm_num [cutStage, demoStage, demoWake, Wake.dt0]

theorem cut_ok (sch : ℕ → Sched) {L : ℝ} (hL : 0 < L) : ((cutStage sch).upTo L 1).elem.Ok where
  length := hL
  c := by norm_num [PStage.elem, PStage.upTo, cutStage, demoWake]
  steps := by
    intro d hd
    have hd : some d = some (1 / 8 : ℝ) := List.mem_singleton.mp hd
    cases hd
    norm_num
  auto := fun b => lt_of_lt_of_le (by norm_num) (demo_auto true sch b)
  fields := by
    intro x hx
    rw [List.mem_singleton.mp hx]
    norm_num [PStage.upTo, cutStage, Wake.dt0, demoWake]
  mono := monotone_id
  sep := by
    show L / 1 < L / 1 + L / 1 / ((1 : ℕ) : ℝ)
    norm_num
    exact hL

/-- Both parts of the stage can be used to track a bunch, one after the other, and this is the same as the whole
stage. -/
example (sch : ℕ → Sched) (hsch : ∀ n, (sch n).Valid n) (b : Bunch) (hb : Ready b.n b) : ∃ fuel fuel₁ fuel₂ l₁ l₂ w₁ w₂ w,
    ((cutStage sch).upTo (1 / 2) 1).track false fuel₁ (.one b) b = .returned (.one l₁, w₁) ∧
    ((cutStage sch).behind (1 / 2) 1).trackUsed (((cutStage sch).upTo (1 / 2) 1).pulseAfter w₁) false fuel₂
      (.one (w₁.bunch 0)) b = .returned (.one l₂, w₂) ∧
    (cutStage sch).track false fuel (.one b) b = .returned (.one (l₁ ++ l₂.tail), w) ∧ w.flds.prop = w₂.flds.prop := by
  have hok := cut_ok sch (L := 1 / 2) (by norm_num)
  have hupd : Fields.adjustDt true (1 / 2 / 1 : ℝ) (1 / 4 / 1) = some (1 / 4 / 1) :=
    adjust_even true (by norm_num) (by norm_num) ⟨2, by norm_num⟩
  obtain ⟨fuel₁, ⟨r₁, w₁⟩, h₁⟩ : ∃ fuel r, ((cutStage sch).upTo (1 / 2) 1).track false fuel (.one b) b = .returned r := by
    unfold PStage.track
    have : ((cutStage sch).upTo (1 / 2) 1).wake.dtUpdate ((cutStage sch).upTo (1 / 2) 1).length = some (1 / 4 / 1) := hupd
    rw [this]
    exact track_returns hok strictMono_id Nat.one_pos (δ := 1 / 5) (by norm_num) (demo_auto true sch) _
      (by intro l hl; cases hl) false b _
  obtain ⟨dt, N, B, h, -, -, -, -, -, -, -, h7⟩ := stage_history (p := (cutStage sch).upTo (1 / 2) 1) (cut_works sch) hok
    strictMono_id (Or.inr rfl) hsch (D := 1 / 5) (by
      intro d hd
      have hd : some d = some (1 / 8 : ℝ) := List.mem_singleton.mp hd
      cases hd
      norm_num) (by intro hd; cases (List.mem_singleton.mp hd)) (by norm_num) false fuel₁ (.one b)
    (by intro x hx; rw [List.mem_singleton.mp hx]; exact hb) b h₁
  have hok₂ : (((cutStage sch).behind (1 / 2) 1).elemUsed (((cutStage sch).upTo (1 / 2) 1).pulseAfter w₁)).Ok :=
    { hok with
      length := by
        show (0 : ℝ) < 1 - 1 / 2
        norm_num
      sep := by
        show (1 - 1 / 2 : ℝ) / 1 < (1 - 1 / 2) / 1 + (1 - 1 / 2) / 1 / ((1 : ℕ) : ℝ)
        norm_num }
  obtain ⟨fuel₂, ⟨r₂, w₂⟩, h₂⟩ : ∃ fuel r, ((cutStage sch).behind (1 / 2) 1).trackUsed
      (((cutStage sch).upTo (1 / 2) 1).pulseAfter w₁) false fuel (.one (w₁.bunch 0)) b = .returned r := by
    unfold PStage.trackUsed
    have : ((cutStage sch).behind (1 / 2) 1).wake.dtUpdate ((cutStage sch).behind (1 / 2) 1).length = some (1 / 4 / 1) := by
      show Fields.adjustDt true ((1 - 1 / 2) / 1 : ℝ) (1 / 4 / 1) = some (1 / 4 / 1)
      rw [← hupd]
      norm_num
    rw [this]
    exact track_returns hok₂ strictMono_id Nat.one_pos (δ := 1 / 5) (by norm_num) (demo_auto true sch) _
      (by intro l hl; cases hl) false b _
  have hlist : w₁.list = [w₁.bunch 0] := by
    obtain ⟨dts, dtF, s, -, -, d3, -, rfl⟩ : ∃ dts dtF s, _ ∧ _ ∧ _ ∧ _ ∧ _ := by
      unfold PStage.track at h₁
      have : ((cutStage sch).upTo (1 / 2) 1).wake.dtUpdate ((cutStage sch).upTo (1 / 2) 1).length = some (1 / 4 / 1) := hupd
      rw [this] at h₁
      exact track_unfold h₁
    obtain ⟨hrep, -⟩ := snapshots_replay _ _ _ _ d3
    have hn : s.w.n = 1 := by
      rw [hrep, replay_n]
      rfl
    unfold World.list
    rw [hn]
    rfl
  obtain ⟨fuel, ls₁, ls₂, w, e1, e2, e3, e4, e5, -, e7⟩ := stage_split (cut_cut sch) (cut_model sch) strictMono_id hsch
    (by norm_num [cutStage, demoWake]) false false h₁ (by rw [h7]; simp) (bunches₂ := .one (w₁.bunch 0)) hlist.symm h₂
  match ls₁, ls₂, e3, e4 with
  | [l₁], [l₂], _, _ =>
    subst e1 e2
    exact ⟨fuel, fuel₁, fuel₂, l₁, l₂, w₁, w₂, w, h₁, h₂, e5, e7⟩

end WakeT.Stage
