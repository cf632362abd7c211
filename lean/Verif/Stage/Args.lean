import Verif.Stage.Props
import Verif.Base.Tactics

/-! # Arguments of plasma stages, ramps and lenses (C141, C142)

`wake_t/beamline_elements/plasma_stage.py`, `plasma_ramp.py`, `active_plasma_lens.py`: what the constructors do with their arguments.
Exceptions are values.  Fields (`Φ`) and the keyword arguments of wakefield models (`π`) are arbitrary, and so is what the classes of wakefield models
make of them. -/

set_option linter.unusedSectionVars false

namespace WakeT.Stage

open Bunch (Bunch)
open CSR (linspace)

/-! ### Model -/

/-- Exceptions of the constructors and of the automatic step (plasma_stage.py 127, 139, 145, 150, plasma_ramp.py 156, active_plasma_lens.py 106). -/
inductive ArgErr
  | valueError
  | typeError
  deriving DecidableEq

/-- A Python function of the position, which can be called with a number and with an array (plasma_stage.py 121, 124, 148, simple_blowout.py 43).  Called with
an array it returns an array or a number. -/
structure PyFun where
  scalar : ℝ → Except ArgErr ℝ
  array : List ℝ → Except ArgErr (List ℝ ⊕ ℝ)

/-- The function made of numpy operations only, which acts element by element (as plasma_ramp.py 19-38). -/
def PyFun.vec (f : ℝ → ℝ) : PyFun := ⟨fun z => .ok (f z), fun l => .ok (.inl (l.map f))⟩

/-- The argument `density` (plasma_stage.py 90, active_plasma_lens.py 91). -/
inductive DensityArg
  | none
  | int (n : ℤ)
  | float (n : ℝ)
  | fn (f : PyFun)
  | other

/-- `_get_density_profile` (plasma_stage.py 118-128).  An integer is not an instance of `float`. -/
def getDensity : DensityArg → Except ArgErr PyFun
  | .float n => .ok (.vec fun _ => n)
  | .fn f => .ok f
  | _ => .error .valueError

/-- The argument `wakefield_model` (plasma_stage.py 91). -/
inductive ModelArg (Φ : Type)
  | none
  | field (f : Φ)
  | name (s : String)

/-- Keys of `wakefield_models` (plasma_stage.py 16-22). -/
def modelNames : List String := ["simple_blowout", "custom_blowout", "focusing_blowout", "cold_fluid_1d", "quasistatic_2d"]

/-- What the code uses from other modules: the classes of the wakefield models (plasma_stage.py 16-22, 137) and `LinearBThetaField`
(active_plasma_lens.py 111). -/
structure Classes (Φ π : Type) where
  model : String → PyFun → π → Except ArgErr Φ
  bTheta : ℝ → Φ

variable {Φ π : Type}

/-- `_get_wakefield` (plasma_stage.py 130-140). -/
def getWakefield (c : Classes Φ π) (density : PyFun) (params : π) : ModelArg Φ → Except ArgErr (Option Φ)
  | .none => .ok Option.none
  | .field f => .ok (some f)
  | .name s => if s ∈ modelNames then (c.model s density params).map some else .error .valueError

/-- Attributes of a stage that depend on the arguments above (plasma_stage.py 100-106); the others are those of `FieldElement`. -/
structure StageObj (Φ : Type) where
  density : PyFun
  wakefield : Option Φ
  fields : List Φ

/-- `PlasmaStage.__init__` (plasma_stage.py 87-116). -/
def stageInit (c : Classes Φ π) (density : DensityArg) (model : ModelArg Φ) (external : List Φ) (params : π) : Except ArgErr (StageObj Φ) := do
  let d ← getDensity density
  let w ← getWakefield c d params model
  .ok ⟨d, w, w.toList ++ external⟩

/-- `PlasmaStage._get_optimized_dt` (plasma_stage.py 142-155) for any density function: `max` of a number raises.
Simplified: an empty array, for which `max` would raise, does not occur. -/
noncomputable def stageAuto (k : Const) (density : PyFun) (length : ℝ) (b : Bunch) : Except ArgErr Dt :=
  match minGamma b with
  | none => .error .valueError
  | some g =>
    match density.array ((List.range 100).map (linspace 0 length 100)) with
    | .error e => .error e
    | .ok (.inr _) => .error .typeError
    | .ok (.inl l) =>
      let wp := √(l.max?.getD 0 * k.e ^ 2 / (k.me * k.eps0))
      let maxKx := (k.me / (2 * k.e * k.c)) * wp ^ 2
      .ok (period √|b.qSpecies / b.mSpecies * k.c * maxKx / g|)

/-- A value that may be `None` in an arithmetic expression (plasma_ramp.py 22-23). -/
def need (x : Option ℝ) : Except ArgErr ℝ := match x with | some a => .ok a | none => .error .typeError

/-- Keyword arguments of a ramp profile (plasma_ramp.py 19-20, 158-161). -/
structure ProfileArgs where
  decay : Option ℝ
  top : Option ℝ
  down : Option ℝ
  position : ℝ

/-- `inverse_square_profile` (plasma_ramp.py 19-23). -/
noncomputable def inverseSquareA (a : ProfileArgs) (z : ℝ) : Except ArgErr ℝ := do
  let l ← match a.decay with
    | some l => .ok l
    | none => do let t ← need a.top; let d ← need a.down; .ok (a.position / (√(t / d) - 1))
  let t ← need a.top
  .ok (t / (1 + z / l) ^ 2)

/-- `exponential_profile` (plasma_ramp.py 26-30). -/
noncomputable def exponentialA (a : ProfileArgs) (z : ℝ) : Except ArgErr ℝ := do
  let l ← match a.decay with
    | some l => .ok l
    | none => do let t ← need a.top; let d ← need a.down; .ok (a.position / Real.log (t / d))
  let t ← need a.top
  .ok (t * Real.exp (-z / l))

/-- `gaussian_profile` (plasma_ramp.py 33-38). -/
noncomputable def gaussianA (a : ProfileArgs) (z : ℝ) : Except ArgErr ℝ := do
  let l ← match a.decay with
    | some l => .ok l
    | none => do let t ← need a.top; let d ← need a.down; .ok (a.position / √(2 * Real.log (t / d)))
  let t ← need a.top
  .ok (t * Real.exp (-z ^ 2 / (2 * l ^ 2)))

/-- `ramp_profiles` (plasma_ramp.py 41-45). -/
noncomputable def profilesA : List (String × (ProfileArgs → ℝ → Except ArgErr ℝ)) :=
  [("inverse_square", inverseSquareA), ("exponential", exponentialA), ("gaussian", gaussianA)]

/-- `PlasmaRamp.__init__` and `ramp_profile` for a named profile (plasma_ramp.py 147-180), called with a number: the error of the constructor, or the
density. -/
noncomputable def rampA (length : ℝ) (profile rampType : String) (decay top down position : Option ℝ) : Except ArgErr (ℝ → Except ArgErr ℝ) :=
  match profilesA.lookup profile with
  | none => .error .valueError
  | some f => .ok fun z => f ⟨decay, top, down, position.getD length⟩ (if rampType = "upramp" then length - z else z)

/-- `ActivePlasmaLens.__init__` (active_plasma_lens.py 86-123). -/
def lensInit (c : Classes Φ π) (foc : ℝ) (wakefields : Bool) (density : DensityArg) (model : ModelArg Φ) (params : π) :
    Except ArgErr (StageObj Φ) :=
  let model := if wakefields then model else .none
  match density, wakefields with
  | .none, true => .error .valueError
  | .none, false => stageInit c (.float 0) model [c.bTheta (-foc)] params
  | density, _ => stageInit c density model [c.bTheta (-foc)] params

/-- `ActivePlasmaLens._get_optimized_dt` (active_plasma_lens.py 125-138). -/
noncomputable def lensAuto (k : Const) (wakefields : Bool) (foc : ℝ) (density : PyFun) (length : ℝ) (b : Bunch) : Except ArgErr Dt :=
  if wakefields then stageAuto k density length b else
  match minGamma b with
  | none => .error .valueError
  | some g => .ok (period √|b.qSpecies / b.mSpecies * k.c * foc / g|)

/-! ### Specification -/

/-- A result of `_get_optimized_dt` without an exception. -/
def Dt.toExcept : Dt → Except ArgErr Dt
  | .empty => .error .valueError
  | d => .ok d

theorem period_toExcept (w : ℝ) : (period w).toExcept = .ok (period w) := by
  unfold period
  by_cases h : w = 0
  · rw [if_pos h]; rfl
  · rw [if_neg h]; rfl

/-! ### C141: a stage with a number or a function -/

/-- **C141.** A number given as density is the same as the function with this value everywhere, whatever the wakefield and the external fields. -/
theorem number_is_function (c : Classes Φ π) (n : ℝ) (model : ModelArg Φ) (external : List Φ) (params : π) :
    stageInit c (.float n) model external params = stageInit c (.fn (.vec fun _ => n)) model external params := rfl

/-- **C141.** The automatic step with a function that acts element by element is the one of `stageDt`. -/
theorem auto_of_function (k : Const) (f : ℝ → ℝ) (L : ℝ) (b : Bunch) : stageAuto k (.vec f) L b = (stageDt k f L b).toExcept := by
  have hm : ((List.range 100).map fun j => f (linspace 0 L 100 j)) = ((List.range 100).map (linspace 0 L 100)).map f := by
    rw [List.map_map]; rfl
  unfold stageAuto stageDt
  cases minGamma b with
  | none => rfl
  | some g =>
    dsimp only
    rw [hm, period_toExcept]
    rfl

/-- **C141.** The fields of a stage are its wakefield (if there is one) and the external fields, in this order; the wakefield is the field that is given, or
is made by the model of that name from the density and the keyword arguments. -/
theorem stage_fields (c : Classes Φ π) {density : DensityArg} {model : ModelArg Φ} {external : List Φ} {params : π} {s : StageObj Φ}
    (h : stageInit c density model external params = .ok s) :
    ((∃ n, density = .float n ∧ s.density = .vec fun _ => n) ∨ density = .fn s.density) ∧
    ((model = .none ∧ s.wakefield = none ∧ s.fields = external) ∨
      ∃ w, s.wakefield = some w ∧ s.fields = w :: external ∧
        (model = .field w ∨ ∃ name ∈ modelNames, model = .name name ∧ c.model name s.density params = .ok w)) := by
  unfold stageInit at h
  cases hd : getDensity density with
  | error e => rw [hd] at h; cases h
  | ok d =>
    rw [hd] at h
    have h' : (getWakefield c d params model).bind (fun w => .ok ⟨d, w, w.toList ++ external⟩) = Except.ok s := h
    cases hw : getWakefield c d params model with
    | error e => rw [hw] at h'; cases h'
    | ok w =>
      rw [hw] at h'
      cases h'
      constructor
      · cases density with
        | float n => cases hd; exact .inl ⟨n, rfl, rfl⟩
        | fn f => cases hd; exact .inr rfl
        | none => cases hd
        | int n => cases hd
        | other => cases hd
      · cases model with
        | none => cases hw; exact .inl ⟨rfl, rfl, rfl⟩
        | field f => cases hw; exact .inr ⟨f, rfl, rfl, .inl rfl⟩
        | name n =>
          unfold getWakefield at hw
          dsimp only at hw
          by_cases hn : n ∈ modelNames
          · rw [if_pos hn] at hw
            cases hc : c.model n d params with
            | error e => rw [hc] at hw; cases hw
            | ok f => rw [hc] at hw; cases hw; exact .inr ⟨f, rfl, rfl, .inr ⟨n, hn, rfl, hc⟩⟩
          · rw [if_neg hn] at hw; cases hw

/-- **C141.** A stage is made from a floating point number or a function as density, and from no wakefield model, a field, or the name of one of the five models (if its class
accepts the keyword arguments); from anything else it is not. -/
theorem stage_accepts (c : Classes Φ π) (density : DensityArg) (model : ModelArg Φ) (external : List Φ) (params : π) :
    (∃ s, stageInit c density model external params = .ok s) ↔
      ∃ d, ((∃ n, density = .float n ∧ d = .vec fun _ => n) ∨ density = .fn d) ∧
        (model = .none ∨ (∃ f, model = .field f) ∨ ∃ name ∈ modelNames, ∃ w, model = .name name ∧ c.model name d params = .ok w) := by
  constructor
  · rintro ⟨s, h⟩
    obtain ⟨h1, h2⟩ := stage_fields c h
    refine ⟨s.density, h1, ?_⟩
    rcases h2 with ⟨h2, _⟩ | ⟨w, _, _, h2 | ⟨name, hn, h2, h3⟩⟩
    · exact .inl h2
    · exact .inr (.inl ⟨w, h2⟩)
    · exact .inr (.inr ⟨name, hn, w, h2, h3⟩)
  · rintro ⟨d, h1, h2⟩
    have hd : getDensity density = .ok d := by
      rcases h1 with ⟨n, rfl, rfl⟩ | rfl <;> rfl
    have hw : ∃ w, getWakefield c d params model = .ok w := by
      rcases h2 with rfl | ⟨f, rfl⟩ | ⟨name, hn, w, rfl, h3⟩
      · exact ⟨_, rfl⟩
      · exact ⟨_, rfl⟩
      · refine ⟨some w, ?_⟩
        unfold getWakefield
        dsimp only
        rw [if_pos hn, h3]
        rfl
    obtain ⟨w, hw⟩ := hw
    refine ⟨⟨d, w, w.toList ++ external⟩, ?_⟩
    unfold stageInit
    rw [hd]
    show (getWakefield c d params model).bind _ = _
    rw [hw]
    rfl

/-- **C141.** The density of a ramp with a named profile is defined at every position exactly if the name is one of three, the density at the top is given, and the
decay length or the density at the bottom is given; it is then the density of `ramp`. -/
theorem ramp_defined (L : ℝ) (profile rampType : String) (decay top down position : Option ℝ) :
    (∃ f : ℝ → ℝ, rampA L profile rampType decay top down position = .ok fun z => .ok (f z)) ↔
      profile ∈ ["inverse_square", "exponential", "gaussian"] ∧ top.isSome ∧ (decay.isSome ∨ down.isSome) := by
  have key : ∀ (fA : ProfileArgs → ℝ → Except ArgErr ℝ), fA ∈ [inverseSquareA, exponentialA, gaussianA] →
      ∀ z, (∃ v, fA ⟨decay, top, down, position.getD L⟩ z = .ok v) ↔ top.isSome ∧ (decay.isSome ∨ down.isSome) := by
    intro fA hf z
    simp only [List.mem_cons, List.mem_nil_iff, or_false] at hf
    rcases hf with rfl | rfl | rfl <;> cases decay <;> cases top <;> cases down <;>
      simp [inverseSquareA, exponentialA, gaussianA, need, bind, Except.bind]
  have fwd : ∀ fA : ProfileArgs → ℝ → Except ArgErr ℝ, fA ∈ [inverseSquareA, exponentialA, gaussianA] → profilesA.lookup profile = some fA →
      ((∃ f : ℝ → ℝ, rampA L profile rampType decay top down position = .ok fun z => .ok (f z)) ↔ top.isSome ∧ (decay.isSome ∨ down.isSome)) := by
    intro fA hf hl
    unfold rampA
    rw [hl]
    constructor
    · rintro ⟨f, h⟩
      have h0 := congrFun (Except.ok.inj h) 0
      exact (key fA hf _).mp ⟨_, h0⟩
    · intro h
      have h1 : ∀ z, ∃ v, fA ⟨decay, top, down, position.getD L⟩ (if rampType = "upramp" then L - z else z) = .ok v := fun z => (key fA hf _).mpr h
      choose f hf' using h1
      exact ⟨f, congrArg Except.ok (funext hf')⟩
  by_cases h1 : profile = "inverse_square"
  · subst h1; rw [fwd inverseSquareA (by simp) rfl]; simp
  by_cases h2 : profile = "exponential"
  · subst h2; rw [fwd exponentialA (by simp) rfl]; simp
  by_cases h3 : profile = "gaussian"
  · subst h3; rw [fwd gaussianA (by simp) rfl]; simp
  have hl : profilesA.lookup profile = none := by
    simp [profilesA, List.lookup, beq_eq_false_iff_ne.mpr h1, beq_eq_false_iff_ne.mpr h2, beq_eq_false_iff_ne.mpr h3]
  constructor
  · rintro ⟨f, h⟩
    unfold rampA at h
    rw [hl] at h
    cases h
  · rintro ⟨h, _⟩
    simp [h1, h2, h3] at h

/-- **C141.** The density of a ramp is the one of C46, if it is defined. -/
theorem ramp_density (L : ℝ) (profile rampType : String) (decay : Option ℝ) (top down : ℝ) (position : Option ℝ) (g : ℝ → ℝ)
    (h : ramp L profile rampType decay top down position = some g) :
    rampA L profile rampType decay (some top) (some down) position = .ok fun z => .ok (g z) := by
  unfold ramp at h
  by_cases h1 : profile = "inverse_square"
  · subst h1; cases h; cases decay <;> rfl
  by_cases h2 : profile = "exponential"
  · subst h2; cases h; cases decay <;> rfl
  by_cases h3 : profile = "gaussian"
  · subst h3; cases h; cases decay <;> rfl
  have hl : profiles.lookup profile = none := by
    simp [profiles, List.lookup, beq_eq_false_iff_ne.mpr h1, beq_eq_false_iff_ne.mpr h2, beq_eq_false_iff_ne.mpr h3]
  rw [hl] at h
  cases h

/-- **C141, violated.** Documented arguments that raise: an integer as density; the model `'blowout'`; the profile `'inverse square'`; a decay length without the density at the
top; and, with the automatic step, a function that returns a number (whatever the stage, the bunch and the numbers). -/
theorem documented_violated (c : Classes Φ π) (k : Const) :
    (∀ (n : ℤ) (model : ModelArg Φ) ext p, stageInit c (.int n) model ext p = .error .valueError) ∧
    (∀ (n : ℝ) ext p, stageInit c (.float n) (.name "blowout") ext p = .error .valueError) ∧
    (∀ L rampType decay top down pos, rampA L "inverse square" rampType decay top down pos = .error .valueError) ∧
    (∀ L rampType l down pos, ∀ profile ∈ ["inverse_square", "exponential", "gaussian"],
      ∃ f, rampA L profile rampType (some l) none down pos = .ok f ∧ ∀ z, f z = .error .typeError) ∧
    ∀ (f : ℝ → ℝ) (a : List ℝ → ℝ) (L : ℝ) (b : Bunch), 0 < b.n → stageAuto k ⟨fun z => .ok (f z), fun l => .ok (.inr (a l))⟩ L b = .error .typeError := by
  refine ⟨fun _ _ _ _ => rfl, fun _ _ _ => rfl, fun _ _ _ _ _ _ => ?_, ?_, ?_⟩
  · have hl : profilesA.lookup "inverse square" = none := by simp [profilesA, List.lookup]
    unfold rampA
    rw [hl]
  · intro L rampType l down pos profile hp
    simp only [List.mem_cons, List.mem_nil_iff, or_false] at hp
    rcases hp with rfl | rfl | rfl <;> exact ⟨_, rfl, fun _ => rfl⟩
  · intro f a L b hb
    obtain ⟨g, hg⟩ : ∃ g, minGamma b = some g := by
      unfold minGamma
      obtain ⟨n, hn⟩ := Nat.exists_eq_succ_of_ne_zero hb.ne'
      rw [hn, List.range_succ_eq_map, List.map_cons, List.min?_cons']
      exact ⟨_, rfl⟩
    unfold stageAuto
    rw [hg]

/-! ### C142: lenses -/

/-- The arguments that are accepted as the density of a lens. -/
def DensityArg.Accepted : DensityArg → Prop
  | .none => True
  | .float _ => True
  | .fn _ => True
  | _ => False

/-- **C142.** A lens without wakefields has the field of the lens only, whatever the density, the wakefield model and its arguments; so does its automatic step not depend on the
plasma. -/
theorem lens_no_plasma (c : Classes Φ π) (k : Const) (foc : ℝ) {density : DensityArg} (hd : density.Accepted) (model : ModelArg Φ) (params : π) (L : ℝ) (b : Bunch) :
    ∃ s, lensInit c foc false density model params = .ok s ∧ s.wakefield = none ∧ s.fields = [c.bTheta (-foc)] ∧
      lensAuto k false foc s.density L b = (quadDt k foc b).toExcept := by
  have ha : ∀ d, lensAuto k false foc d L b = (quadDt k foc b).toExcept := by
    intro d
    unfold lensAuto quadDt
    cases minGamma b with
    | none => rfl
    | some g => exact (period_toExcept _).symm
  cases density with
  | none => exact ⟨_, rfl, rfl, rfl, ha _⟩
  | float n => exact ⟨_, rfl, rfl, rfl, ha _⟩
  | fn f => exact ⟨_, rfl, rfl, rfl, ha _⟩
  | int n => cases hd
  | other => cases hd

/-- **C142.** With wakefields a lens is a plasma stage with the field of the lens as external field; without a density it cannot be made. -/
theorem lens_is_stage (c : Classes Φ π) (k : Const) (foc : ℝ) (density : DensityArg) (model : ModelArg Φ) (params : π) (f : PyFun) (L : ℝ) (b : Bunch) :
    lensInit c foc true .none model params = .error .valueError ∧
    lensInit c foc true density model params = stageInit c density model [c.bTheta (-foc)] params ∧
    lensAuto k true foc f L b = stageAuto k f L b := by
  refine ⟨rfl, ?_, rfl⟩
  cases density <;> rfl

/-- Two fields with names, for the examples. -/
noncomputable def demoC : Classes String Unit := ⟨fun s _ _ => .ok s, fun g => if g < 0 then "focusing" else "defocusing"⟩

example : ∃ s, stageInit demoC (.float 1) (.name "quasistatic_2d") ["magnet"] () = .ok s ∧ s.fields = ["quasistatic_2d", "magnet"] :=
  ⟨_, rfl, rfl⟩

example : ∃ f : ℝ → ℝ, rampA 1 "gaussian" "upramp" (some 2) (some 3) none none = .ok fun z => .ok (f z) :=
  (ramp_defined _ _ _ _ _ _ _).mpr (by simp)

end WakeT.Stage
