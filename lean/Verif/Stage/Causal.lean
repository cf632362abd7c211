import Verif.Stage.History
import Verif.Plasma.ColdFluidProps
import Verif.Tracker.Ahead

/-! # Drivers are not affected by bunches behind them (C125) -/

set_option linter.unusedSectionVars false

namespace WakeT.Stage

open Bunch FieldElement Laser
open Plasma (QS padded)
open Plasma.QS (Fld)
open Push (PField Sched Ph SameAhead)
open Fields (NumField FieldOps)

variable {F : Type} [LinearOrder F]

/-! ### Specification -/

/-- Bunches at `Y` and behind make no difference to the wakefield at `X` and ahead. -/
def Wake.Causal (w : Wake) (X Y : ℝ) : Prop :=
  ∀ t env ds ds' ws f f', List.Forall₂ Same ds ds' → (∀ b ∈ ws, Behind Y b) →
    w.solve t (w.density (t * w.k.c)) env (ds ++ ws) Wake.zeros = some f →
    w.solve t (w.density (t * w.k.c)) env ds' Wake.zeros = some f' →
    SameAhead X [gridField w.box (w.arr f.er) (w.arr f.ez) (w.arr f.bt)] [gridField w.box (w.arr f'.er) (w.arr f'.ez) (w.arr f'.bt)]

/-- Two envelopes that agree in slice `i` and ahead of it. -/
def Wake.SameEnv (w : Wake) (i : ℕ) (env env' : Option (String × (ℕ → ℕ → ℂ))) : Prop :=
  (env = none ∧ env' = none) ∨ ∃ pol a a', env = some (pol, a) ∧ env' = some (pol, a') ∧
    ∀ k j, i ≤ k → k < w.nXi → j < w.nR → a' k j = a k j

/-- Bunches at `Y` and behind, and the laser behind slice `i`, make no difference to the wakefield at
`X` and ahead. -/
def Wake.CausalEnv (w : Wake) (i : ℕ) (X Y : ℝ) : Prop :=
  ∀ t env env' ds ds' ws f f', w.SameEnv i env env' → List.Forall₂ Same ds ds' → (∀ b ∈ ws, Behind Y b) →
    w.solve t (w.density (t * w.k.c)) env (ds ++ ws) Wake.zeros = some f →
    w.solve t (w.density (t * w.k.c)) env' ds' Wake.zeros = some f' →
    SameAhead X [gridField w.box (w.arr f.er) (w.arr f.ez) (w.arr f.bt)] [gridField w.box (w.arr f'.er) (w.arr f'.ez) (w.arr f'.bt)]

/-- The stage with the time steps of the first `m` bunches only. -/
def PStage.first (p : PStage F) (m : ℕ) : PStage F :=
  match p.dtBunch with
  | .one _ => p
  | .many l => { p with dtBunch := .many (l.take m) }

theorem Wake.SameEnv.refl (w : Wake) (i : ℕ) (env : Option (String × (ℕ → ℕ → ℂ))) : w.SameEnv i env env := by
  cases env with
  | none => exact .inl ⟨rfl, rfl⟩
  | some x => exact .inr ⟨x.1, x.2, x.2, rfl, rfl, fun _ _ _ _ _ => rfl⟩

theorem Wake.CausalEnv.causal {w : Wake} {i : ℕ} {X Y : ℝ} (h : w.CausalEnv i X Y) : w.Causal X Y :=
  fun t env ds ds' ws f f' => h t env env ds ds' ws f f' (.refl w i env)

theorem aEnv2_same {w : Wake} {i : ℕ} {env env' : Option (String × (ℕ → ℕ → ℂ))} (h : w.SameEnv i env env') {k j : ℕ}
    (hk : i ≤ k) (hkn : k < w.nXi) (hj : j < w.nR) : aEnv2 env' k j = aEnv2 env k j := by
  rcases h with ⟨rfl, rfl⟩ | ⟨pol, a, a', rfl, rfl, h⟩
  · rfl
  · show (if pol = "linear" then ‖a' k j‖ ^ 2 / 2 else ‖a' k j‖ ^ 2) = if pol = "linear" then ‖a k j‖ ^ 2 / 2 else ‖a k j‖ ^ 2
    rw [h k j hk hkn hj]

/-! ### The general statement -/

/-- The states of the wakefield with and without the bunches behind. -/
def SameFront (w : Wake) (X : ℝ) (φ φ' : NumField ℝ (Option Props)) : Prop :=
  φ'.dt = φ.dt ∧ φ'.t = φ.t ∧ φ'.initialized = φ.initialized ∧
  ((φ.prop = none ∧ φ'.prop = none) ∨ ∃ s s', φ.prop = some s ∧ φ'.prop = some s' ∧ s'.laser = s.laser ∧ s'.np = s.np ∧
    SameAhead X (w.field (some s)) (w.field (some s')))

theorem calc_front {w : Wake} {X Y : ℝ} (hc : w.Causal X Y) (hw : w.Works) (t : ℝ) {ds ds' ws : List Bunch}
    (hds : List.Forall₂ Same ds ds') (hws : ∀ b ∈ ws, Behind Y b) {s s' : Props} (hl : s'.laser = s.laser) :
    ∃ r r', w.calculateProps t (ds ++ ws) s = some r ∧ w.calculateProps t ds' s' = some r' ∧ r'.laser = r.laser ∧
      r'.np = r.np ∧ SameAhead X (w.field (some r)) (w.field (some r')) := by
  obtain ⟨f, hf⟩ := hw.solve t (w.envelope s.laser) (ds ++ ws)
  obtain ⟨f', hf'⟩ := hw.solve t (w.envelope s.laser) ds'
  refine ⟨{ s with np := w.density (t * w.k.c), fld := f }, { s' with np := w.density (t * w.k.c), fld := f' }, ?_, ?_, ?_, ?_,
    hc t (w.envelope s.laser) ds ds' ws f f' hds hws hf hf'⟩
  · unfold Wake.calculateProps
    dsimp only
    rw [hf]
    rfl
  · unfold Wake.calculateProps
    dsimp only
    rw [hl, hf']
    rfl
  · exact hl
  · rfl

theorem elem_causal {p : PStage F} {X Y : ℝ} (hc : p.wake.Causal X Y) (hw : p.wake.Works)
    (hl : p.wake.laser = none ∨ p.wake.laserEvolution = false) (hsch : ∀ n, (p.sch n).Valid n)
    (hA : ∀ b b', Same b b' → p.autoDt b' = p.autoDt b) : p.elem.Causal X Y (SameFront p.wake X) where
  felt := by
    rintro φ φ' ⟨-, -, -, h | ⟨s, s', h1, h2, -, -, h3⟩⟩
    · intro t q _
      show Push.felt (p.wake.field φ'.prop ++ p.ext) t q = Push.felt (p.wake.field φ.prop ++ p.ext) t q
      rw [h.1, h.2]
    · intro t q hq
      show Push.felt (p.wake.field φ'.prop ++ p.ext) t q = Push.felt (p.wake.field φ.prop ++ p.ext) t q
      have := h3 t q hq
      rw [h1, h2]
      unfold Push.felt at this ⊢
      rw [List.foldl_append, List.foldl_append, this]
  update := by
    rintro ds ds' ws φ φ' j hds hws ⟨h1, h2, h3, h4⟩
    show SameFront p.wake X (if j = 0 then φ.update (p.wake.ops φ.dt) (ds ++ ws) else φ)
      (if j = 0 then φ'.update (p.wake.ops φ'.dt) ds' else φ')
    by_cases hj : j = 0
    swap
    · rw [if_neg hj, if_neg hj]
      exact ⟨h1, h2, h3, h4⟩
    rw [if_pos hj, if_pos hj, h1]
    unfold NumField.update
    dsimp only
    cases hi : φ.initialized with
    | false =>
      rw [h3, hi]
      simp only [Bool.false_eq_true, not_false_eq_true, if_true]
      refine ⟨h1, rfl, rfl, ?_⟩
      show ((p.wake.initProps φ.dt).bind _ = none ∧ (p.wake.initProps φ.dt).bind _ = none) ∨ _
      cases hp : p.wake.initProps φ.dt with
      | none => exact .inl ⟨rfl, rfl⟩
      | some s =>
        obtain ⟨r, r', e1, e2, e3, e4, e5⟩ := calc_front hc hw 0 hds hws (s := s) (s' := s) rfl
        refine .inr ⟨r, r', ?_, ?_, e3, e4, e5⟩
        · show (p.wake.initProps φ.dt).bind (p.wake.calculateProps 0 (ds ++ ws)) = _
          rw [hp]
          exact e1
        · show (p.wake.initProps φ.dt).bind (p.wake.calculateProps 0 ds') = _
          rw [hp]
          exact e2
    | true =>
      rw [h3, hi]
      simp only [not_true_eq_false, if_false]
      refine ⟨h1, by rw [h2, h1], rfl, ?_⟩
      have hev : ∀ dt s, p.wake.evolveProps dt s = some s := by
        intro dt s
        unfold Wake.evolveProps
        rcases hl with hl | hl
        · rw [hl]
        · cases p.wake.laser with
          | none => rfl
          | some q =>
            cases s.laser with
            | none => rfl
            | some l =>
              dsimp only
              rw [hl]
              rfl
      rcases h4 with ⟨h4, h5⟩ | ⟨s, s', h4, h5, h6, h7, h8⟩
      · left
        constructor
        · show (φ.prop.bind _).bind _ = none
          rw [h4]
          rfl
        · show (φ'.prop.bind _).bind _ = none
          rw [h5]
          rfl
      · obtain ⟨r, r', e1, e2, e3, e4, e5⟩ := calc_front hc hw (φ.t + φ.dt) hds hws (s := s) (s' := s') h6
        refine .inr ⟨r, r', ?_, ?_, e3, e4, e5⟩
        · show (φ.prop.bind (p.wake.evolveProps φ.dt)).bind (p.wake.calculateProps (φ.t + φ.dt) (ds ++ ws)) = _
          rw [h4, Option.bind_some, hev, Option.bind_some]
          exact e1
        · show (φ'.prop.bind (p.wake.evolveProps φ.dt)).bind (p.wake.calculateProps (φ'.t + φ'.dt) ds') = _
          rw [h5, Option.bind_some, hev, Option.bind_some, h1, h2]
          exact e2
  autoDt := hA
  sch := hsch

/-- **C125.** Bunches are not affected by bunches behind them.  In a stage whose wakefield is
causal and without a laser that evolves, the outputs of the first bunches are those obtained without
the other bunches, if these start at `Y` or behind and the first bunches are at `X` or ahead at the
end (with a distance that depends on the longest step for the Runge-Kutta pusher). -/
theorem stage_causal {p : PStage F} {X Y : ℝ} (hc : p.wake.Causal X Y) (hw : p.wake.Works)
    (hl : p.wake.laser = none ∨ p.wake.laserEvolution = false) (hk : p.elem.Ok) (hm : StrictMono p.f32)
    (hp : p.pusher = "rk4" ∨ p.pusher = "boris") (hsch : ∀ n, (p.sch n).Valid n)
    (hA : ∀ b b', Same b b' → p.autoDt b' = p.autoDt b) {D : ℝ} (hD0 : 0 ≤ D)
    (hD : p.pusher = "rk4" → ∀ d, some d ∈ p.dtBunch.toList → d ≤ D)
    (hDA : p.pusher = "rk4" → none ∈ p.dtBunch.toList → ∀ b, p.autoDt b ≤ D) (opmd : Bool) (fuel : ℕ) (ds ws : List Bunch)
    (hf : ∀ b ∈ ds ++ ws, b.Fits) (hY : ∀ b ∈ ws, Behind Y b) (b0 : Bunch) {r : OneOrMany (List Bunch)}
    {w : World (NumField ℝ (Option Props))} (hr : p.track opmd fuel (.many (ds ++ ws)) b0 = .returned (r, w))
    (hX : ∀ i < ds.length, AheadOf (X + if p.pusher = "rk4" then 2 * p.wake.k.c * D else 0) (w.bunch i)) :
    ∃ ls ls' w', r = pack ls ∧ ls.length = ds.length + ws.length ∧
      (p.first ds.length).track opmd fuel (.many ds) b0 = .returned (pack ls', w') ∧
      List.Forall₂ (List.Forall₂ Same) (ls.take ds.length) ls' := by
  have e1 : (p.first ds.length).wake = p.wake ∧ (p.first ds.length).length = p.length ∧
      (p.first ds.length).elem = p.elem.first ds.length := by
    unfold PStage.first Elem.first
    show _ ∧ _ ∧ _ = match p.dtBunch with
      | .one _ => p.elem
      | .many l => { p.elem with dtBunch := .many (l.take ds.length) }
    cases h : p.dtBunch <;> exact ⟨rfl, rfl, rfl⟩
  unfold PStage.track at hr ⊢
  rw [e1.1, e1.2.1, e1.2.2]
  cases hdt : p.wake.dtUpdate p.length with
  | none => rw [hdt] at hr; cases hr
  | some dt =>
    rw [hdt] at hr
    obtain ⟨ls, ls', w', h1, h2, h3, h4, -⟩ := track_ahead (elem_causal hc hw hl hsch hA) hk hm hp hD0 hD hDA opmd fuel ds ws
      hf hY b0 (Wake.start dt) (Wake.start dt) ⟨rfl, rfl, rfl, .inl ⟨rfl, rfl⟩⟩ hr hX
    exact ⟨ls, ls', w', h1, h2, h3, h4⟩

/-- The same for bunches that are far enough ahead at the start: no particle moves backward by more
than twice the length of the stage. -/
theorem stage_causal_start {p : PStage F} {X Y : ℝ} (hc : p.wake.Causal X Y) (hw : p.wake.Works)
    (hl : p.wake.laser = none ∨ p.wake.laserEvolution = false) (hk : p.elem.Ok) (hm : StrictMono p.f32)
    (hp : p.pusher = "rk4" ∨ p.pusher = "boris") (hsch : ∀ n, (p.sch n).Valid n)
    (hA : ∀ b b', Same b b' → p.autoDt b' = p.autoDt b) {D : ℝ} (hD0 : 0 ≤ D)
    (hD : p.pusher = "rk4" → ∀ d, some d ∈ p.dtBunch.toList → d ≤ D)
    (hDA : p.pusher = "rk4" → none ∈ p.dtBunch.toList → ∀ b, p.autoDt b ≤ D) (opmd : Bool) (fuel : ℕ) (ds ws : List Bunch)
    (hf : ∀ b ∈ ds ++ ws, b.Fits) (hY : ∀ b ∈ ws, Behind Y b) (b0 : Bunch) {r : OneOrMany (List Bunch)}
    {w : World (NumField ℝ (Option Props))} (hr : p.track opmd fuel (.many (ds ++ ws)) b0 = .returned (r, w))
    (hX : ∀ b ∈ ds, AheadOf (X + (if p.pusher = "rk4" then 2 * p.wake.k.c * D else 0) + 2 * p.length) b) :
    ∃ ls ls' w', r = pack ls ∧ ls.length = ds.length + ws.length ∧
      (p.first ds.length).track opmd fuel (.many ds) b0 = .returned (pack ls', w') ∧
      List.Forall₂ (List.Forall₂ Same) (ls.take ds.length) ls' := by
  refine stage_causal hc hw hl hk hm hp hsch hA hD0 hD hDA opmd fuel ds ws hf hY b0 hr ?_
  intro i hi q hq
  have hi' : (OneOrMany.many (ds ++ ws)).toList[i]? = some ds[i] := by
    show (ds ++ ws)[i]? = _
    rw [List.getElem?_append_left hi, List.getElem?_eq_getElem hi]
  unfold PStage.track at hr
  cases hdt : p.wake.dtUpdate p.length with
  | none => rw [hdt] at hr; cases hr
  | some dt =>
    rw [hdt] at hr
    obtain ⟨h1, h2⟩ := final_slow hk hm hp hsch opmd fuel (.many (ds ++ ws)) hf b0 (Wake.start dt) hr i _ hi'
    rw [h1] at hq
    have h3 := hX _ (List.getElem_mem hi) q hq
    have h4 := (h2 q hq).1
    have h5 : p.elem.length = p.length := rfl
    rw [h5] at h4
    linarith

/-! ### The two wakefield models are causal -/

/-- Arrays that agree from row `m` on look the same ahead of this row. -/
theorem rows_ahead (w : Wake) (hd : 0 < w.box.dz) (m : ℤ) {f f' : Fld}
    (h : ∀ a j, m ≤ a → f'.er a j = f.er a j ∧ f'.ez a j = f.ez a j ∧ f'.bt a j = f.bt a j) :
    SameAhead (w.xiMin + ((m : ℝ) - 2) * w.box.dz) [gridField w.box (w.arr f.er) (w.arr f.ez) (w.arr f.bt)]
      [gridField w.box (w.arr f'.er) (w.arr f'.ez) (w.arr f'.bt)] := by
  intro t p hp
  have hz : (m : ℝ) ≤ (p.xi - w.box.zMin) / w.box.dz + 2 := by
    have h1 : ((m : ℝ) - 2) ≤ (p.xi - w.box.zMin) / w.box.dz := by
      rw [le_div_iff₀ hd]
      have : w.box.zMin = w.xiMin := rfl
      linarith
    linarith
  have h1 : Plasma.AgreeFrom m (w.arr f.er) (w.arr f'.er) := ⟨rfl, rfl, fun a j ha => (h a j ha).1⟩
  have h2 : Plasma.AgreeFrom m (w.arr f.ez) (w.arr f'.ez) := ⟨rfl, rfl, fun a j ha => (h a j ha).2.1⟩
  have h3 : Plasma.AgreeFrom m (w.arr f.bt) (w.arr f'.bt) := ⟨rfl, rfl, fun a j ha => (h a j ha).2.2⟩
  simp only [Push.felt, List.foldl_cons, List.foldl_nil, gridField, Interp.gatherMain1, Plasma.cellInterp_agree _ h1 _ _ hz,
    Plasma.cellInterp_agree _ h2 _ _ hz, Plasma.cellInterp_agree _ h3 _ _ hz]

theorem padded_guard (nXi nR : ℕ) (f : ℕ → ℕ → ℝ) {a j : ℤ} (h : ¬ (2 ≤ a ∧ a < nXi + 2 ∧ 2 ≤ j ∧ j < nR + 2)) :
    (padded nXi nR f).val a j = 0 := by
  show (if _ then _ else _) = _
  rw [if_neg h]

theorem setInner_guard (nXi nR : ℕ) (g : ℤ → ℤ → ℝ) (f : ℕ → ℕ → ℝ) {a j : ℤ}
    (h : ¬ (2 ≤ a ∧ a < nXi + 2 ∧ 2 ≤ j ∧ j < nR + 2)) : QS.setInner nXi nR g f a j = g a j := by
  unfold QS.setInner
  rw [if_neg h]

/-- The guard cells stay zero. -/
theorem quasi_guard {c : QS} {pusher : String} {L : ℕ → ℕ → ℝ} {B : List (List (Deposition.Part ℝ))} {e0 cc : ℝ} {r : Fld}
    (h : c.calculate pusher L B e0 cc Wake.zeros = .ok r) {a j : ℤ}
    (hg : ¬ (2 ≤ a ∧ a < c.nXi + 2 ∧ 2 ≤ j ∧ j < c.nR + 2)) : r.er a j = 0 ∧ r.ez a j = 0 ∧ r.bt a j = 0 := by
  obtain ⟨b, g, -, -, rfl⟩ := QS.calculate_ok h
  dsimp only
  rw [setInner_guard _ _ _ _ hg, padded_guard _ _ _ hg, padded_guard _ _ _ hg, padded_guard _ _ _ hg]
  exact ⟨by simp, rfl, by simp⟩

theorem partsOf_same {b b' : Bunch} (h : Same b b') (s f : ℝ) : partsOf s f b' = partsOf s f b := by
  unfold partsOf
  rw [h.n]
  refine List.map_congr_left fun i hi => ?_
  have hi := List.mem_range.mp hi
  unfold Bunch.q
  rw [(h.parts i hi).1, (h.parts i hi).2, h.qSpecies]

theorem parts_same {ds ds' : List Bunch} (h : List.Forall₂ Same ds ds') (s f : ℝ) :
    ds'.map (partsOf s f) = ds.map (partsOf s f) := by
  induction h with
  | nil => rfl
  | cons hx _ ih => rw [List.map_cons, List.map_cons, ih, partsOf_same hx]

/-- Particles behind are not among those beyond. -/
theorem beyond_behind {s : ℝ} (hs : 0 < s) (f : ℝ) {Y : ℝ} {ws : List Bunch} (h : ∀ b ∈ ws, Behind Y b) :
    Plasma.beyond (Y / s) (ws.map (partsOf s f)).flatten = [] := by
  unfold Plasma.beyond
  rw [List.filter_eq_nil_iff]
  intro p hp
  obtain ⟨l, hl, hpl⟩ := List.mem_flatten.mp hp
  obtain ⟨b, hb, rfl⟩ := List.mem_map.mp hl
  unfold partsOf at hpl
  obtain ⟨i, hi, rfl⟩ := List.mem_map.mp hpl
  have := div_le_div_of_nonneg_right (h b hb i (List.mem_range.mp hi)) hs.le
  simpa using this

/-- The quasistatic model is causal: bunches in slice `i` less two cells, and behind, make no
difference two cells ahead of slice `i`, nor does the laser behind slice `i`. -/
theorem quasi_causal_env {w : Wake} (a : Plasma1) (q : QArgs) (hs : w.solve = w.quasiCalc a q) (hx : w.xiMin < w.xiMax)
    (hnx : 2 ≤ w.nXi) (hsd : ∀ z, 0 < a.skinDepth (w.density z / 1e6)) (i : ℕ) :
    w.CausalEnv i (w.xiMin + ((i : ℝ) + 2) * ((w.xiMax - w.xiMin) / ((w.nXi : ℝ) - 1)))
      (w.xiMin + ((i : ℝ) - 2) * ((w.xiMax - w.xiMin) / ((w.nXi : ℝ) - 1))) := by
  intro t env env' ds ds' ws f f' henv hds hws hf hf'
  have hn1 : (0 : ℝ) < (w.nXi : ℝ) - 1 := by
    have : (2 : ℝ) ≤ w.nXi := by exact_mod_cast hnx
    linarith
  have hd : 0 < w.box.dz := div_pos (by linarith) hn1
  rw [hs] at hf hf'
  unfold Wake.quasiCalc at hf hf'
  dsimp only at hf hf'
  have hsp := hsd (t * w.k.c)
  rw [parts_same hds] at hf'
  rw [List.map_append] at hf
  set s := a.skinDepth (w.density (t * w.k.c) / 1e6) with hsdef
  set c := w.quasi q s (q.parabolic (t * w.k.c)) with hc
  set fac := 1 / w.k.e / (2 * Real.pi * c.dr * c.dxi * s ^ 3 * w.density (t * w.k.c)) with hfac
  have ho : ∀ {ε α : Type} {x : Except ε α} {r : α}, x.toOption = some r → x = .ok r := by
    intro ε α x r h
    cases x with
    | error e => cases h
    | ok v => cases h; rfl
  have hf := ho hf
  have hf' := ho hf'
  have hcd : c.dxi = w.box.dz / s := by
    show (w.xiMax / s - w.xiMin / s) / ((w.nXi : ℝ) - 1) = (w.xiMax - w.xiMin) / ((w.nXi : ℝ) - 1) / s
    field_simp
  have hcx : c.xi i - 2 * c.dxi = (w.xiMin + ((i : ℝ) - 2) * w.box.dz) / s := by
    show w.xiMin / s + i * c.dxi - 2 * c.dxi = _
    rw [hcd]
    field_simp
    ring
  have hcd0 : 0 < c.dxi := by
    rw [hcd]
    exact div_pos hd hsp
  have hB : c.SameBeamAhead i (ds.map (partsOf s fac) ++ ws.map (partsOf s fac)) (ds.map (partsOf s fac)) := by
    unfold QS.SameBeamAhead
    rw [hcx, List.flatten_append]
    have h0 : ∀ x l l', Plasma.beyond x (l ++ l') = Plasma.beyond x l ++ Plasma.beyond x l' := fun x l l' => List.filter_append _ _
    have h1 : Plasma.beyond ((w.xiMin + ((i : ℝ) - 2) * w.box.dz) / s) (ws.map (partsOf s fac)).flatten = [] :=
      beyond_behind hsp fac hws
    rw [h0, h1, List.append_nil]
  have hcausal := QS.causal hcd0 q.pusher i (L := aEnv2 env) (L' := aEnv2 env')
    (fun k hk hkn j hj => aEnv2_same henv hk hkn hj) hB _ _ Wake.zeros hf hf'
  have key := rows_ahead w hd ((i : ℤ) + 4) (f := f) (f' := f') (by
    intro x j hxj
    by_cases hg : 2 ≤ x ∧ x < c.nXi + 2 ∧ 2 ≤ j ∧ j < c.nR + 2
    · obtain ⟨k, rfl⟩ : ∃ k : ℕ, x = (k : ℤ) + 2 := ⟨(x - 2).toNat, by omega⟩
      obtain ⟨l, rfl⟩ : ∃ l : ℕ, j = (l : ℤ) + 2 := ⟨(j - 2).toNat, by omega⟩
      obtain ⟨h1, -, h3⟩ := hcausal k l (by omega) (by omega)
      exact ⟨(h1 (by omega)).1, h3 (.inr (by omega)), (h1 (by omega)).2⟩
    · obtain ⟨h1, h2, h3⟩ := quasi_guard hf hg
      obtain ⟨h1', h2', h3'⟩ := quasi_guard hf' hg
      rw [h1, h2, h3, h1', h2', h3']
      exact ⟨rfl, rfl, rfl⟩)
  have e : w.xiMin + ((((i : ℤ) + 4 : ℤ) : ℝ) - 2) * w.box.dz =
      w.xiMin + ((i : ℝ) + 2) * ((w.xiMax - w.xiMin) / ((w.nXi : ℝ) - 1)) := by
    push_cast
    show _ = w.xiMin + ((i : ℝ) + 2) * w.box.dz
    ring
  rw [e] at key
  exact key

theorem quasi_causal {w : Wake} (a : Plasma1) (q : QArgs) (hs : w.solve = w.quasiCalc a q) (hx : w.xiMin < w.xiMax)
    (hnx : 2 ≤ w.nXi) (hsd : ∀ z, 0 < a.skinDepth (w.density z / 1e6)) (i : ℕ) :
    w.Causal (w.xiMin + ((i : ℝ) + 2) * ((w.xiMax - w.xiMin) / ((w.nXi : ℝ) - 1)))
      (w.xiMin + ((i : ℝ) - 2) * ((w.xiMax - w.xiMin) / ((w.nXi : ℝ) - 1))) :=
  (quasi_causal_env a q hs hx hnx hsd i).causal

theorem aEnv_same {w : Wake} {i : ℕ} {env env' : Option (String × (ℕ → ℕ → ℂ))} (h : w.SameEnv i env env') {m m' : ColdFluid.Cold}
    (hm : m.laser = aEnvAbs env) (hm' : m'.laser = aEnvAbs env') {k j : ℕ} (hk : i ≤ k) (hkn : k < w.nXi) (hj : j < w.nR) :
    m'.aEnv k j = m.aEnv k j := by
  unfold ColdFluid.Cold.aEnv
  rw [hm, hm']
  rcases h with ⟨rfl, rfl⟩ | ⟨pol, a, a', rfl, rfl, h⟩
  · rfl
  · show (if pol = "linear" then ‖a' k j‖ / √2 else ‖a' k j‖) = if pol = "linear" then ‖a k j‖ / √2 else ‖a k j‖
    rw [h k j hk hkn hj]

/-- Fluids with lasers and beams that agree from slice `i` on have the same fields three slices
ahead. -/
theorem cold_fields {m m' : ColdFluid.Cold} (hn : m'.nXi = m.nXi) (hnr : m'.nR = m.nR) (hdz : m'.dz = m.dz)
    (hdr : m'.dr = m.dr) (hbw : m'.beamWakefields = m.beamWakefields) (hz : 0 < m.dz)
    (hr : 0 < m.dr) (h3 : 3 ≤ m.nR) {i : ℕ} (ha : ∀ l j, i ≤ l → l < m.nXi → j < m.nR → m'.aEnv l j = m.aEnv l j)
    (hb : ∀ l j, i ≤ l → l < m.nXi → j < m.nR → m'.beam l j = m.beam l j)
    (e0 c : ℝ) {k j : ℕ} (hk : i + 3 ≤ k) (hkn : k < m.nXi) (hj : j < m.nR) : m'.fields e0 c k j = m.fields e0 c k j := by
  have hu : ∀ l j, i ≤ l → l < m.nXi → j < m.nR → m'.u l j = m.u l j := fun l j hl hln hj =>
    ColdFluid.causal m m' hn hnr hdz hbw hz hr (hdr ▸ hr) i j hj (fun l h1 h2 => ha l j h1 h2 hj) (fun l h1 h2 => hb l j h1.le h2 hj) l hl hln
  have hE : ∀ l j, i < l → l < m.nXi → j < m.nR → m'.Ez l j = m.Ez l j := fun l j hl hln hj =>
    ColdFluid.causal_Ez m m' hn hnr hdz hbw hz hr (hdr ▸ hr) i j hj (fun l h1 h2 => ha l j h1 h2 hj) (fun l h1 h2 => hb l j h1.le h2 hj) l hl hln
      (by omega)
  have hI : ∀ j, j < m.nR → m'.integrand k j = m.integrand k j := by
    intro j hj
    have hk0 : ¬ k = 0 := by omega
    unfold ColdFluid.Cold.integrand ColdFluid.Cold.vz ColdFluid.Cold.rho ColdFluid.Cold.uz ColdFluid.Cold.gamma
      ColdFluid.Cold.rFld
    rw [hu k j (by omega) hkn hj, ha k j (by omega) hkn hj, hdr, hb k j (by omega) hkn hj, hn, hdz]
    congr 3
    unfold Base.gradient
    rw [if_neg hk0, if_neg hk0]
    beta_reduce
    by_cases h1 : k + 1 = m.nXi
    · rw [if_pos h1, if_pos h1, hE k j (by omega) hkn hj, hE (k - 1) j (by omega) (by omega) hj,
        hE (k - 2) j (by omega) (by omega) hj]
    · rw [if_neg h1, if_neg h1, hE (k + 1) j (by omega) (by omega) hj, hE (k - 1) j (by omega) (by omega) hj]
  have hB : m'.Bt k j = m.Bt k j := by
    unfold ColdFluid.Cold.Bt ColdFluid.Cold.rFld
    rw [hdr, hI j hj, Finset.sum_congr rfl fun l hl => hI l (by rw [Finset.mem_range] at hl; omega)]
  have hW : m'.Wr k j = m.Wr k j := by
    unfold ColdFluid.Cold.Wr
    rw [hnr, hdr, Base.gradient_congr _ _ _ _ h3 (fun l hl => by rw [hu k l (by omega) hkn hl]) j hj]
  unfold ColdFluid.Cold.fields ColdFluid.Cold.Er
  rw [hE k j (by omega) hkn hj, hW, hB]

/-- The deposited beam does not depend on the bunches behind. -/
theorem fold_behind {s : ℝ} (hs : 0 < s) (sh : Deposition.Shape) (g : Deposition.Grid ℝ) (hdz : 0 < g.dz) (f : ℝ) (i : ℕ)
    {ws : List Bunch} (h : ∀ b ∈ ws, Behind ((g.zMin + ((i : ℝ) - 2) * g.dz) * s) b) (a : ℤ → ℤ → ℝ) (l j : ℤ) (hl : (i : ℤ) + 2 ≤ l) :
    ws.foldl (fun h b => Deposition.depositShape sh true g (partsOf s f b) h) a l j = a l j := by
  induction ws generalizing a with
  | nil => rfl
  | cons b ws ih =>
    rw [List.foldl_cons, ih (fun b hb => h b (List.mem_cons_of_mem _ hb))]
    have h1 := Plasma.deposit_beyond sh g hdz (partsOf s f b) i l j hl
    have h2 := beyond_behind hs f (ws := [b]) (fun x hx => h x (by rw [List.mem_singleton.mp hx]; exact List.mem_cons_self))
    rw [mul_div_cancel_right₀ _ hs.ne'] at h2
    simp only [List.map_cons, List.map_nil, List.flatten_cons, List.flatten_nil, List.append_nil] at h2
    rw [h2, Deposition.depositShape_apply, Deposition.depositShape_apply] at h1
    rw [Deposition.depositShape_apply]
    simp at h1
    rw [h1, add_zero]

theorem fold_same {ds ds' : List Bunch} (h : List.Forall₂ Same ds ds') (sh : Deposition.Shape) (g : Deposition.Grid ℝ) (s f : ℝ)
    (a : ℤ → ℤ → ℝ) : ds'.foldl (fun h b => Deposition.depositShape sh true g (partsOf s f b) h) a =
      ds.foldl (fun h b => Deposition.depositShape sh true g (partsOf s f b) h) a := by
  induction h generalizing a with
  | nil => rfl
  | cons hx _ ih => rw [List.foldl_cons, List.foldl_cons, ih, partsOf_same hx]

theorem beamHist_same {w : Wake} {shape : String} {s np : ℝ} (hs : 0 < s) (hd : 0 < w.box.dz) {i : ℕ} {ds ds' ws : List Bunch}
    (hds : List.Forall₂ Same ds ds') (hws : ∀ b ∈ ws, Behind (w.xiMin + ((i : ℝ) - 2) * w.box.dz) b) {h h' : ℕ → ℕ → ℝ}
    (hh : w.beamHist shape s np (ds ++ ws) = some h) (hh' : w.beamHist shape s np ds' = some h') {l j : ℕ} (hl : i ≤ l) :
    h' l j = h l j := by
  have key : ∀ sh, (ds ++ ws).foldl (fun h b => Deposition.depositShape sh true ⟨w.xiMin / s, w.rMax / w.nR / s / 2, w.nXi,
        w.nR, (w.xiMax - w.xiMin) / ((w.nXi : ℝ) - 1) / s, w.rMax / w.nR / s⟩ (partsOf s (1 / w.k.e) b) h) (fun _ _ => (0 : ℝ))
        ((l : ℤ) + 2) ((j : ℤ) + 2) =
      ds'.foldl (fun h b => Deposition.depositShape sh true ⟨w.xiMin / s, w.rMax / w.nR / s / 2, w.nXi,
        w.nR, (w.xiMax - w.xiMin) / ((w.nXi : ℝ) - 1) / s, w.rMax / w.nR / s⟩ (partsOf s (1 / w.k.e) b) h) (fun _ _ => (0 : ℝ))
        ((l : ℤ) + 2) ((j : ℤ) + 2) := by
    intro sh
    rw [List.foldl_append, fold_same hds]
    refine fold_behind hs sh _ (div_pos hd hs) _ i ?_ _ _ _ (by omega)
    intro b hb
    have e : (w.xiMin / s + ((i : ℝ) - 2) * ((w.xiMax - w.xiMin) / ((w.nXi : ℝ) - 1) / s)) * s =
        w.xiMin + ((i : ℝ) - 2) * w.box.dz := by
      have : w.box.dz = (w.xiMax - w.xiMin) / ((w.nXi : ℝ) - 1) := rfl
      rw [this]
      field_simp
    dsimp only
    rw [e]
    exact hws b hb
  unfold Wake.beamHist at hh hh'
  dsimp only at hh hh'
  cases hds with
  | nil =>
    cases hh'
    cases ws with
    | nil => cases hh; rfl
    | cons b ws =>
      obtain ⟨sh, -, rfl⟩ := Option.map_eq_some_iff.mp hh
      dsimp only
      rw [key sh]
      exact (zero_mul _).symm
  | cons hx hrest =>
    obtain ⟨sh, h1, rfl⟩ := Option.map_eq_some_iff.mp hh
    obtain ⟨sh', h2, rfl⟩ := Option.map_eq_some_iff.mp hh'
    rw [h1] at h2
    cases h2
    dsimp only
    rw [key sh]

/-- So is the cold fluid model, one cell less sharply. -/
theorem cold_causal_env {w : Wake} (a : Plasma1) (bw : Bool) (shape : String) (hs : w.solve = w.coldCalc a bw shape)
    (hx : w.xiMin < w.xiMax) (hr : 0 < w.rMax) (hnx : 2 ≤ w.nXi) (hnr : 3 ≤ w.nR)
    (hsd : ∀ z, 0 < a.skinDepth (w.density z / 1e6)) (i : ℕ) :
    w.CausalEnv i (w.xiMin + ((i : ℝ) + 3) * ((w.xiMax - w.xiMin) / ((w.nXi : ℝ) - 1)))
      (w.xiMin + ((i : ℝ) - 2) * ((w.xiMax - w.xiMin) / ((w.nXi : ℝ) - 1))) := by
  intro t env env' ds ds' ws f f' henv hds hws hf hf'
  have hn1 : (0 : ℝ) < (w.nXi : ℝ) - 1 := by
    have : (2 : ℝ) ≤ w.nXi := by exact_mod_cast hnx
    linarith
  have hd : 0 < w.box.dz := div_pos (by linarith) hn1
  rw [hs] at hf hf'
  unfold Wake.coldCalc at hf hf'
  dsimp only at hf hf'
  have hsp := hsd (t * w.k.c)
  set s := a.skinDepth (w.density (t * w.k.c) / 1e6) with hsdef
  obtain ⟨h, hh, hfe⟩ := Option.map_eq_some_iff.mp hf
  obtain ⟨h', hh', hfe'⟩ := Option.map_eq_some_iff.mp hf'
  have hrr : 0 < w.rMax / w.nR / s := by
    have : (0 : ℝ) < w.nR := by exact_mod_cast (by omega : 0 < w.nR)
    positivity
  have hfld : ∀ {k j : ℕ}, i + 3 ≤ k → k < w.nXi → j < w.nR → _ := fun {k j} hk hkn hj =>
    cold_fields (m := ⟨w.nXi, w.nR, w.xiMin / s, (w.xiMax - w.xiMin) / ((w.nXi : ℝ) - 1) / s, w.rMax / w.nR / s, bw, aEnvAbs env, h⟩)
      (m' := ⟨w.nXi, w.nR, w.xiMin / s, (w.xiMax - w.xiMin) / ((w.nXi : ℝ) - 1) / s, w.rMax / w.nR / s, bw, aEnvAbs env', h'⟩)
      rfl rfl rfl rfl rfl (div_pos hd hsp) hrr hnr (fun l j hl hln hj => aEnv_same henv rfl rfl hl hln hj)
      (fun l j hl _ _ => beamHist_same hsp hd hds hws hh hh' hl) (a.waveBreaking (w.density (t * w.k.c) / 1e6)) w.k.c hk hkn hj
  have key := rows_ahead w hd ((i : ℤ) + 5) (f := f) (f' := f') (by
    intro x j hxj
    rw [← hfe, ← hfe']
    dsimp only
    by_cases hg : 2 ≤ x ∧ x < w.nXi + 2 ∧ 2 ≤ j ∧ j < w.nR + 2
    · obtain ⟨k, rfl⟩ : ∃ k : ℕ, x = (k : ℤ) + 2 := ⟨(x - 2).toNat, by omega⟩
      obtain ⟨l, rfl⟩ : ∃ l : ℕ, j = (l : ℤ) + 2 := ⟨(j - 2).toNat, by omega⟩
      have e := hfld (k := k) (j := l) (by omega) (by omega) (by omega)
      rw [QS.setInner_node _ _ _ _ k l (by omega) (by omega), QS.setInner_node _ _ _ _ k l (by omega) (by omega),
        QS.setInner_node _ _ _ _ k l (by omega) (by omega), QS.setInner_node _ _ _ _ k l (by omega) (by omega),
        QS.setInner_node _ _ _ _ k l (by omega) (by omega), QS.setInner_node _ _ _ _ k l (by omega) (by omega), e]
      exact ⟨rfl, rfl, rfl⟩
    · simp only [setInner_guard _ _ _ _ hg, and_self])
  have e : w.xiMin + ((((i : ℤ) + 5 : ℤ) : ℝ) - 2) * w.box.dz =
      w.xiMin + ((i : ℝ) + 3) * ((w.xiMax - w.xiMin) / ((w.nXi : ℝ) - 1)) := by
    push_cast
    show _ = w.xiMin + ((i : ℝ) + 3) * w.box.dz
    ring
  rw [e] at key
  exact key

theorem cold_causal {w : Wake} (a : Plasma1) (bw : Bool) (shape : String) (hs : w.solve = w.coldCalc a bw shape)
    (hx : w.xiMin < w.xiMax) (hr : 0 < w.rMax) (hnx : 2 ≤ w.nXi) (hnr : 3 ≤ w.nR)
    (hsd : ∀ z, 0 < a.skinDepth (w.density z / 1e6)) (i : ℕ) :
    w.Causal (w.xiMin + ((i : ℝ) + 3) * ((w.xiMax - w.xiMin) / ((w.nXi : ℝ) - 1)))
      (w.xiMin + ((i : ℝ) - 2) * ((w.xiMax - w.xiMin) / ((w.nXi : ℝ) - 1))) :=
  (cold_causal_env a bw shape hs hx hr hnx hnr hsd i).causal

/-! ### An instance -/

/-- A wakefield on 81 slices between -8 and 0, without a laser. -/
noncomputable def demoWake2 : Wake :=
  let w : Wake := ⟨⟨1, 1, 1, 1⟩, fun z => 1 + z, 4, -8, 0, 4, 81, some (3 / 5), none, false, 2, none, none, true,
    fun _ _ _ _ f => some f⟩
  { w with solve := w.quasiCalc ⟨fun _ => 1, fun _ => 1⟩ ⟨2, none, fun _ => 0, "linear", 10, "ab5", fun _ i => i⟩ }

theorem demo2_works : demoWake2.Works := by
  refine quasi_works (w := demoWake2) ⟨fun _ => 1, fun _ => 1⟩
    ⟨2, none, fun _ => 0, "linear", 10, "ab5", fun _ i => i⟩ rfl ?_ ?_ ?_ ?_ (Or.inl rfl) (Or.inl rfl) ?_ ?_
  · norm_num [demoWake2]
  · norm_num [demoWake2]
  · norm_num [demoWake2]
  · norm_num [demoWake2]
  · intro z
    norm_num
  · intro q hq
    cases hq

theorem demo2_causal : demoWake2.Causal (-3) (-17 / 5) := by
  have h := quasi_causal (w := demoWake2) ⟨fun _ => 1, fun _ => 1⟩
    ⟨2, none, fun _ => 0, "linear", 10, "ab5", fun _ i => i⟩ rfl (by norm_num [demoWake2]) (by norm_num [demoWake2])
    (fun _ => by norm_num) 48
  have e1 : demoWake2.xiMin + (((48 : ℕ) : ℝ) + 2) * ((demoWake2.xiMax - demoWake2.xiMin) / ((demoWake2.nXi : ℝ) - 1)) = -3 := by
    norm_num [demoWake2]
  have e2 : demoWake2.xiMin + (((48 : ℕ) : ℝ) - 2) * ((demoWake2.xiMax - demoWake2.xiMin) / ((demoWake2.nXi : ℝ) - 1)) =
      -17 / 5 := by
    norm_num [demoWake2]
  rw [e1, e2] at h
  exact h

/-- A stage of length 1 with this wakefield. -/
noncomputable def demoStage2 (sch : ℕ → Sched) : PStage ℝ where
  wake := demoWake2
  length := 1
  dtBunch := .many [some (3 / 10), none]
  pusher := "boris"
  nOut := 2
  pushBefore := true
  ext := []
  autoDt := fun b => 1 / 5 + b.propDistance ^ 2
  sch := sch
  f32 := id

theorem demo2_ok (sch : ℕ → Sched) : (demoStage2 sch).elem.Ok where
  length := by norm_num [PStage.elem, demoStage2]
  c := by norm_num [PStage.elem, demoStage2, demoWake2]
  steps := by
    intro d hd
    simp [PStage.elem, demoStage2, OneOrMany.toList] at hd
    rw [hd]
    norm_num
  auto := fun b => by
    show (0 : ℝ) < 1 / 5 + b.propDistance ^ 2
    positivity
  fields := by
    intro x hx
    simp [PStage.elem, demoStage2] at hx
    rw [hx]
    norm_num [Wake.dt0, demoWake2]
  mono := monotone_id
  sep := by norm_num [PStage.elem, demoStage2, demoWake2]

/-- A driver that starts at -1 or ahead is tracked as if the witness, at -17/5 or behind, were not
there. -/
example (sch : ℕ → Sched) (hsch : ∀ n, (sch n).Valid n) (d w : Bunch) (hd : d.Fits) (hw : w.Fits) (hX : AheadOf (-1) d)
    (hY : Behind (-17 / 5) w) : ∃ fuel a a' l x y,
      (demoStage2 sch).track false fuel (.many [d, w]) d = .returned (.many [a, l], x) ∧
      ((demoStage2 sch).first 1).track false fuel (.many [d]) d = .returned (.one a', y) ∧ List.Forall₂ Same a a' := by
  obtain ⟨fuel, ⟨r, x⟩, hr⟩ : ∃ fuel r, (demoStage2 sch).track false fuel (.many ([d] ++ [w])) d = .returned r := by
    unfold PStage.track
    have : (demoStage2 sch).wake.dtUpdate (demoStage2 sch).length = some (3 / 5 / 1) := rfl
    rw [this]
    exact track_returns (demo2_ok sch) strictMono_id (by norm_num [PStage.elem, demoStage2]) (δ := 1 / 5) (by norm_num)
      (fun b => by show (1 / 5 : ℝ) ≤ 1 / 5 + b.propDistance ^ 2; nlinarith [sq_nonneg b.propDistance])
      _ (by intro l hl; cases hl; rfl) false d _
  obtain ⟨ls, ls', y, h1, h2, h3, h4⟩ := stage_causal_start (p := demoStage2 sch) demo2_causal demo2_works (.inl rfl)
    (demo2_ok sch) strictMono_id (.inr rfl) hsch
    (fun b b' h => by show (1 / 5 : ℝ) + b'.propDistance ^ 2 = 1 / 5 + b.propDistance ^ 2; rw [h.propDistance])
    (D := 0) le_rfl (fun h => absurd h (by simp [demoStage2])) (fun h => absurd h (by simp [demoStage2])) false fuel [d] [w]
    (by
      intro b hb
      simp only [List.mem_append, List.mem_singleton] at hb
      rcases hb with rfl | rfl
      · exact hd
      · exact hw)
    (by intro b hb; rw [List.mem_singleton.mp hb]; exact hY) d hr
    (by
      intro b hb i hi
      rw [List.mem_singleton.mp hb] at hi ⊢
      have := hX i hi
      norm_num [demoStage2]
      linarith)
  subst h1
  match ls, h2, h4 with
  | [a, l], _, h4 =>
    cases h4 with
    | cons h5 h6 =>
      cases h6
      exact ⟨fuel, a, _, l, x, y, hr, h3, h5⟩

end WakeT.Stage
