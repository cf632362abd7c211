import Verif.Tracker.Cone
import Verif.Tracker.Turned
import Verif.Stage.Fields
import Verif.Stage.Wake

/-! # Energy in magnets and angular momentum in wakefields (C151, C152) -/

set_option linter.unusedSectionVars false

namespace WakeT.FieldElement

open Tracker Bunch
open Push (Ph PField Sched felt)
open Fields (EB LibField)

variable {F Φ : Type} [LinearOrder F]

/-! ### Specification -/

/-- The Lorentz factor of a particle. -/
noncomputable def lorentz (p : Ph) : ℝ := √(1 + p.px ^ 2 + p.py ^ 2 + p.pz ^ 2)

/-- Angular momentum about the axis, in units of `m c`. -/
def spin (p : Ph) : ℝ := p.x * p.py - p.y * p.px

/-- Fields without electric field. -/
def Magnetic (fs : List PField) : Prop :=
  ∀ t p, (felt fs t p).ex = 0 ∧ (felt fs t p).ey = 0 ∧ (felt fs t p).ez = 0

/-- Fields without azimuthal electric field and with azimuthal magnetic field only. -/
def Central (fs : List PField) : Prop :=
  ∀ t p, (felt fs t p).ex * p.y = (felt fs t p).ey * p.x ∧ (felt fs t p).bx * p.x + (felt fs t p).b_y * p.y = 0 ∧
    (felt fs t p).bz = 0

/-! ### One step -/

theorem boris_lorentz (k : Push.Const) {fs : List PField} (hf : Magnetic fs) (t dt : ℝ) (p : Ph) :
    lorentz (Push.borisStep k fs t dt p) = lorentz p := by
  have h := hf (t + dt / 2) (Push.halfPush1 k dt p)
  unfold lorentz Push.borisStep
  dsimp only
  generalize felt fs (t + dt / 2) (Push.halfPush1 k dt p) = f at h
  simp only [Push.pushMomentum1, Push.halfPush1, h, mul_zero, add_zero]
  generalize k.c / √(1 + (p.px ^ 2 + p.py ^ 2 + p.pz ^ 2)) = g
  generalize k.qmc * dt / 2 * g * f.bx = tx
  generalize k.qmc * dt / 2 * g * f.b_y = ty
  generalize k.qmc * dt / 2 * g * f.bz = tz
  congr 1
  have : (1 + tx ^ 2 + ty ^ 2 + tz ^ 2) ≠ 0 := by positivity
  field_simp
  ring

/-- Drifting does not change the angular momentum. -/
theorem spin_half (k : Push.Const) (dt : ℝ) (p : Ph) : spin (Push.halfPush1 k dt p) = spin p := by
  simp only [spin, Push.halfPush1]
  ring

theorem boris_spin (k : Push.Const) {fs : List PField} (hf : Central fs) (t dt : ℝ) (p : Ph) :
    spin (Push.borisStep k fs t dt p) = spin p := by
  unfold Push.borisStep
  dsimp only
  rw [spin_half, ← spin_half k dt p]
  generalize Push.halfPush1 k dt p = p
  obtain ⟨h1, h2, h3⟩ := hf (t + dt / 2) p
  generalize felt fs (t + dt / 2) p = f at h1 h2 h3
  simp only [spin, Push.pushMomentum1, h3, mul_zero, add_zero, sub_zero]
  generalize k.c / √(1 + ((p.px + k.qmc * dt / 2 * f.ex) ^ 2 + (p.py + k.qmc * dt / 2 * f.ey) ^ 2 +
    (p.pz + k.qmc * dt / 2 * f.ez) ^ 2)) = g
  generalize k.qmc * dt / 2 = a
  generalize 2 / (1 + (a * g * f.bx) ^ 2 + (a * g * f.b_y) ^ 2 + 0 ^ 2) = s
  linear_combination (-2 * a) * h1 + ((p.pz + a * f.ez + (p.px + a * f.ex) * (a * g * f.b_y) -
    (p.py + a * f.ey) * (a * g * f.bx)) * s * a * g) * h2

/-! ### Whole tracking -/

/-- What one Boris step does not change is not changed between the outputs. -/
theorem track_invariant {e : Elem F Φ} (h : e.Ok) (hm : StrictMono e.f32) (hpush : e.pushBefore = true)
    (hp : e.pusher = "boris") (hsch : ∀ n, (e.sch n).Valid n) {P : List PField → Prop} (h0 : P []) (hP : ∀ φ, P (e.felt φ))
    {I : Ph → ℝ} (hI : ∀ k fs t dt p, P fs → I (Push.borisStep k fs t dt p) = I p) (opmd : Bool) (fuel : ℕ)
    (bunches : OneOrMany Bunch) (hb : ∀ b ∈ bunches.toList, b.Fits) (b0 : Bunch) (φ : Φ)
    {r : OneOrMany (List Bunch)} {w : World Φ} (hr : e.track opmd fuel bunches b0 φ = .returned (r, w)) :
    ∃ ls : List (List Bunch), r = pack ls ∧ ls.length = bunches.toList.length ∧
      ∀ (i : ℕ) (b : Bunch), bunches.toList[i]? = some b → ∃ l : List Bunch, ls[i]? = some l ∧ l.length = e.nOut + 1 ∧
        ∀ a ∈ l, a.n = b.n ∧ ∀ p < b.n, I (a.ph p) = I (b.ph p) := by
  obtain ⟨ls, h1, h2, h3⟩ := track_rel h hm hpush
    (Rel := fun _ b b' => b'.n = b.n ∧ ∀ p < b.n, I (b'.ph p) = I (b.ph p)) (Good := Bunch.Fits)
    (fun b => ⟨rfl, fun p _ => rfl⟩)
    (fun s t a b d h1 h2 => ⟨h2.1.trans h1.1, fun p hp => (h2.2 p (h1.1.symm ▸ hp)).trans (h1.2 p hp)⟩)
    (by
      intro φ b t dt hdt hf
      cases ha : b.activeFields (e.felt φ) with
      | error x =>
        rw [evolve_error _ _ _ _ _ _ _ ha]
        refine ⟨hf, rfl, fun p hp => ?_⟩
        exfalso
        obtain ⟨fs, h4, -⟩ := activeFields_some (b := b) (by omega) (e.felt φ)
        rw [h4] at ha
        cases ha
      | ok fs =>
        obtain ⟨b', e1, g1, -, g2, -, -, -, -, -, -, -, -, -, g3⟩ :=
          evolve_spec e.c b (e.felt φ) fs (hsch b.n) t dt (Or.inr hp) hf ha
        rw [e1]
        refine ⟨g3, g1, fun p hpn => ?_⟩
        rw [g2, if_pos hpn]
        unfold stepOf
        rw [if_neg (by rw [hp]; decide)]
        refine hI _ _ _ _ _ ?_
        obtain ⟨fs', h4, h5⟩ := activeFields_some (b := b) (by omega) (e.felt φ)
        rw [h4] at ha
        cases ha
        rcases h5 with h5 | h5
        · rw [h5]; exact hP φ
        · rw [h5]; exact h0)
    opmd fuel bunches hb b0 φ hr
  refine ⟨ls, h1, h2, fun i b hi => ?_⟩
  obtain ⟨l, g1, g2, g3⟩ := h3 i b hi
  refine ⟨l, g1, g2, fun a ha => ?_⟩
  obtain ⟨k, hk⟩ := List.mem_iff_getElem?.mp ha
  have hk' : k < l.length := (List.getElem?_eq_some_iff.mp hk).1
  rw [g2] at hk'
  have hn : 0 < e.nOut := by
    rcases Nat.eq_zero_or_pos e.nOut with h0 | h0
    · have := h.sep
      rw [h0] at this
      simp at this
    · exact h0
  by_cases hlast : k < e.nOut
  · obtain ⟨b1, b2, e1, e2, e3, e4⟩ := g3 k e.nOut hlast le_rfl
    rw [hk] at e1
    cases e1
    exact e3
  · obtain ⟨b1, b2, e1, e2, e3, e4⟩ := g3 0 k (by omega) (by omega)
    rw [hk] at e2
    cases e2
    exact ⟨e4.1.trans e3.1, fun p hp => (e4.2 p (e3.1.symm ▸ hp)).trans (e3.2 p hp)⟩

/-! ### C151 -/

/-- The fields of a quadrupole and of a plasma lens, together with others of the kind. -/
theorem magnetic_of {fs : List PField} (h : ∀ f ∈ fs, ∃ g, f = (fun _ x y xi v => (Stage.lensField g).gather1 x y xi v) ∨
    f = fun _ x y xi v => (Stage.quadField g).gather1 x y xi v) : Magnetic fs := by
  intro t p
  have : ∀ v : EB ℝ, v.ex = 0 ∧ v.ey = 0 ∧ v.ez = 0 →
      (fs.foldl (fun v f => f t p.x p.y p.xi v) v).ex = 0 ∧ (fs.foldl (fun v f => f t p.x p.y p.xi v) v).ey = 0 ∧
      (fs.foldl (fun v f => f t p.x p.y p.xi v) v).ez = 0 := by
    induction fs with
    | nil => exact fun v hv => hv
    | cons f fs ih =>
      intro v hv
      rw [List.foldl_cons]
      refine ih (fun f hf => h f (List.mem_cons_of_mem _ hf)) _ ?_
      obtain ⟨g, rfl | rfl⟩ := h f List.mem_cons_self
      · exact hv
      · exact hv
  exact this _ ⟨rfl, rfl, rfl⟩

/-- **C151.** With the Boris pusher no particle gains or loses energy on its way through an element whose fields are
magnetic, in no output and whatever the bunches, the lengths of the steps and the order of the loops. -/
theorem magnets_energy {e : Elem F Φ} (h : e.Ok) (hm : StrictMono e.f32) (hpush : e.pushBefore = true)
    (hp : e.pusher = "boris") (hsch : ∀ n, (e.sch n).Valid n) (hB : ∀ φ, Magnetic (e.felt φ)) (opmd : Bool) (fuel : ℕ)
    (bunches : OneOrMany Bunch) (hb : ∀ b ∈ bunches.toList, b.Fits) (b0 : Bunch) (φ : Φ)
    {r : OneOrMany (List Bunch)} {w : World Φ} (hr : e.track opmd fuel bunches b0 φ = .returned (r, w)) :
    ∃ ls : List (List Bunch), r = pack ls ∧ ls.length = bunches.toList.length ∧
      ∀ (i : ℕ) (b : Bunch), bunches.toList[i]? = some b → ∃ l : List Bunch, ls[i]? = some l ∧ l.length = e.nOut + 1 ∧
        ∀ a ∈ l, a.n = b.n ∧ ∀ p < b.n, lorentz (a.ph p) = lorentz (b.ph p) :=
  track_invariant h hm hpush hp hsch (P := Magnetic) (fun _ _ => ⟨rfl, rfl, rfl⟩) hB
    (fun k _ t dt p hf => boris_lorentz k hf t dt p) opmd fuel bunches hb b0 φ hr

/-- **C151.** Lenses without wakefields and quadrupoles. -/
theorem lens_energy {e : Elem F Φ} (h : e.Ok) (hm : StrictMono e.f32) (hpush : e.pushBefore = true)
    (hp : e.pusher = "boris") (hsch : ∀ n, (e.sch n).Valid n) (g : ℝ)
    (hB : ∀ φ, e.felt φ = [fun _ x y xi v => (Stage.lensField g).gather1 x y xi v] ∨
      e.felt φ = [fun _ x y xi v => (Stage.quadField g).gather1 x y xi v]) (opmd : Bool) (fuel : ℕ)
    (bunches : OneOrMany Bunch) (hb : ∀ b ∈ bunches.toList, b.Fits) (b0 : Bunch) (φ : Φ)
    {r : OneOrMany (List Bunch)} {w : World Φ} (hr : e.track opmd fuel bunches b0 φ = .returned (r, w)) :
    ∃ ls : List (List Bunch), r = pack ls ∧ ls.length = bunches.toList.length ∧
      ∀ (i : ℕ) (b : Bunch), bunches.toList[i]? = some b → ∃ l : List Bunch, ls[i]? = some l ∧ l.length = e.nOut + 1 ∧
        ∀ a ∈ l, a.n = b.n ∧ ∀ p < b.n, lorentz (a.ph p) = lorentz (b.ph p) := by
  refine magnets_energy h hm hpush hp hsch (fun φ => magnetic_of fun f hf => ?_) opmd fuel bunches hb b0 φ hr
  rcases hB φ with h | h
  · rw [h, List.mem_singleton] at hf
    exact ⟨g, Or.inl hf⟩
  · rw [h, List.mem_singleton] at hf
    exact ⟨g, Or.inr hf⟩

/-- Two bunches in a lens. -/
example (sch : ℕ → Sched) (hsch : ∀ n, (sch n).Valid n) : ∃ fuel ls w,
    ({ demo sch with felt := fun _ => [fun _ x y xi v => (Stage.lensField 3).gather1 x y xi v] } : Elem ℝ Unit).track false fuel
        (.many [sample none, sample (some 1)]) (sample none) () = .returned (.many ls, w) ∧
      ∃ l, ls[1]? = some l ∧ l.length = 3 ∧
        ∀ a ∈ l, ∀ p < (sample (some 1)).n, lorentz (a.ph p) = lorentz ((sample (some 1)).ph p) := by
  set e : Elem ℝ Unit := { demo sch with felt := fun _ => [fun _ x y xi v => (Stage.lensField 3).gather1 x y xi v] } with he
  have hok : e.Ok := { demo_ok sch with }
  obtain ⟨fuel, ⟨r, w⟩, hr⟩ := track_returns hok strictMono_id (by norm_num [he, demo]) (δ := 1 / 5) (by norm_num)
    (fun b => by simp only [he, demo]; nlinarith [sq_nonneg b.propDistance])
    (.many [sample none, sample (some 1)]) (by intro l hl; cases hl; rfl) false (sample none) ()
  obtain ⟨ls, h1, h2, h3⟩ := lens_energy hok strictMono_id rfl rfl hsch 3 (fun _ => Or.inl rfl) false fuel _ (by
    intro b hb
    rcases List.mem_cons.mp hb with rfl | hb
    · exact sample_fits _
    · rw [List.mem_singleton.mp hb]
      exact sample_fits _) _ _ hr
  obtain ⟨l, h4, h6, h5⟩ := h3 1 (sample (some 1)) rfl
  refine ⟨fuel, ls, w, ?_, l, h4, h6, fun a ha => (h5 a ha).2⟩
  rw [hr, h1]
  match ls, h2 with
  | [a, b], _ => rfl

/-! ### C152 -/

/-- A source that adds no azimuthal electric field, and no magnetic field that is not azimuthal. -/
def Source (f : PField) : Prop := ∀ t x y xi (v : EB ℝ),
  v.ex * y = v.ey * x ∧ v.bx * x + v.b_y * y = 0 ∧ v.bz = 0 →
    (f t x y xi v).ex * y = (f t x y xi v).ey * x ∧ (f t x y xi v).bx * x + (f t x y xi v).b_y * y = 0 ∧
    (f t x y xi v).bz = 0

theorem central_of {fs : List PField} (h : ∀ f ∈ fs, Source f) : Central fs := by
  intro t p
  have : ∀ v : EB ℝ, v.ex * p.y = v.ey * p.x ∧ v.bx * p.x + v.b_y * p.y = 0 ∧ v.bz = 0 →
      (fs.foldl (fun v f => f t p.x p.y p.xi v) v).ex * p.y = (fs.foldl (fun v f => f t p.x p.y p.xi v) v).ey * p.x ∧
      (fs.foldl (fun v f => f t p.x p.y p.xi v) v).bx * p.x + (fs.foldl (fun v f => f t p.x p.y p.xi v) v).b_y * p.y = 0 ∧
      (fs.foldl (fun v f => f t p.x p.y p.xi v) v).bz = 0 := by
    induction fs with
    | nil => exact fun v hv => hv
    | cons f fs ih =>
      intro v hv
      rw [List.foldl_cons]
      exact ih (fun f hf => h f (List.mem_cons_of_mem _ hf)) _ (h f List.mem_cons_self _ _ _ _ _ hv)
  exact this _ ⟨by simp, by simp, rfl⟩

/-- Lenses and the blowout models. -/
theorem source_lib (f : ℝ → LibField ℝ) (hf : ∀ t, Axisymmetric (f t)) : Source fun t x y xi v => (f t).gather1 x y xi v := by
  intro t x y xi v
  have h := hf t
  dsimp only
  generalize f t = g at h
  rintro ⟨h1, h2, h3⟩
  cases g with
  | none => exact ⟨h1, h2, h3⟩
  | linearBTheta k => exact ⟨h1, by simp only [LibField.gather1]; linear_combination h2, h3⟩
  | quadrupole k => exact h.elim
  | simpleBlowout c g ezp off => exact ⟨by simp only [LibField.gather1]; ring, h2, h3⟩
  | customBlowout c k ez0 ezp off => exact ⟨by simp only [LibField.gather1]; ring, h2, h3⟩
  | focusingBlowout c k => exact ⟨by simp only [LibField.gather1]; ring, h2, h3⟩
  | rz f => exact h.elim

/-- The wakefield on a grid. -/
theorem source_grid (b : Interp.Box) (er ez bt : Arr ℝ) : Source (gridField b er ez bt) := by
  intro t x y xi v h
  unfold gridField Interp.gatherMain1
  dsimp only
  by_cases h0 : √(x ^ 2 + y ^ 2) = 0
  · rw [if_pos h0]
    exact h
  · rw [if_neg h0]
    by_cases hh : b.Has √(x ^ 2 + y ^ 2) xi
    · rw [if_pos hh]
      cases Interp.cellInterp b (-1) er √(x ^ 2 + y ^ 2) xi with
      | none => exact h
      | some ei =>
        cases Interp.cellInterp b (-1) bt √(x ^ 2 + y ^ 2) xi with
        | none => exact h
        | some bi =>
          cases Interp.cellInterp b 1 ez √(x ^ 2 + y ^ 2) xi with
          | none => exact h
          | some zi =>
            refine ⟨?_, ?_, h.2.2⟩
            · dsimp only; linear_combination h.1
            · dsimp only; linear_combination h.2.1
    · rw [if_neg hh]
      exact h

/-- **C152.** With the Boris pusher the angular momentum of a particle about the axis is the same in all outputs of an
element with central fields, whatever the bunches, the lengths of the steps and the order of the loops. -/
theorem angular_momentum {e : Elem F Φ} (h : e.Ok) (hm : StrictMono e.f32) (hpush : e.pushBefore = true)
    (hp : e.pusher = "boris") (hsch : ∀ n, (e.sch n).Valid n) (hB : ∀ φ, Central (e.felt φ)) (opmd : Bool) (fuel : ℕ)
    (bunches : OneOrMany Bunch) (hb : ∀ b ∈ bunches.toList, b.Fits) (b0 : Bunch) (φ : Φ)
    {r : OneOrMany (List Bunch)} {w : World Φ} (hr : e.track opmd fuel bunches b0 φ = .returned (r, w)) :
    ∃ ls : List (List Bunch), r = pack ls ∧ ls.length = bunches.toList.length ∧
      ∀ (i : ℕ) (b : Bunch), bunches.toList[i]? = some b → ∃ l : List Bunch, ls[i]? = some l ∧ l.length = e.nOut + 1 ∧
        ∀ a ∈ l, a.n = b.n ∧ ∀ p < b.n, spin (a.ph p) = spin (b.ph p) :=
  track_invariant h hm hpush hp hsch (P := Central) (fun _ _ => ⟨by simp [felt], by simp [felt], rfl⟩) hB
    (fun k _ t dt p hf => boris_spin k hf t dt p) opmd fuel bunches hb b0 φ hr

end WakeT.FieldElement

namespace WakeT.Stage

open Bunch FieldElement Laser
open Push (PField Sched Ph)
open Fields (NumField LibField)

variable {F : Type} [LinearOrder F]

/-- **C152** for plasma stages: with a wakefield on a grid (whatever the model, the laser and the bunches), and with the
fields of lenses and blowout models as external fields. -/
theorem stage_angular_momentum {p : PStage F} (h : p.elem.Ok) (hm : StrictMono p.f32) (hpush : p.pushBefore = true)
    (hp : p.pusher = "boris") (hsch : ∀ n, (p.sch n).Valid n)
    (hext : ∀ f ∈ p.ext, ∃ g : ℝ → LibField ℝ, (∀ t, Axisymmetric (g t)) ∧ f = fun t x y xi v => (g t).gather1 x y xi v)
    (opmd : Bool) (fuel : ℕ) (bunches : OneOrMany Bunch) (hb : ∀ b ∈ bunches.toList, b.Fits) (b0 : Bunch)
    {r : OneOrMany (List Bunch)} {w : World (NumField ℝ (Option Props))}
    (hr : p.track opmd fuel bunches b0 = .returned (r, w)) :
    ∃ ls : List (List Bunch), r = pack ls ∧ ls.length = bunches.toList.length ∧
      ∀ (i : ℕ) (b : Bunch), bunches.toList[i]? = some b → ∃ l : List Bunch, ls[i]? = some l ∧ l.length = p.nOut + 1 ∧
        ∀ a ∈ l, a.n = b.n ∧ ∀ q < b.n, spin (a.ph q) = spin (b.ph q) := by
  unfold PStage.track at hr
  cases hd : p.wake.dtUpdate p.length with
  | none => rw [hd] at hr; cases hr
  | some dt =>
    rw [hd] at hr
    refine angular_momentum h hm hpush hp hsch (fun φ => central_of fun f hf => ?_) opmd fuel bunches hb b0 _ hr
    rcases List.mem_append.mp hf with hf | hf
    · cases hp : φ.prop with
      | none => rw [hp] at hf; cases hf
      | some x =>
        rw [hp] at hf
        rw [List.mem_singleton.mp hf]
        exact source_grid _ _ _ _
    · obtain ⟨g, h1, rfl⟩ := hext f hf
      exact source_lib g h1

/-- Two bunches in the stage with an evolving laser. -/
example (sch : ℕ → Sched) (hsch : ∀ n, (sch n).Valid n) : ∃ fuel ls w,
    (demoStage true sch).track false fuel (.many [sample none, sample (some 1)]) (sample none) = .returned (.many ls, w) ∧
      ∃ l, ls[0]? = some l ∧ l.length = 3 ∧ ∀ a ∈ l, ∀ q < (sample none).n, spin (a.ph q) = spin ((sample none).ph q) := by
  obtain ⟨fuel, ⟨r, w⟩, hr⟩ := demo_returns true sch (.many [sample none, sample (some 1)]) (sample none)
  obtain ⟨ls, h1, h2, h3⟩ := stage_angular_momentum (demo_ok true sch) strictMono_id rfl rfl hsch (by intro f hf; cases hf)
    false fuel _ (by
    intro b hb
    rcases List.mem_cons.mp hb with rfl | hb
    · exact sample_fits _
    · rw [List.mem_singleton.mp hb]
      exact sample_fits _) _ hr
  obtain ⟨l, h4, h6, h5⟩ := h3 0 (sample none) rfl
  refine ⟨fuel, ls, w, ?_, l, h4, h6, fun a ha => (h5 a ha).2⟩
  rw [hr, h1]
  match ls, h2 with
  | [a, b], _ => rfl

end WakeT.Stage
