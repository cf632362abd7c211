import Verif.Stage.Invariants
import Verif.Tracker.Order

/-! # Acceleration in plasma stages (C170) -/

set_option linter.unusedSectionVars false

namespace WakeT.Stage

open Tracker Bunch FieldElement
open Push (Ph PField Sched felt)
open Fields (EB LibField)

variable {F Φ : Type} [LinearOrder F]

/-! ### Specification -/

/-- A particle on the axis that flies along the axis. -/
structure OnAxis (p : Ph) : Prop where
  x : p.x = 0
  y : p.y = 0
  px : p.px = 0
  py : p.py = 0

/-- Fields without transverse magnetic field, with a longitudinal force on the charge `q` between `lo` and `hi`. -/
def Pulls (q lo hi : ℝ) (fs : List PField) : Prop :=
  ∀ t p, (felt fs t p).bx = 0 ∧ (felt fs t p).b_y = 0 ∧ lo ≤ q * (felt fs t p).ez ∧ q * (felt fs t p).ez ≤ hi

/-- Fields that have no transverse component on the axis and a longitudinal force on the charge `q` between `lo` and `hi`. -/
def PullsOnAxis (q lo hi : ℝ) (fs : List PField) : Prop :=
  ∀ t p, p.x = 0 → p.y = 0 → (felt fs t p).ex = 0 ∧ (felt fs t p).ey = 0 ∧ (felt fs t p).bx = 0 ∧ (felt fs t p).b_y = 0 ∧
    lo ≤ q * (felt fs t p).ez ∧ q * (felt fs t p).ez ≤ hi

/-- The longitudinal momentum (in `m c`) changes in the time `T` by what a force between `lo` and `hi` does. -/
def Gains (m c lo hi T : ℝ) (p p' : Ph) : Prop :=
  lo * T / (m * c) ≤ p'.pz - p.pz ∧ p'.pz - p.pz ≤ hi * T / (m * c)

/-! ### One step -/

theorem Gains.refl (m c lo hi : ℝ) (p : Ph) : Gains m c lo hi 0 p p := by
  simp [Gains]

theorem Gains.trans {m c lo hi s t : ℝ} {p p' p'' : Ph} (h1 : Gains m c lo hi s p p') (h2 : Gains m c lo hi t p' p'') :
    Gains m c lo hi (s + t) p p'' := by
  obtain ⟨a1, a2⟩ := h1
  obtain ⟨b1, b2⟩ := h2
  constructor <;> rw [mul_add, add_div] <;> linarith

theorem boris_gain {k : Push.Const} {fs : List PField} {t dt lo hi : ℝ} (hc : 0 < k.c) (hm : 0 < k.m) (hdt : 0 ≤ dt) {p : Ph}
    (h : (felt fs (t + dt / 2) (Push.halfPush1 k dt p)).bx = 0 ∧ (felt fs (t + dt / 2) (Push.halfPush1 k dt p)).b_y = 0 ∧
      lo ≤ k.q * (felt fs (t + dt / 2) (Push.halfPush1 k dt p)).ez ∧ k.q * (felt fs (t + dt / 2) (Push.halfPush1 k dt p)).ez ≤ hi) :
    Gains k.m k.c lo hi dt p (Push.borisStep k fs t dt p) := by
  have e : (Push.borisStep k fs t dt p).pz - p.pz = k.q * (felt fs (t + dt / 2) (Push.halfPush1 k dt p)).ez * dt / (k.m * k.c) := by
    unfold Push.borisStep
    dsimp only
    generalize felt fs (t + dt / 2) (Push.halfPush1 k dt p) = f at h
    simp only [Push.halfPush1, Push.pushMomentum1, h.1, h.2.1, Push.Const.qmc]
    ring
  unfold Gains
  rw [e]
  constructor
  · gcongr
    exact h.2.2.1
  · gcongr
    exact h.2.2.2

theorem rk4_gain {k : Push.Const} {fs : List PField} {t dt lo hi : ℝ} (hdt : 0 ≤ dt) {p : Ph} {S : Ph → Prop}
    (h : ∀ t p, S p → lo / (k.m * k.c) ≤ (Push.motion k fs t p).pz ∧ (Push.motion k fs t p).pz ≤ hi / (k.m * k.c))
    (hS : ∀ t h p p', S p → S p' → S (p.shift h (Push.motion k fs t p'))) (hp : S p) :
    Gains k.m k.c lo hi dt p (Push.classicalRK4 (Push.motion k fs) t dt p) ∧ S (Push.classicalRK4 (Push.motion k fs) t dt p) := by
  unfold Gains Push.classicalRK4
  dsimp only
  have s2 := hS t (dt / 2) p _ hp hp
  have s3 := hS (t + dt / 2) (dt / 2) p _ hp s2
  have s4 := hS (t + dt / 2) dt p _ hp s3
  have s5 := hS (t + dt) (dt / 6) _ _ (hS (t + dt / 2) (dt / 3) _ _ (hS (t + dt / 2) (dt / 3) _ _ (hS t (dt / 6) p _ hp hp) s2) s3) s4
  refine ⟨?_, s5⟩
  have h1 := h t _ hp
  have h2 := h (t + dt / 2) _ s2
  have h3 := h (t + dt / 2) _ s3
  have h4 := h (t + dt) _ s4
  generalize Push.motion k fs (t + dt) _ = k4 at h4 ⊢
  generalize Push.motion k fs (t + dt / 2) (p.shift (dt / 2) (Push.motion k fs (t + dt / 2) _)) = k3 at h3 ⊢
  generalize Push.motion k fs (t + dt / 2) _ = k2 at h2 ⊢
  generalize Push.motion k fs t p = k1 at h1 ⊢
  simp only [Push.Ph.shift]
  rw [mul_div_right_comm, mul_div_right_comm hi]
  generalize lo / (k.m * k.c) = a at *
  generalize hi / (k.m * k.c) = b at *
  constructor
  · nlinarith only [h1.1, h2.1, h3.1, h4.1, hdt]
  · nlinarith only [h1.2, h2.2, h3.2, h4.2, hdt]

theorem motion_gain {k : Push.Const} {fs : List PField} {t lo hi : ℝ} (hc : 0 < k.c) (hm : 0 < k.m) {p : Ph}
    (h : (felt fs t p).bx = 0 ∧ (felt fs t p).b_y = 0 ∧ lo ≤ k.q * (felt fs t p).ez ∧ k.q * (felt fs t p).ez ≤ hi) :
    lo / (k.m * k.c) ≤ (Push.motion k fs t p).pz ∧ (Push.motion k fs t p).pz ≤ hi / (k.m * k.c) := by
  have e : (Push.motion k fs t p).pz = k.q * (felt fs t p).ez / (k.m * k.c) := by
    simp only [Push.motion, h.1, h.2.1]
    ring
  rw [e]
  constructor
  · gcongr
    exact h.2.2.1
  · gcongr
    exact h.2.2.2

theorem step_pulls {k : Push.Const} {fs : List PField} {lo hi : ℝ} (hc : 0 < k.c) (hm : 0 < k.m) (h : Pulls k.q lo hi fs) (pusher : String) (t : ℝ) {dt : ℝ}
    (hdt : 0 ≤ dt) (p : Ph) : Gains k.m k.c lo hi dt p (stepOf pusher k fs t dt p) := by
  unfold stepOf
  split_ifs
  · exact (rk4_gain (S := fun _ => True) hdt (fun t p _ => motion_gain hc hm (h t p)) (fun _ _ _ _ _ _ => trivial) trivial).1
  · exact boris_gain hc hm hdt (h _ _)

theorem onAxis_half {k : Push.Const} {dt : ℝ} {p : Ph} (h : OnAxis p) : OnAxis (Push.halfPush1 k dt p) := by
  obtain ⟨h1, h2, h3, h4⟩ := h
  constructor <;> simp [Push.halfPush1, h1, h2, h3, h4]

theorem step_onAxis {k : Push.Const} {fs : List PField} {lo hi : ℝ} (hc : 0 < k.c) (hm : 0 < k.m) (h : PullsOnAxis k.q lo hi fs) (pusher : String) (t : ℝ) {dt : ℝ}
    (hdt : 0 ≤ dt) {p : Ph} (hp : OnAxis p) : OnAxis (stepOf pusher k fs t dt p) ∧ Gains k.m k.c lo hi dt p (stepOf pusher k fs t dt p) := by
  unfold stepOf
  split_ifs
  · refine (rk4_gain hdt (S := OnAxis) (fun t p hp => motion_gain hc hm (h t p hp.x hp.y).2.2) (fun t h' p p' h1 h2 => ?_) hp).symm
    obtain ⟨g1, g2, g3, g4, -⟩ := h t p' h2.x h2.y
    constructor <;> simp [Push.Ph.shift, Push.motion, h1.x, h1.y, h1.px, h1.py, h2.px, h2.py, g1, g2, g3, g4]
  · have h1 := onAxis_half (k := k) (dt := dt) hp
    obtain ⟨g1, g2, g3, g4, g5⟩ := h (t + dt / 2) _ h1.x h1.y
    refine ⟨?_, boris_gain hc hm hdt ⟨g3, g4, g5⟩⟩
    unfold Push.borisStep
    refine onAxis_half ?_
    obtain ⟨a1, a2, a3, a4⟩ := h1
    constructor <;> simp [Push.pushMomentum1, a1, a2, a3, a4, g1, g2, g3, g4]

/-! ### Whole tracking -/

/-- What every step does to the particles of a class `S` holds between the outputs. -/
theorem track_gains {e : Elem F Φ} (h : e.Ok) (hm : StrictMono e.f32) (hpush : e.pushBefore = true) (hp : e.pusher = "rk4" ∨ e.pusher = "boris")
    (hsch : ∀ n, (e.sch n).Valid n) {q m lo hi : ℝ} {S : Ph → Prop}
    (hstep : ∀ φ t dt p, 0 ≤ dt → S p → S (stepOf e.pusher ⟨e.c, q, m⟩ (e.felt φ) t dt p) ∧ Gains m e.c lo hi dt p (stepOf e.pusher ⟨e.c, q, m⟩ (e.felt φ) t dt p))
    (opmd : Bool) (fuel : ℕ) (bunches : OneOrMany Bunch) (hb : ∀ b ∈ bunches.toList, b.Fits) (b0 : Bunch) (φ : Φ)
    {r : OneOrMany (List Bunch)} {w : World Φ} (hr : e.track opmd fuel bunches b0 φ = .returned (r, w)) :
    ∃ ls : List (List Bunch), r = pack ls ∧ ls.length = bunches.toList.length ∧
      ∀ (i : ℕ) (b : Bunch), bunches.toList[i]? = some b → b.qSpecies = q → b.mSpecies = m → b.zInjection = none →
        ∃ l : List Bunch, ls[i]? = some l ∧ l.length = e.nOut + 1 ∧ ∀ k k', k < k' → k' ≤ e.nOut → ∃ b1 b2, l[k]? = some b1 ∧ l[k']? = some b2 ∧
          b1.n = b.n ∧ b2.n = b.n ∧ ∀ p < b.n, S (b.ph p) → S (b1.ph p) ∧ S (b2.ph p) ∧ Gains m e.c lo hi (k * (e.length / e.c / e.nOut)) (b.ph p) (b1.ph p) ∧
            Gains m e.c lo hi ((k' - k) * (e.length / e.c / e.nOut)) (b1.ph p) (b2.ph p) := by
  obtain ⟨ls, h1, h2, h3⟩ := track_rel h hm hpush
    (Rel := fun t b b' => b'.n = b.n ∧ b'.qSpecies = b.qSpecies ∧ b'.mSpecies = b.mSpecies ∧ b'.zInjection = b.zInjection ∧
      (b.qSpecies = q → b.mSpecies = m → b.zInjection = none → ∀ p < b.n, S (b.ph p) → S (b'.ph p) ∧ Gains m e.c lo hi t (b.ph p) (b'.ph p)))
    (Good := Bunch.Fits)
    (fun b => ⟨rfl, rfl, rfl, rfl, fun _ _ _ p _ hS => ⟨hS, .refl _ _ _ _ _⟩⟩)
    (fun s t a b d h1 h2 => ⟨h2.1.trans h1.1, h2.2.1.trans h1.2.1, h2.2.2.1.trans h1.2.2.1, h2.2.2.2.1.trans h1.2.2.2.1, fun hq hm' hz p hp hS => by
      obtain ⟨a1, a2⟩ := h1.2.2.2.2 hq hm' hz p hp hS
      obtain ⟨b1, b2⟩ := h2.2.2.2.2 (h1.2.1.trans hq) (h1.2.2.1.trans hm') (h1.2.2.2.1.trans hz) p (h1.1.symm ▸ hp) a1
      exact ⟨b1, a2.trans b2⟩⟩)
    (by
      intro φ b t dt hdt hf
      cases ha : b.activeFields (e.felt φ) with
      | error x =>
        rw [evolve_error _ _ _ _ _ _ _ ha]
        refine ⟨hf, rfl, rfl, rfl, rfl, fun _ _ _ p hp => ?_⟩
        exfalso
        obtain ⟨fs, h4, -⟩ := activeFields_some (b := b) (by omega) (e.felt φ)
        rw [h4] at ha
        cases ha
      | ok fs =>
        obtain ⟨b', e1, g1, -, g2, -, -, -, -, g4, g5, -, -, g6, g3⟩ := evolve_spec e.c b (e.felt φ) fs (hsch b.n) t dt hp hf ha
        rw [e1]
        refine ⟨g3, g1, g4, g5, g6, fun hq hm' hz p hpn hS => ?_⟩
        rw [g2, if_pos hpn]
        have hfs : fs = e.felt φ := by
          unfold Bunch.activeFields at ha
          rw [hz] at ha
          exact (Except.ok.inj ha).symm
        have := hstep φ t dt (b.ph p) hdt hS
        rw [hfs]
        show S (stepOf e.pusher ⟨e.c, b.qSpecies, b.mSpecies⟩ _ t dt _) ∧ Gains m e.c lo hi dt _ (stepOf e.pusher ⟨e.c, b.qSpecies, b.mSpecies⟩ _ t dt _)
        rw [hq, hm']
        exact this)
    opmd fuel bunches hb b0 φ hr
  refine ⟨ls, h1, h2, fun i b hi hq hm' hz => ?_⟩
  obtain ⟨l, g1, g2, g3⟩ := h3 i b hi
  refine ⟨l, g1, g2, fun k k' hk hk' => ?_⟩
  obtain ⟨b1, b2, e1, e2, e3, e4⟩ := g3 k k' hk hk'
  refine ⟨b1, b2, e1, e2, e3.1, e4.1.trans e3.1, fun p hp hS => ?_⟩
  obtain ⟨a1, a2⟩ := e3.2.2.2.2 hq hm' hz p hp hS
  obtain ⟨c1, c2⟩ := e4.2.2.2.2 (e3.2.1.trans hq) (e3.2.2.1.trans hm') (e3.2.2.2.1.trans hz) p (e3.1.symm ▸ hp) a1
  exact ⟨a1, c1, a2, c2⟩

/-! ### C170 -/

/-- **C170, bounds.** In fields without transverse magnetic field the longitudinal momentum of every particle changes between two outputs by at least the smallest and at most the
largest force times the time in between, with both pushers and any steps. -/
theorem gain_bounds {e : Elem F Φ} (h : e.Ok) (hm : StrictMono e.f32) (hpush : e.pushBefore = true) (hp : e.pusher = "rk4" ∨ e.pusher = "boris")
    (hsch : ∀ n, (e.sch n).Valid n) {q m lo hi : ℝ} (hm0 : 0 < m) (hf : ∀ φ, Pulls q lo hi (e.felt φ))
    (opmd : Bool) (fuel : ℕ) (bunches : OneOrMany Bunch) (hb : ∀ b ∈ bunches.toList, b.Fits) (b0 : Bunch) (φ : Φ)
    {r : OneOrMany (List Bunch)} {w : World Φ} (hr : e.track opmd fuel bunches b0 φ = .returned (r, w)) :
    ∃ ls : List (List Bunch), r = pack ls ∧ ls.length = bunches.toList.length ∧
      ∀ (i : ℕ) (b : Bunch), bunches.toList[i]? = some b → b.qSpecies = q → b.mSpecies = m → b.zInjection = none →
        ∃ l : List Bunch, ls[i]? = some l ∧ l.length = e.nOut + 1 ∧ ∀ k k', k < k' → k' ≤ e.nOut → ∃ b1 b2, l[k]? = some b1 ∧ l[k']? = some b2 ∧
          b1.n = b.n ∧ b2.n = b.n ∧ ∀ p < b.n, Gains m e.c lo hi (k * (e.length / e.c / e.nOut)) (b.ph p) (b1.ph p) ∧
            Gains m e.c lo hi ((k' - k) * (e.length / e.c / e.nOut)) (b1.ph p) (b2.ph p) := by
  obtain ⟨ls, h1, h2, h3⟩ := track_gains h hm hpush hp hsch (q := q) (m := m) (S := fun _ => True)
    (fun φ t dt p hdt _ => ⟨trivial, step_pulls (k := ⟨e.c, q, m⟩) h.c hm0 (hf φ) e.pusher t hdt p⟩) opmd fuel bunches hb b0 φ hr
  refine ⟨ls, h1, h2, fun i b hi hq hm' hz => ?_⟩
  obtain ⟨l, g1, g2, g3⟩ := h3 i b hi hq hm' hz
  refine ⟨l, g1, g2, fun k k' hk hk' => ?_⟩
  obtain ⟨b1, b2, e1, e2, e3, e4, e5⟩ := g3 k k' hk hk'
  exact ⟨b1, b2, e1, e2, e3, e4, fun p hp => (e5 p hp trivial).2.2⟩

/-- **C170, axis.** If the fields have no transverse component on the axis, particles that fly along the axis stay on the axis exactly, and gain momentum within the same bounds,
for the forces on the axis. -/
theorem axis_gain {e : Elem F Φ} (h : e.Ok) (hm : StrictMono e.f32) (hpush : e.pushBefore = true) (hp : e.pusher = "rk4" ∨ e.pusher = "boris")
    (hsch : ∀ n, (e.sch n).Valid n) {q m lo hi : ℝ} (hm0 : 0 < m) (hf : ∀ φ, PullsOnAxis q lo hi (e.felt φ))
    (opmd : Bool) (fuel : ℕ) (bunches : OneOrMany Bunch) (hb : ∀ b ∈ bunches.toList, b.Fits) (b0 : Bunch) (φ : Φ)
    {r : OneOrMany (List Bunch)} {w : World Φ} (hr : e.track opmd fuel bunches b0 φ = .returned (r, w)) :
    ∃ ls : List (List Bunch), r = pack ls ∧ ls.length = bunches.toList.length ∧
      ∀ (i : ℕ) (b : Bunch), bunches.toList[i]? = some b → b.qSpecies = q → b.mSpecies = m → b.zInjection = none →
        ∃ l : List Bunch, ls[i]? = some l ∧ l.length = e.nOut + 1 ∧ ∀ k k', k < k' → k' ≤ e.nOut → ∃ b1 b2, l[k]? = some b1 ∧ l[k']? = some b2 ∧
          b1.n = b.n ∧ b2.n = b.n ∧ ∀ p < b.n, OnAxis (b.ph p) → OnAxis (b1.ph p) ∧ OnAxis (b2.ph p) ∧
            Gains m e.c lo hi (k * (e.length / e.c / e.nOut)) (b.ph p) (b1.ph p) ∧
            Gains m e.c lo hi ((k' - k) * (e.length / e.c / e.nOut)) (b1.ph p) (b2.ph p) :=
  track_gains h hm hpush hp hsch (q := q) (m := m) (S := OnAxis)
    (fun φ t dt _ hdt hS => step_onAxis (k := ⟨e.c, q, m⟩) h.c hm0 (hf φ) e.pusher t hdt hS) opmd fuel bunches hb b0 φ hr

/-- The fields of a stage with the model `custom_blowout` and a uniform accelerating field `ez0` (plasma_stage.py 130-140, custom_blowout.py 28-64). -/
noncomputable def boostFields (k : Const) (density bw : ℝ → ℝ) (foc ez0 xiFields : ℝ) : List PField :=
  [fun t x y xi v => (customBlowoutAt k density bw foc ez0 0 xiFields t).gather1 x y xi v]

/-- The fields of a stage with the model `focusing_blowout` (plasma_stage.py 130-140, focusing_blowout.py 8-27). -/
noncomputable def focusFields (k : Const) (density : ℝ → ℝ) : List PField :=
  [fun t x y xi v => (focusingBlowoutAt k density t).gather1 x y xi v]

/-- **C170, blowouts.** In a stage with the model `custom_blowout` without slope every particle, on the axis or not, has gained the momentum `q Ez s / (m c²)` after the distance `s`,
in all outputs, with both pushers and any steps; with the model `focusing_blowout` the longitudinal momentum of no particle changes, whatever the density. -/
theorem blowout_gain {e : Elem F Φ} (h : e.Ok) (hm : StrictMono e.f32) (hpush : e.pushBefore = true) (hp : e.pusher = "rk4" ∨ e.pusher = "boris")
    (hsch : ∀ n, (e.sch n).Valid n) {ez0 : ℝ}
    (hf : (∃ k density bw foc xiFields, ∀ φ, e.felt φ = boostFields k density bw foc ez0 xiFields) ∨ ez0 = 0 ∧ ∃ k density, ∀ φ, e.felt φ = focusFields k density)
    (opmd : Bool) (fuel : ℕ) (bunches : OneOrMany Bunch) (hb : ∀ b ∈ bunches.toList, b.Fits) (b0 : Bunch) (φ : Φ)
    {r : OneOrMany (List Bunch)} {w : World Φ} (hr : e.track opmd fuel bunches b0 φ = .returned (r, w)) :
    ∃ ls : List (List Bunch), r = pack ls ∧ ls.length = bunches.toList.length ∧
      ∀ (i : ℕ) (b : Bunch), bunches.toList[i]? = some b → 0 < b.mSpecies → b.zInjection = none →
        ∃ l : List Bunch, ls[i]? = some l ∧ l.length = e.nOut + 1 ∧ ∀ j ≤ e.nOut, ∃ b', l[j]? = some b' ∧ b'.n = b.n ∧
          ∀ p < b.n, (b'.ph p).pz = (b.ph p).pz + b.qSpecies * ez0 * (j * (e.length / e.nOut)) / (b.mSpecies * e.c ^ 2) := by
  have hpull : ∀ q φ, Pulls q (q * ez0) (q * ez0) (e.felt φ) := by
    intro q φ t p
    rcases hf with ⟨k, density, bw, foc, xiFields, hf⟩ | ⟨rfl, k, density, hf⟩
    · rw [hf]
      simp [boostFields, felt, customBlowoutAt, LibField.gather1]
    · rw [hf]
      simp [focusFields, felt, focusingBlowoutAt, LibField.gather1]
  have hn : 0 < e.nOut := by
    rcases Nat.eq_zero_or_pos e.nOut with h0 | h0
    · have := h.sep
      rw [h0] at this
      simp at this
    · exact h0
  have hc := h.c
  have exact' : ∀ {m T a : ℝ} {p p' : Ph}, Gains m e.c a a T p p' → p'.pz = p.pz + a * T / (m * e.c) := by
    intro m T a p p' hg
    have := le_antisymm hg.2 hg.1
    linarith
  have key := fun q m hm0 => gain_bounds (q := q) (m := m) h hm hpush hp hsch hm0 (hpull q) opmd fuel bunches hb b0 φ hr
  obtain ⟨ls, h1, h2, -⟩ := key 0 1 one_pos
  refine ⟨ls, h1, h2, fun i b hi hm0 hz => ?_⟩
  obtain ⟨ls', g1, -, g3⟩ := key b.qSpecies b.mSpecies hm0
  obtain rfl : ls = ls' := pack_inj (h1.symm.trans g1)
  obtain ⟨l, k1, k2, k3⟩ := g3 i b hi rfl rfl hz
  refine ⟨l, k1, k2, fun j hj => ?_⟩
  by_cases hlast : j < e.nOut
  · obtain ⟨b1, b2, e1, e2, e3, e4, e5⟩ := k3 j e.nOut hlast le_rfl
    refine ⟨b1, e1, e3, fun p hp => ?_⟩
    rw [exact' (e5 p hp).1]
    congr 1
    field_simp
  · obtain ⟨b1, b2, e1, e2, e3, e4, e5⟩ := k3 0 j (by omega) hj
    refine ⟨b2, e2, e4, fun p hp => ?_⟩
    rw [exact' (e5 p hp).2, exact' (e5 p hp).1]
    push_cast
    rw [zero_mul, mul_zero, zero_div, add_zero, sub_zero]
    congr 1
    field_simp

/-- Two bunches of electrons, one particle on the axis and one beside it, in two metres of a blowout with the field `-3`: both gain `6 m c`, the one on the axis also inside of a quadrupole,
where it stays on the axis. -/
example (sch : ℕ → Sched) (hsch : ∀ n, (sch n).Valid n) :
    (∃ fuel ls w l b', ({ FieldElement.demo sch with felt := fun _ => boostFields ⟨1, 1, 1, 1⟩ (fun z => 1 + z) (fun _ => 1 / 2) 5 (-3) 0 } : Elem ℝ Unit).track false fuel
      (.many [sample none, sample none]) (sample none) () = .returned (.many ls, w) ∧ ls[0]? = some l ∧ l[2]? = some b' ∧ (b'.ph 0).pz = 7 ∧ (b'.ph 1).pz = 8) ∧
    ∃ fuel ls w l b', ({ FieldElement.demo sch with felt := fun _ => boostFields ⟨1, 1, 1, 1⟩ (fun z => 1 + z) (fun _ => 1 / 2) 5 (-3) 0 ++
        [fun _ x y xi v => (quadField 4).gather1 x y xi v] } : Elem ℝ Unit).track false fuel
      (.many [sample none, sample none]) (sample none) () = .returned (.many ls, w) ∧ ls[0]? = some l ∧ l[2]? = some b' ∧ OnAxis (b'.ph 0) ∧ (b'.ph 0).pz = 7 := by
  have hfits : ∀ b ∈ (OneOrMany.many [sample none, sample none]).toList, b.Fits := by
    intro b hb
    rcases List.mem_cons.mp hb with rfl | hb
    · exact sample_fits _
    · rw [List.mem_singleton.mp hb]
      exact sample_fits _
  have hok : ∀ fs : List PField, ({ FieldElement.demo sch with felt := fun _ => fs } : Elem ℝ Unit).Ok := fun fs => { FieldElement.demo_ok sch with }
  have ret : ∀ fs : List PField, ∃ fuel rw, ({ FieldElement.demo sch with felt := fun _ => fs } : Elem ℝ Unit).track false fuel
      (.many [sample none, sample none]) (sample none) () = .returned rw := fun fs =>
    track_returns (hok fs) strictMono_id (by norm_num [FieldElement.demo]) (δ := 1 / 5) (by norm_num)
      (fun b => by simp only [FieldElement.demo]; nlinarith [sq_nonneg b.propDistance]) _ (by intro l hl; cases hl; rfl) false (sample none) ()
  have pair : ∀ {r : OneOrMany (List Bunch)} {ls : List (List Bunch)}, r = pack ls → ls.length = 2 → r = .many ls := by
    intro r ls h1 h2
    match ls, h2 with
    | [a, b], _ => exact h1
  constructor
  · obtain ⟨fuel, ⟨r, w⟩, hr⟩ := ret (boostFields ⟨1, 1, 1, 1⟩ (fun z => 1 + z) (fun _ => 1 / 2) 5 (-3) 0)
    obtain ⟨ls, h1, h2, h3⟩ := blowout_gain (ez0 := -3) (hok _) strictMono_id rfl (Or.inr rfl) hsch
      (Or.inl ⟨_, _, _, _, _, fun _ => rfl⟩) false fuel _ hfits _ _ hr
    obtain ⟨l, h4, -, h5⟩ := h3 0 (sample none) rfl (by norm_num [sample, init]) rfl
    obtain ⟨b', h6, -, h7⟩ := h5 2 (by norm_num [FieldElement.demo])
    refine ⟨fuel, ls, w, l, b', by rw [hr, pair h1 h2], h4, h6, ?_, ?_⟩
    · rw [h7 0 (by norm_num [sample, init])]
      norm_num [sample, init, FieldElement.demo]
    · rw [h7 1 (by norm_num [sample, init])]
      norm_num [sample, init, FieldElement.demo]
  · obtain ⟨fuel, ⟨r, w⟩, hr⟩ := ret (boostFields ⟨1, 1, 1, 1⟩ (fun z => 1 + z) (fun _ => 1 / 2) 5 (-3) 0 ++
      [fun _ x y xi v => (quadField 4).gather1 x y xi v])
    obtain ⟨ls, h1, h2, h3⟩ := axis_gain (q := -1) (m := 1) (lo := 3) (hi := 3) (hok _) strictMono_id rfl (Or.inr rfl) hsch one_pos (by
      intro φ t p hx hy
      simp [boostFields, felt, customBlowoutAt, quadField, LibField.gather1, hx, hy]) false fuel _ hfits _ _ hr
    obtain ⟨l, h4, -, h5⟩ := h3 0 (sample none) rfl rfl rfl rfl
    obtain ⟨b1, b2, -, h6, -, -, h7⟩ := h5 0 2 (by norm_num) (by norm_num [FieldElement.demo])
    obtain ⟨-, g2, g3, g4⟩ := h7 0 (by norm_num [sample, init]) ⟨by norm_num [sample, init], by norm_num [sample, init], by norm_num [sample, init], by norm_num [sample, init]⟩
    refine ⟨fuel, ls, w, l, b2, by rw [hr, pair h1 h2], h4, h6, g2, ?_⟩
    have g5 := le_antisymm g3.2 g3.1
    have g6 := le_antisymm g4.2 g4.1
    norm_num [FieldElement.demo, sample, init] at g5 g6 ⊢
    linarith

end WakeT.Stage
