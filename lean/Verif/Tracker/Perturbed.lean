import Verif.Tracker.Converge

/-! # Small errors of the fields have small effects on tracking (C187)

The fields during tracking may differ from smooth ones, for example because they are interpolated from a grid or come
from a solver with a finite resolution.  No smoothness of the fields of the element is needed, and they may change at
each update. -/

set_option linter.unusedSectionVars false

namespace WakeT.Push

open Fields (EB)

variable {k : Const} {fields g : List PField} {T R M L ε : ℝ} {p0 p : Ph}

/-! ### Specification -/

/-- In the time `T` and in the reach of the particle the fields `g` differ from `fields` by at most `ε`. -/
def FieldsNear (ε : ℝ) (g fields : List PField) (T : ℝ) (p0 : Ph) (R : ℝ) : Prop :=
  ∀ t p, 0 ≤ t → t ≤ T → InReach p0 R p → NearEB ε (felt g t p) (felt fields t p)

/-! ### The motion -/

/-- Change of the rates by that of the fields. -/
noncomputable def rateShift (k : Const) (ε : ℝ) : ℝ := |k.q / (k.m * k.c)| * (ε + 2 * k.c * ε)

theorem rateShift_nonneg (hc : 0 < k.c) (hε : 0 ≤ ε) : 0 ≤ rateShift k ε := by
  unfold rateShift
  positivity

theorem motion_shift (hc : 0 < k.c) (hε : 0 ≤ ε) {t s : ℝ} {g h : List PField} (hn : NearEB ε (felt g t p) (felt h s p)) :
    Near (rateShift k ε) (motion k g t p) (motion k h s p) := by
  have hδ := rateShift_nonneg (k := k) hc hε
  obtain ⟨w1, w2, w3⟩ := abs_velocity hc.le p
  have key : ∀ e e' u v b b' d d' : ℝ, |e - e'| ≤ ε → |b - b'| ≤ ε → |d - d'| ≤ ε → |u| ≤ k.c → |v| ≤ k.c →
      |k.q / (k.m * k.c) * (e + (u * b - v * d)) - k.q / (k.m * k.c) * (e' + (u * b' - v * d'))| ≤ rateShift k ε := by
    intro e e' u v b b' d d' he hb hd hu hv
    have h1 : k.q / (k.m * k.c) * (e + (u * b - v * d)) - k.q / (k.m * k.c) * (e' + (u * b' - v * d')) =
        k.q / (k.m * k.c) * ((e - e') + (u * (b - b') - v * (d - d'))) := by ring
    rw [h1]
    exact force_bound he hu hv hb hd
  unfold motion
  dsimp only
  constructor <;> dsimp only
  · rw [sub_self, abs_zero]; exact hδ
  · rw [sub_self, abs_zero]; exact hδ
  · rw [sub_self, abs_zero]; exact hδ
  · exact key _ _ _ _ _ _ _ _ hn.ex hn.bz hn.b_y w2 w3
  · exact key _ _ _ _ _ _ _ _ hn.ey hn.bx hn.bz w3 w1
  · exact key _ _ _ _ _ _ _ _ hn.ez hn.b_y hn.bx w1 w2

theorem rateBound_shift (hc : 0 < k.c) (h1 : ε ≤ 1) : rateShift k ε + rateBound k M ≤ rateBound k (M + 1) := by
  unfold rateShift rateBound
  have h2 : ε + 2 * k.c * ε ≤ 1 + 2 * k.c * 1 := by
    have := mul_le_mul_of_nonneg_left h1 (by positivity : 0 ≤ 2 * k.c)
    linarith
  have h3 := mul_le_mul_of_nonneg_left h2 (abs_nonneg (k.q / (k.m * k.c)))
  linarith

theorem Smooth.mono (hs : Smooth fields T p0 R M L) {M' : ℝ} (h : M ≤ M') : Smooth fields T p0 R M' L :=
  ⟨hs.M0.trans h, hs.L0, fun t p h1 h2 h3 => (hs.bounded t p h1 h2 h3).mono h, hs.lipschitz⟩

/-! ### One step -/

/-- A step from the time `t` to `t + dt`, with the error `C dt² + B dt`. -/
def NearlyConsistent (k : Const) (fields : List PField) (T : ℝ) (p0 : Ph) (C B : ℝ) (step : ℝ → ℝ → Ph → Ph) : Prop :=
  ∀ t dt p, 0 ≤ t → 0 ≤ dt → t + dt ≤ T → Slow k.c t p0 p →
    Near (C * dt ^ 2 + B * dt) (step t dt p) (p.shift dt (motion k fields t p))

theorem rk4_perturbed (hc : 0 < k.c) (hs : Smooth fields T p0 (k.c * T) M L) (h0 : 0 ≤ ε) (h1 : ε ≤ 1)
    (hn : FieldsNear ε g fields T p0 (k.c * T)) :
    NearlyConsistent k fields T p0 (rateLip k (M + 1) L * (1 + rateBound k (M + 1))) (rateShift k ε) (classicalRK4 (motion k g)) := by
  intro t dt p ht hdt htT hp
  have hs1 := hs.mono (le_add_of_nonneg_right zero_le_one : M ≤ M + 1)
  have hA := rateBound_nonneg (k := k) (M := M + 1) hc hs1.M0
  have hΛ := rateLip_nonneg (k := k) (M := M + 1) (L := L) hc hs1.M0 hs.L0
  have hδ := rateShift_nonneg (k := k) hc h0
  have hdt2 : 0 ≤ dt / 2 := by linarith
  have r0 : InReach p0 (k.c * T) p := Slow.inReach hc (by linarith) hp
  have hbd : ∀ s q, 0 ≤ s → s ≤ T → InReach p0 (k.c * T) q → Near (rateBound k (M + 1)) (motion k g s q) Ph.zero :=
    fun s q hs0 hsT hq => ((motion_shift hc h0 (hn s q hs0 hsT hq)).trans (motion_bound hc hs hs0 hsT hq)).mono
      (rateBound_shift hc h1)
  have stage : ∀ s q, 0 ≤ s → s ≤ T → InReach p0 (k.c * T) q → ∀ h, 0 ≤ h → h ≤ dt →
      InReach p0 (k.c * T) (p.shift h (motion k g s q)) ∧
      Near (rateLip k (M + 1) L * (1 + rateBound k (M + 1)) * dt + rateShift k ε) (motion k g (t + h) (p.shift h (motion k g s q)))
        (motion k fields t p) := by
    intro s q hs0 hsT hq h hh hhd
    have h1 : InReach p0 (k.c * T) (p.shift h (motion k g s q)) :=
      Slow.inReach hc (show t + h ≤ T by linarith) (hp.trans hc (slow_shift hc g s p q hh))
    refine ⟨h1, ?_⟩
    have h2 : Near (h * rateBound k (M + 1)) (p.shift h (motion k g s q)) p := Near.moved hh (hbd s q hs0 hsT hq)
    have h3 := motion_near hc hs1 (t := t + h) (s := t) (τ := dt) (by linarith) (by linarith) ht (by linarith)
      (by rw [add_sub_cancel_left, abs_of_nonneg hh]; exact hhd) h1 r0
      (h2.mono (mul_le_mul_of_nonneg_right hhd hA))
    have h4 := motion_shift hc h0 (hn (t + h) _ (by linarith) (by linarith) h1)
    exact (h4.trans h3).mono (le_of_eq (by ring))
  obtain ⟨r2, n2⟩ := stage t p ht (by linarith) r0 (dt / 2) hdt2 (by linarith)
  obtain ⟨r3, n3⟩ := stage (t + dt / 2) _ (by linarith) (by linarith) r2 (dt / 2) hdt2 (by linarith)
  obtain ⟨r4, n4⟩ := stage (t + dt / 2) _ (by linarith) (by linarith) r3 dt hdt le_rfl
  have n1 := motion_shift hc h0 (hn t p ht (by linarith) r0)
  unfold classicalRK4
  dsimp only
  have e : p.shift dt (motion k fields t p) =
      (((p.shift (dt / 6) (motion k fields t p)).shift (dt / 3) (motion k fields t p)).shift (dt / 3)
        (motion k fields t p)).shift (dt / 6) (motion k fields t p) := by
    unfold Ph.shift
    ext <;> dsimp only <;> ring
  rw [e]
  have z0 : Near 0 p p := Near.refl le_rfl _
  refine (((((z0.shift (by linarith) n1).shift (by linarith) n2).shift (by linarith) n3).shift (by linarith) n4)).mono ?_
  have : 0 ≤ rateLip k (M + 1) L * (1 + rateBound k (M + 1)) * dt * dt := by positivity
  nlinarith

/-- The difference of the field values. -/
def offset (f f' : EB ℝ) : PField := fun _ _ _ _ v =>
  ⟨v.ex + (f'.ex - f.ex), v.ey + (f'.ey - f.ey), v.ez + (f'.ez - f.ez), v.bx + (f'.bx - f.bx), v.b_y + (f'.b_y - f.b_y),
    v.bz + (f'.bz - f.bz)⟩

theorem felt_offset (f f' : EB ℝ) (fields : List PField) (t : ℝ) (p : Ph) :
    felt (fields ++ [offset f f']) t p = offset f f' t p.x p.y p.xi (felt fields t p) := by
  unfold felt
  rw [List.foldl_append]
  rfl

theorem offset_near {f f' : EB ℝ} (h : NearEB ε f' f) (t : ℝ) (p : Ph) (fields : List PField) :
    NearEB ε (felt (fields ++ [offset f f']) t p) (felt fields t p) := by
  rw [felt_offset]
  unfold offset
  constructor <;> dsimp only <;> rw [add_sub_cancel_left]
  exacts [h.ex, h.ey, h.ez, h.bx, h.b_y, h.bz]

theorem Smooth.offset (hs : Smooth fields T p0 R M L) {f f' : EB ℝ} (h : NearEB ε f' f) (h1 : ε ≤ 1) :
    Smooth (fields ++ [offset f f']) T p0 R (M + 1) L where
  M0 := by linarith [hs.M0]
  L0 := hs.L0
  bounded := by
    intro t p ht htT hp
    have h2 := hs.bounded t p ht htT hp
    have h3 := offset_near h t p fields
    have key : ∀ a b : ℝ, |a - b| ≤ ε → |b - 0| ≤ M → |a - 0| ≤ M + 1 := fun a b h4 h5 =>
      (abs_sub_le a b 0).trans (by linarith)
    exact ⟨key _ _ h3.ex h2.ex, key _ _ h3.ey h2.ey, key _ _ h3.ez h2.ez, key _ _ h3.bx h2.bx, key _ _ h3.b_y h2.b_y,
      key _ _ h3.bz h2.bz⟩
  lipschitz := by
    intro t s p q ht htT hs0 hsT hp hq
    have h2 := hs.lipschitz t s p q ht htT hs0 hsT hp hq
    rw [felt_offset, felt_offset]
    unfold Push.offset
    constructor <;> dsimp only <;> rw [add_sub_add_right_eq_sub]
    exacts [h2.ex, h2.ey, h2.ez, h2.bx, h2.b_y, h2.bz]

theorem boris_perturbed (hc : 0 < k.c) (hs : Smooth fields T p0 (k.c * T) M L) (h0 : 0 ≤ ε) (h1 : ε ≤ 1)
    (hn : FieldsNear ε g fields T p0 (k.c * T)) :
    NearlyConsistent k fields T p0 (rateLip k (M + 1) L * (1 + rateBound k (M + 1))) (rateShift k ε) (borisStep k g) := by
  intro t dt p ht hdt htT hp
  have r1 : InReach p0 (k.c * T) (halfPush1 k dt p) :=
    Slow.inReach hc (show t + dt / 2 ≤ T by linarith) (hp.trans hc (slow_halfPush hc p hdt))
  have h2 := hn (t + dt / 2) _ (by linarith) (by linarith) r1
  -- the step depends on the fields only at one point
  have e : borisStep k g t dt p = borisStep k (fields ++ [offset (felt fields (t + dt / 2) (halfPush1 k dt p))
      (felt g (t + dt / 2) (halfPush1 k dt p))]) t dt p := by
    unfold borisStep
    dsimp only
    rw [felt_offset]
    unfold offset
    simp only [add_sub_cancel]
  rw [e]
  have h3 := boris_consistent hc (hs.offset h2 h1) t dt p ht hdt htT hp
  have h4 := motion_shift hc h0 (offset_near h2 t p fields)
  have h5 := h3.trans ((Near.refl le_rfl p).shift hdt h4)
  exact h5.mono (le_of_eq (by ring))

/-! ### The error after a step -/

/-- Bound for the error at the time `t` with steps up to `D` and fields that differ by `ε`. -/
noncomputable def perturbedBound (k : Const) (M L D ε t : ℝ) : ℝ :=
  (2 * (rateLip k (M + 1) L * (1 + rateBound k (M + 1))) * D + rateShift k ε) * t * Real.exp (rateLip k (M + 1) L * t)

theorem perturbed_step (hc : 0 < k.c) {z : ℝ → Ph} (hz : Trajectory k fields T z) (hs : Smooth fields T (z 0) (k.c * T) M L)
    (h0 : 0 ≤ ε) {step : ℝ → ℝ → Ph → Ph}
    (hstep : NearlyConsistent k fields T (z 0) (rateLip k (M + 1) L * (1 + rateBound k (M + 1))) (rateShift k ε) step)
    {D t dt : ℝ} (ht : 0 ≤ t) (hdt : 0 ≤ dt) (hD : dt ≤ D) (htT : t + dt ≤ T) {p : Ph} (hp : Slow k.c t (z 0) p)
    (h : Near (perturbedBound k M L D ε t) p (z t)) : Near (perturbedBound k M L D ε (t + dt)) (step t dt p) (z (t + dt)) := by
  have hs1 := hs.mono (le_add_of_nonneg_right zero_le_one : M ≤ M + 1)
  have h1 := hstep t dt p ht hdt htT hp
  have h2 := hz.step hc hs1 ht hdt htT
  have h3 := motion_near hc hs1 ht (by linarith) ht (by linarith) (show |t - t| ≤ 0 by simp)
    (Slow.inReach hc (by linarith) hp) (hz.inReach hc ht (by linarith)) h
  have h4 := (h1.trans (h.shift hdt h3)).trans h2
  refine h4.mono ?_
  have hA := rateBound_nonneg (k := k) (M := M + 1) hc hs1.M0
  have hΛ := rateLip_nonneg (k := k) (M := M + 1) (L := L) hc hs1.M0 hs.L0
  have hB := rateShift_nonneg (k := k) hc h0
  unfold perturbedBound
  generalize hC : rateLip k (M + 1) L * (1 + rateBound k (M + 1)) = C
  have hC0 : 0 ≤ C := by rw [← hC]; positivity
  generalize rateShift k ε = B at *
  generalize rateLip k (M + 1) L = Λ at *
  have hD0 : 0 ≤ D := hdt.trans hD
  have g1 : 1 + Λ * dt ≤ Real.exp (Λ * dt) := by linarith [Real.add_one_le_exp (Λ * dt)]
  have g2 : Real.exp (Λ * (t + dt)) = Real.exp (Λ * t) * Real.exp (Λ * dt) := by rw [mul_add, Real.exp_add]
  have g3 : 1 ≤ Real.exp (Λ * (t + dt)) := Real.one_le_exp (by positivity)
  have g4 : Real.exp (Λ * t) * (1 + Λ * dt) ≤ Real.exp (Λ * (t + dt)) := by
    rw [g2]
    exact mul_le_mul_of_nonneg_left g1 (Real.exp_pos _).le
  have g5 : (2 * C * D + B) * t * (Real.exp (Λ * t) * (1 + Λ * dt)) ≤ (2 * C * D + B) * t * Real.exp (Λ * (t + dt)) :=
    mul_le_mul_of_nonneg_left g4 (by positivity)
  have g6 : 2 * (C * dt ^ 2) ≤ 2 * C * D * dt := by
    have := mul_le_mul_of_nonneg_left hD (by positivity : 0 ≤ 2 * C * dt)
    linarith
  have g7 : (2 * C * D + B) * dt * 1 ≤ (2 * C * D + B) * dt * Real.exp (Λ * (t + dt)) :=
    mul_le_mul_of_nonneg_left g3 (by positivity)
  linarith

end WakeT.Push

namespace WakeT.FieldElement

open Tracker Bunch
open Push (PField Sched Ph Slow Const Near Smooth Trajectory FieldsNear perturbedBound)

variable {F Φ : Type} [LinearOrder F]

/-- The outputs of tracking differ from the exact trajectory in the smooth fields `fields` by at most a constant times
the sum of the time step and the largest difference of the fields. -/
theorem track_perturbed {c q m : ℝ} (hc : 0 < c) {fields : List PField} {T M L : ℝ} {z : ℝ → Ph}
    (hz : Trajectory ⟨c, q, m⟩ fields T z) (hs : Smooth fields T (z 0) (c * T) M L) :
    ∃ C, ∀ (e : Elem F Φ) (D ε : ℝ), e.Ok → StrictMono e.f32 → (∀ n, (e.sch n).Valid n) → e.pushBefore = true →
      (e.pusher = "rk4" ∨ e.pusher = "boris") → e.c = c → e.length = c * T →
      0 ≤ ε → ε ≤ 1 → (∀ φ, FieldsNear ε (e.felt φ) fields T (z 0) (c * T)) →
      0 ≤ D → (∀ d, some d ∈ e.dtBunch.toList → d ≤ D) → (none ∈ e.dtBunch.toList → ∀ b, e.autoDt b ≤ D) →
      ∀ opmd fuel bunches b0 φ r w, e.track opmd fuel bunches b0 φ = .returned (r, w) →
      ∃ ls : List (List Bunch), r = pack ls ∧ ls.length = bunches.toList.length ∧
        ∀ (i : ℕ) (b : Bunch), bunches.toList[i]? = some b → b.Fits → b.zInjection = none → b.qSpecies = q → b.mSpecies = m →
          ∃ l : List Bunch, ls[i]? = some l ∧ l.length = e.nOut + 1 ∧
            ∀ p < b.n, b.ph p = z 0 → ∀ j ≤ e.nOut, ∃ b', l[j]? = some b' ∧ b'.n = b.n ∧
              Near (C * (D + ε)) (b'.ph p) (z (j * (T / e.nOut))) := by
  refine ⟨(2 * (Push.rateLip ⟨c, q, m⟩ (M + 1) L * (1 + Push.rateBound ⟨c, q, m⟩ (M + 1))) + Push.rateShift ⟨c, q, m⟩ 1) * T *
    Real.exp (Push.rateLip ⟨c, q, m⟩ (M + 1) L * T), ?_⟩
  intro e D ε h hm hsch hpush hp hec hlen hε0 hε1 hnear hD0 hD hA opmd fuel bunches b0 φ r w hr
  have hcons : ∀ φ, Push.NearlyConsistent ⟨c, q, m⟩ fields T (z 0)
      (Push.rateLip ⟨c, q, m⟩ (M + 1) L * (1 + Push.rateBound ⟨c, q, m⟩ (M + 1))) (Push.rateShift ⟨c, q, m⟩ ε)
      (stepOf e.pusher ⟨c, q, m⟩ (e.felt φ)) := by
    intro φ
    by_cases h' : e.pusher = "rk4"
    · have : stepOf e.pusher ⟨c, q, m⟩ (e.felt φ) = Push.classicalRK4 (Push.motion ⟨c, q, m⟩ (e.felt φ)) := by
        funext t dt p
        unfold stepOf
        rw [if_pos h']
      rw [this]
      exact Push.rk4_perturbed (k := ⟨c, q, m⟩) hc hs hε0 hε1 (hnear φ)
    · have : stepOf e.pusher ⟨c, q, m⟩ (e.felt φ) = Push.borisStep ⟨c, q, m⟩ (e.felt φ) := by
        funext t dt p
        unfold stepOf
        rw [if_neg h']
      rw [this]
      exact Push.boris_perturbed (k := ⟨c, q, m⟩) hc hs hε0 hε1 (hnear φ)
  obtain ⟨ls, h1, h2, h3⟩ := track_error_of_steps (q := q) (m := m) (T := T) (D := D) (z := z)
    (err := perturbedBound ⟨c, q, m⟩ M L D ε) hc (by unfold perturbedBound; simp) h hm hsch hpush hp hec hlen hD0 hD hA
    (fun φ t dt p ht hdt hdD htT s1 s2 => Push.perturbed_step (k := ⟨c, q, m⟩) hc hz hs hε0 (hcons φ) ht hdt hdD htT s1 s2) hr
  refine ⟨ls, h1, h2, fun i b hi hf hzi hq hmm => ?_⟩
  obtain ⟨l, g1, g2, g3⟩ := h3 i b hi hf hzi hq hmm
  refine ⟨l, g1, g2, fun p hpn hp0 j hj => ?_⟩
  obtain ⟨b', e1, e2, hj0, hj1, e4⟩ := g3 p hpn hp0 j hj
  refine ⟨b', e1, e2, e4.mono ?_⟩
  have hs1 := hs.mono (le_add_of_nonneg_right zero_le_one : M ≤ M + 1)
  have hA := Push.rateBound_nonneg (k := ⟨c, q, m⟩) (M := M + 1) hc hs1.M0
  have hΛ := Push.rateLip_nonneg (k := ⟨c, q, m⟩) (M := M + 1) (L := L) hc hs1.M0 hs.L0
  have hB := Push.rateShift_nonneg (k := ⟨c, q, m⟩) (ε := 1) hc zero_le_one
  have hT0 : 0 ≤ T := hj0.trans hj1
  have hBε : Push.rateShift ⟨c, q, m⟩ ε = Push.rateShift ⟨c, q, m⟩ 1 * ε := by unfold Push.rateShift; ring
  unfold perturbedBound
  rw [hBε]
  generalize (j : ℝ) * (T / e.nOut) = t at *
  have h5 : Real.exp (Push.rateLip ⟨c, q, m⟩ (M + 1) L * t) ≤ Real.exp (Push.rateLip ⟨c, q, m⟩ (M + 1) L * T) :=
    Real.exp_le_exp.mpr (mul_le_mul_of_nonneg_left hj1 hΛ)
  have h6 : 0 ≤ Push.rateLip ⟨c, q, m⟩ (M + 1) L * (1 + Push.rateBound ⟨c, q, m⟩ (M + 1)) := by positivity
  generalize Push.rateLip ⟨c, q, m⟩ (M + 1) L * (1 + Push.rateBound ⟨c, q, m⟩ (M + 1)) = C at *
  generalize Push.rateShift ⟨c, q, m⟩ 1 = B at *
  generalize Real.exp (Push.rateLip ⟨c, q, m⟩ (M + 1) L * T) = E at *
  have hE : 0 ≤ E := (Real.exp_pos _).le.trans h5
  calc _ ≤ (2 * C * D + B * ε) * T * E :=
      mul_le_mul (mul_le_mul_of_nonneg_left hj1 (by positivity)) h5 (Real.exp_pos _).le (by positivity)
    _ ≤ (2 * C + B) * (D + ε) * (T * E) := by
      rw [mul_assoc]
      refine mul_le_mul_of_nonneg_right ?_ (by positivity)
      have h7 : 0 ≤ 2 * C * ε := by positivity
      have h8 : 0 ≤ B * D := by positivity
      linarith
    _ = _ := by ring

/-! ### A case -/

/-- The fields `demoFields`, with the quadrupole constant in each of the cells of a grid with the spacing `1 / N`. -/
noncomputable def stairFields (N : ℕ) : List PField :=
  [fun _ x y _ v => { v with bx := v.bx + 3 * (⌊N * y⌋ / N), b_y := v.b_y + 3 * (⌊N * x⌋ / N) },
    fun _ _ _ _ v => { v with ez := v.ez + 1 }]

theorem stair_near {N : ℕ} (hN : 0 < N) (T : ℝ) (p0 : Ph) (R : ℝ) : FieldsNear (3 / N) (stairFields N) demoFields T p0 R := by
  intro t p _ _ _
  have hN' : (0 : ℝ) < N := by exact_mod_cast hN
  have h0 : (0 : ℝ) ≤ 3 / N := by positivity
  have h1 : Push.felt (stairFields N) t p = ⟨0, 0, 1, 3 * (⌊N * p.y⌋ / N), 3 * (⌊N * p.x⌋ / N), 0⟩ := by
    simp [Push.felt, stairFields]
  have key : ∀ x : ℝ, |3 * (⌊N * x⌋ / N) - 3 * x| ≤ 3 / N := by
    intro x
    have e : 3 * (⌊N * x⌋ / N) - 3 * x = -(3 / N) * (N * x - ⌊N * x⌋) := by field_simp; ring
    have h2 := Int.floor_le (N * x)
    have h3 := Int.lt_floor_add_one (N * x)
    rw [e, abs_mul, abs_neg, abs_of_nonneg h0]
    refine mul_le_of_le_one_right h0 ?_
    rw [abs_of_nonneg (by linarith)]
    linarith
  rw [h1, demo_felt]
  constructor <;> dsimp only
  · rw [sub_self, abs_zero]; exact h0
  · rw [sub_self, abs_zero]; exact h0
  · rw [sub_self, abs_zero]; exact h0
  · exact key _
  · exact key _
  · rw [sub_self, abs_zero]; exact h0

/-- A bunch with one particle in these fields, which jump from cell to cell, with any step `D` and both pushers: the
tracking returns, and the last output differs from the exact position in the smooth fields by at most `C (D + 3 / N)`. -/
example (sch : ℕ → Sched) (hsch : ∀ n, (sch n).Valid n) : ∃ C, ∀ D, 0 < D → ∀ N : ℕ, 3 ≤ N →
    ∀ pusher, pusher = "rk4" ∨ pusher = "boris" →
    let b : Bunch := (Bunch.init 1 (fun _ => 1) (fun _ => demoPath 0) none 0 0 none none (-1) (-1) 0).1
    ∃ fuel ls w b', ({ demo sch with felt := fun _ => stairFields N, dtBunch := .one (some D), pusher := pusher, numFields := [] } :
        Elem ℝ Unit).track false fuel (.one b) b () = .returned (.one ls, w) ∧ ls[2]? = some b' ∧
      Near (C * (D + 3 / N)) (b'.ph 0) (demoPath 2) := by
  obtain ⟨C, hC⟩ := track_perturbed (F := ℝ) (Φ := Unit) one_pos demoPath_exact demoFields_smooth
  refine ⟨C, fun D hD N hN pusher hp => ?_⟩
  have hN' : (3 : ℝ) ≤ N := by exact_mod_cast hN
  intro b
  have hok : ({ demo sch with felt := fun _ => stairFields N, dtBunch := .one (some D), pusher := pusher, numFields := [] } :
      Elem ℝ Unit).Ok :=
    { demo_ok sch with
      steps := by
        intro d hd
        have hd : some d = some D := List.mem_singleton.mp hd
        rw [Option.some.inj hd]
        exact hD
      fields := by intro x hx; cases hx }
  obtain ⟨fuel, ⟨r, w⟩, hr⟩ := track_returns hok strictMono_id (by norm_num [demo]) (δ := 1 / 5) (by norm_num)
    (fun b => by simp only [demo]; nlinarith [sq_nonneg b.propDistance]) (.one b) (by intro l hl; cases hl) false b ()
  obtain ⟨ls, h1, h2, h3⟩ := hC _ D (3 / N) hok strictMono_id hsch rfl hp rfl (by norm_num [demo]) (by positivity)
    (by rw [div_le_one (by linarith)]; exact hN') (fun _ => stair_near (by omega) _ _ _) hD.le (by
    intro d hd
    have hd : some d = some D := List.mem_singleton.mp hd
    exact (Option.some.inj hd).le) (by
    intro hn
    have hn : (none : Option ℝ) = some D := List.mem_singleton.mp hn
    cases hn) false fuel _ b () r w hr
  obtain ⟨l, h4, -, h5⟩ := h3 0 b rfl ⟨fun _ h => (nomatch h), fun _ h => (nomatch h)⟩ rfl rfl rfl
  obtain ⟨b', h6, -, h7⟩ := h5 0 Nat.one_pos rfl 2 le_rfl
  match ls, h2, h4, h1 with
  | [l'], _, h4, h1 =>
    have h4 : l' = l := Option.some.inj h4
    subst h4
    refine ⟨fuel, l', w, b', ?_, h6, ?_⟩
    · rw [hr, h1]
      rfl
    · norm_num [demo] at h7
      exact h7

end WakeT.FieldElement
