import Verif.Push.Props

/-! # No particle is faster than light (C125, C126)

The pushers in arbitrary fields. -/

set_option linter.unusedSectionVars false

namespace WakeT.Push

open Fields (EB)

/-- Specification: in the time `T` a particle can get from `p` to `q` at less than the speed of
light `c`.  (`xi` is the position in a frame that moves with `c`.) -/
def Slow (c T : ℝ) (p q : Ph) : Prop :=
  (T = 0 ∧ q.x = p.x ∧ q.y = p.y ∧ q.xi = p.xi) ∨
  0 < T ∧ (q.x - p.x) ^ 2 + (q.y - p.y) ^ 2 + (q.xi - p.xi + c * T) ^ 2 < (c * T) ^ 2

/-- The displacement `(a, b, d)` takes less than the time `T` at the speed `c`. -/
def Within (c T a b d : ℝ) : Prop := (T = 0 ∧ a = 0 ∧ b = 0 ∧ d = 0) ∨ 0 < T ∧ a ^ 2 + b ^ 2 + d ^ 2 < (c * T) ^ 2

theorem Within.add {c : ℝ} (hc : 0 < c) {S T a b d a' b' d' : ℝ} (h : Within c S a b d) (h' : Within c T a' b' d') :
    Within c (S + T) (a + a') (b + b') (d + d') := by
  rcases h with ⟨rfl, rfl, rfl, rfl⟩ | ⟨h1, h2⟩
  · simpa using h'
  · rcases h' with ⟨rfl, rfl, rfl, rfl⟩ | ⟨h3, h4⟩
    · simp only [add_zero]
      exact .inr ⟨h1, h2⟩
    · refine .inr ⟨by positivity, ?_⟩
      have h5 : a * a' + b * b' + d * d' ≤ c * S * (c * T) := by
        have h6 : (a * a' + b * b' + d * d') ^ 2 ≤ (c * S * (c * T)) ^ 2 := by
          have h7 : (a * a' + b * b' + d * d') ^ 2 ≤ (a ^ 2 + b ^ 2 + d ^ 2) * (a' ^ 2 + b' ^ 2 + d' ^ 2) := by
            nlinarith [sq_nonneg (a * b' - b * a'), sq_nonneg (a * d' - d * a'), sq_nonneg (b * d' - d * b')]
          have h8 : (a ^ 2 + b ^ 2 + d ^ 2) * (a' ^ 2 + b' ^ 2 + d' ^ 2) ≤ (c * S) ^ 2 * (c * T) ^ 2 :=
            mul_le_mul h2.le h4.le (by positivity) (by positivity)
          rw [mul_pow]
          exact h7.trans h8
        exact abs_le_of_sq_le_sq h6 (by positivity) |> le_trans (le_abs_self _)
      nlinarith

theorem slow_iff {c T : ℝ} {p q : Ph} : Slow c T p q ↔ Within c T (q.x - p.x) (q.y - p.y) (q.xi - p.xi + c * T) := by
  unfold Slow Within
  refine or_congr ?_ Iff.rfl
  constructor
  · rintro ⟨rfl, h1, h2, h3⟩
    rw [h1, h2, h3]
    simp
  · rintro ⟨rfl, h1, h2, h3⟩
    exact ⟨rfl, by linarith, by linarith, by linarith⟩

theorem Slow.refl (c : ℝ) (p : Ph) : Slow c 0 p p := .inl ⟨rfl, rfl, rfl, rfl⟩

theorem Slow.trans {c : ℝ} (hc : 0 < c) {S T : ℝ} {p q r : Ph} (h : Slow c S p q) (h' : Slow c T q r) :
    Slow c (S + T) p r := by
  rw [slow_iff] at *
  have := h.add hc h'
  convert this using 1 <;> ring

theorem Slow.xi {c : ℝ} (hc : 0 < c) {T : ℝ} {p q : Ph} (h : Slow c T p q) : 0 ≤ T ∧ p.xi - 2 * c * T ≤ q.xi ∧ q.xi ≤ p.xi := by
  rcases h with ⟨rfl, -, -, h⟩ | ⟨h1, h2⟩
  · exact ⟨le_rfl, by rw [h]; simp, h.le⟩
  · have h3 : (q.xi - p.xi + c * T) ^ 2 < (c * T) ^ 2 := by nlinarith [sq_nonneg (q.x - p.x), sq_nonneg (q.y - p.y)]
    have h4 := abs_lt_of_sq_lt_sq' h3 (by positivity)
    exact ⟨h1.le, by linarith [h4.1], by linarith [h4.2]⟩

/-- A displacement with the velocity of a particle. -/
theorem within_velocity {c : ℝ} (hc : 0 < c) (p : Ph) {h : ℝ} (hh : 0 ≤ h) :
    Within c h (h * (c * p.px / p.gamma)) (h * (c * p.py / p.gamma)) (h * (c * p.pz / p.gamma)) := by
  rcases hh.eq_or_lt with rfl | hh
  · exact .inl ⟨rfl, by ring, by ring, by ring⟩
  · refine .inr ⟨hh, ?_⟩
    have hg := gamma_pos p
    have hsq : p.gamma ^ 2 = 1 + p.px ^ 2 + p.py ^ 2 + p.pz ^ 2 := Real.sq_sqrt (by positivity)
    have e : (h * (c * p.px / p.gamma)) ^ 2 + (h * (c * p.py / p.gamma)) ^ 2 + (h * (c * p.pz / p.gamma)) ^ 2 =
        (c * h) ^ 2 * (1 - 1 / p.gamma ^ 2) := by
      field_simp
      rw [hsq]
      ring
    rw [e]
    have : 0 < (c * h) ^ 2 * (1 / p.gamma ^ 2) := by positivity
    linarith

theorem slow_shift {k : Const} (hc : 0 < k.c) (fields : List PField) (t : ℝ) (p q : Ph) {h : ℝ} (hh : 0 ≤ h) :
    Slow k.c h p (p.shift h (motion k fields t q)) := by
  rw [slow_iff]
  convert within_velocity hc q hh using 1 <;> simp only [Ph.shift, motion] <;> ring

theorem slow_halfPush {k : Const} (hc : 0 < k.c) (p : Ph) {dt : ℝ} (hdt : 0 ≤ dt) : Slow k.c (dt / 2) p (halfPush1 k dt p) := by
  have hg : p.gamma = √(1 + (p.px ^ 2 + p.py ^ 2 + p.pz ^ 2)) := by
    unfold Ph.gamma
    ring_nf
  rw [slow_iff]
  convert within_velocity hc p (h := dt / 2) (by linarith) using 1 <;> simp only [halfPush1, hg] <;> ring

/-- One step of the Boris pusher. -/
theorem borisStep_slow {k : Const} (hc : 0 < k.c) (fields : List PField) (t : ℝ) {dt : ℝ} (hdt : 0 ≤ dt) (p : Ph) :
    Slow k.c dt p (borisStep k fields t dt p) := by
  unfold borisStep
  have h1 := slow_halfPush hc p hdt
  have h2 := slow_halfPush hc (pushMomentum1 k dt (felt fields (t + dt / 2) (halfPush1 k dt p)) (halfPush1 k dt p)) hdt
  have h3 := h1.trans hc (r := _) h2
  rwa [add_halves] at h3

/-- One step of the Runge-Kutta pusher. -/
theorem classicalRK4_slow {k : Const} (hc : 0 < k.c) (fields : List PField) (t : ℝ) {dt : ℝ} (hdt : 0 ≤ dt) (p : Ph) :
    Slow k.c dt p (classicalRK4 (motion k fields) t dt p) := by
  unfold classicalRK4
  dsimp only
  have h1 := slow_shift hc fields
  have h6 : 0 ≤ dt / 6 := by linarith
  have h3 : 0 ≤ dt / 3 := by linarith
  have e : dt = dt / 6 + dt / 3 + dt / 3 + dt / 6 := by ring
  nth_rw 1 [e]
  exact (((h1 _ _ _ h6).trans hc (h1 _ _ _ h3)).trans hc (h1 _ _ _ h3)).trans hc (h1 _ _ _ h6)

/-- Specification: the fields are the same for particles at `X` and ahead. -/
def SameAhead (X : ℝ) (fields fields' : List PField) : Prop :=
  ∀ t p, X ≤ p.xi → felt fields' t p = felt fields t p

/-- A step that ends ahead of `X` is not affected by the fields behind `X`. -/
theorem borisStep_ahead {k : Const} (hc : 0 < k.c) {X : ℝ} {fields fields' : List PField} (hf : SameAhead X fields fields')
    (t : ℝ) {dt : ℝ} (hdt : 0 ≤ dt) (p : Ph) (hp : X ≤ (borisStep k fields t dt p).xi) :
    borisStep k fields' t dt p = borisStep k fields t dt p := by
  have h1 := ((slow_halfPush hc (pushMomentum1 k dt (felt fields (t + dt / 2) (halfPush1 k dt p)) (halfPush1 k dt p)) hdt).xi
    hc).2.2
  have h2 : X ≤ (halfPush1 k dt p).xi := hp.trans h1
  unfold borisStep
  dsimp only
  rw [hf _ _ h2]

theorem motion_ahead (k : Const) {X : ℝ} {fields fields' : List PField} (hf : SameAhead X fields fields') (t : ℝ) (p : Ph)
    (hp : X ≤ p.xi) : motion k fields' t p = motion k fields t p := by
  unfold motion
  rw [hf t p hp]

/-- A step that starts far enough ahead of `X` is not affected by the fields behind `X`. -/
theorem classicalRK4_ahead {k : Const} (hc : 0 < k.c) {X : ℝ} {fields fields' : List PField} (hf : SameAhead X fields fields')
    (t : ℝ) {dt : ℝ} (hdt : 0 ≤ dt) (p : Ph) (hp : X + 2 * k.c * dt ≤ p.xi) :
    classicalRK4 (motion k fields') t dt p = classicalRK4 (motion k fields) t dt p := by
  have h2 : 0 ≤ k.c * dt := by positivity
  have h1 : ∀ s q h, 0 ≤ h → h ≤ dt → X ≤ (p.shift h (motion k fields s q)).xi := by
    intro s q h h3 h4
    have h5 := ((slow_shift hc fields s p q h3).xi hc).2.1
    have h6 : k.c * h ≤ k.c * dt := mul_le_mul_of_nonneg_left h4 hc.le
    linarith
  unfold classicalRK4
  dsimp only
  rw [motion_ahead k hf t p (by linarith), motion_ahead k hf _ _ (h1 _ _ _ (by linarith) (by linarith)),
    motion_ahead k hf _ _ (h1 _ _ _ (by linarith) (by linarith)), motion_ahead k hf _ _ (h1 _ _ _ (by linarith) (by linarith))]

end WakeT.Push
