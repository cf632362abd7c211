import Verif.Push.RoundingStep
import Verif.Tracker.Perturbed

/-! # Tracking with rounding

The Boris pusher with rounding after each operation, over many steps, compared with the exact trajectory. -/

set_option linter.unusedSectionVars false

namespace WakeT.Push.Rounded

open WakeT.Base (Rounds)
open Fields (EB)
open FieldElement (demoPath demoFields demo_felt demoPath_exact)

variable {rnd : ℝ → ℝ} {ε : ℝ}

/-! ### Specification -/

/-- Pushes with rounding (tracker.py 212-221, 290 for one particle).  Each is given by its time step and by the time at which the fields are
evaluated (`t + dt / 2` with rounding, boris_pusher.py 36).  `q / (m c)` is taken as exact. -/
noncomputable def push (rnd : ℝ → ℝ) (k : Const) (fields : List PField) (L : List (ℝ × ℝ)) (p : Ph) : Ph :=
  steps rnd k.c k.qmc (L.map fun s => (s.1, fun x y xi => felt fields s.2 ⟨x, y, xi, 0, 0, 0⟩)) p

/-- The steps start at `t`, are not longer than `D`, end before `T`, and the times of evaluation are right up to `θ`. -/
def Timed (D θ T : ℝ) : ℝ → List (ℝ × ℝ) → Prop
  | _, [] => True
  | t, s :: L => 0 ≤ s.1 ∧ s.1 ≤ D ∧ t + s.1 ≤ T ∧ 0 ≤ s.2 ∧ s.2 ≤ T ∧ |s.2 - (t + s.1 / 2)| ≤ θ ∧ Timed D θ T (t + s.1) L

/-! ### One step -/

/-- The fields are bounded by `M` and change at most by `L` per unit of length and time, everywhere between the times 0 and `T`. -/
structure Gentle (fields : List PField) (T M L : ℝ) : Prop where
  M0 : 0 ≤ M
  L0 : 0 ≤ L
  bounded : ∀ t p, 0 ≤ t → t ≤ T → NearEB M (felt fields t p) ⟨0, 0, 0, 0, 0, 0⟩
  lipschitz : ∀ t s p q, 0 ≤ t → t ≤ T → 0 ≤ s → s ≤ T →
    NearEB (L * (|t - s| + |p.x - q.x| + |p.y - q.y| + |p.xi - q.xi|)) (felt fields t p) (felt fields s q)

theorem Gentle.smooth {fields : List PField} {T M L : ℝ} (h : Gentle fields T M L) (p0 : Ph) (R : ℝ) : Smooth fields T p0 R M L :=
  ⟨h.M0, h.L0, fun t p h1 h2 _ => h.bounded t p h1 h2, fun t s p q h1 h2 h3 h4 _ _ => h.lipschitz t s p q h1 h2 h3 h4⟩

/-- Exact half pushes from different states. -/
private theorem halfPush_near {k : Const} (hc : 0 < k.c) {dt a b : ℝ} (hdt : 0 ≤ dt) {p q : Ph} (hx : |p.x - q.x| ≤ a) (hy : |p.y - q.y| ≤ a)
    (hxi : |p.xi - q.xi| ≤ a) (h1 : |p.px - q.px| ≤ b) (h2 : |p.py - q.py| ≤ b) (h3 : |p.pz - q.pz| ≤ b) :
    |(Push.halfPush1 k dt p).x - (Push.halfPush1 k dt q).x| ≤ a + 2 * (k.c * dt) * b ∧
    |(Push.halfPush1 k dt p).y - (Push.halfPush1 k dt q).y| ≤ a + 2 * (k.c * dt) * b ∧
    |(Push.halfPush1 k dt p).xi - (Push.halfPush1 k dt q).xi| ≤ a + 2 * (k.c * dt) * b := by
  have hg := gamma_near h1 h2 h3
  have v1 := quot_near hc.le (gamma_one_le p) (gamma_one_le q) (abs_le_gamma q).1 h1 hg
  have v2 := quot_near hc.le (gamma_one_le p) (gamma_one_le q) (abs_le_gamma q).2.1 h2 hg
  have v3 := quot_near hc.le (gamma_one_le p) (gamma_one_le q) (abs_le_gamma q).2.2 h3 hg
  have e : ∀ p : Ph, √(1 + (p.px ^ 2 + p.py ^ 2 + p.pz ^ 2)) = p.gamma := fun p => by unfold Ph.gamma; congr 1; ring
  have key : ∀ {x y u v : ℝ}, |x - y| ≤ a → |u - v| ≤ 4 * k.c * b → |x + dt / 2 * u - (y + dt / 2 * v)| ≤ a + 2 * (k.c * dt) * b := by
    intro x y u v hxy huv
    have e : x + dt / 2 * u - (y + dt / 2 * v) = (x - y) + dt / 2 * (u - v) := by ring
    rw [e]
    refine (abs_add_le _ _).trans ?_
    rw [abs_mul, abs_of_nonneg (by linarith : 0 ≤ dt / 2)]
    have := mul_le_mul_of_nonneg_left huv (by linarith : 0 ≤ dt / 2)
    linarith
  unfold Push.halfPush1
  dsimp only
  rw [e p, e q]
  refine ⟨?_, ?_, ?_⟩
  · convert key hx v1 using 2; ring
  · convert key hy v2 using 2; ring
  · convert key (u := k.c * p.pz / p.gamma - k.c) (v := k.c * q.pz / q.gamma - k.c) hxi (by rw [sub_sub_sub_cancel_right]; exact v3) using 2; ring

private theorem halfPush_moved {k : Const} (hc : 0 < k.c) {dt : ℝ} (hdt : 0 ≤ dt) (p : Ph) :
    |(Push.halfPush1 k dt p).x - p.x| ≤ k.c * dt ∧ |(Push.halfPush1 k dt p).y - p.y| ≤ k.c * dt ∧
      |(Push.halfPush1 k dt p).xi - p.xi| ≤ k.c * dt := by
  have h := drift_near (k := k) hc (by linarith : 0 ≤ dt / 2) p
  have e : Push.halfPush1 k dt p = p.drift k (dt / 2) := by
    have e : √(1 + (p.px ^ 2 + p.py ^ 2 + p.pz ^ 2)) = p.gamma := by unfold Ph.gamma; congr 1; ring
    unfold Push.halfPush1 Ph.drift
    dsimp only
    rw [e]
    ext <;> dsimp only <;> ring
  have e2 : dt / 2 * (2 * k.c) = k.c * dt := by ring
  rw [e, ← e2]
  exact ⟨h.x, h.y, h.xi⟩

/-- Rounding errors of one step in units of rounding, for positions up to `X` and momenta up to `Q`. -/
private noncomputable def unitsOf (k : Const) (T M X Q : ℝ) : ℝ :=
  3 * X + 26 * (k.c * T) + (1 + 2 * (k.c * T)) * (800 * (Q + |k.qmc| * T * M))

set_option maxHeartbeats 1000000 in
private theorem step_error (hr : Rounds ε rnd) (h0 : 0 ≤ ε) (h1 : ε ≤ 1 / 1000) {k : Const} (hc : 0 < k.c) {fields : List PField} {T M L : ℝ}
    (hf : Gentle fields T M L) {t dt τ θ X Q : ℝ} (ht : 0 ≤ t) (hdt : 0 ≤ dt) (htT : t + dt ≤ T) (hτ0 : 0 ≤ τ) (hτT : τ ≤ T)
    (hτ : |τ - (t + dt / 2)| ≤ θ) {p : Ph} (hx : |p.x| ≤ X) (hy : |p.y| ≤ X) (hxi : |p.xi| ≤ X) (hpx : |p.px| ≤ Q) (hpy : |p.py| ≤ Q)
    (hpz : |p.pz| ≤ Q) (small : L * (θ + 3 * (ε * (X + 12 * (k.c * T)))) ≤ 1) :
    Push.Near (rateLip k (M + 1) L * (1 + rateBound k (M + 1)) * dt ^ 2 + rateShift k (L * (θ + 3 * (ε * (X + 12 * (k.c * T))))) * dt +
      unitsOf k T M X Q * ε) (boris1 rnd k.c k.qmc dt (fun x y xi => felt fields τ ⟨x, y, xi, 0, 0, 0⟩) p) (p.shift dt (motion k fields t p)) := by
  have hM := hf.M0
  have hL := hf.L0
  have X0 : 0 ≤ X := (abs_nonneg _).trans hx
  have Q0 : 0 ≤ Q := (abs_nonneg _).trans hpx
  have T0 : 0 ≤ T := by linarith
  have θ0 : 0 ≤ θ := (abs_nonneg _).trans hτ
  have cT : 0 ≤ k.c * T := by positivity
  have cdt : k.c * dt ≤ k.c * T := mul_le_mul_of_nonneg_left (by linarith) hc.le
  have cdt0 : 0 ≤ k.c * dt := by positivity
  obtain ⟨η, hη⟩ : ∃ η, η = ε * (X + 12 * (k.c * T)) := ⟨_, rfl⟩
  have η0 : 0 ≤ η := by rw [hη]; positivity
  have ηs : η ≤ 1 / 1000 * (X + 12 * (k.c * T)) := by rw [hη]; exact mul_le_mul_of_nonneg_right h1 (by positivity)
  rw [← hη] at small ⊢
  -- first half
  obtain ⟨a1, a2, a3⟩ := halfPush_rounded hr h0 h1 k dt p
  have le : ∀ {y : ℝ}, |y| ≤ X → ε * |y| + 12 * ε * |k.c * dt| ≤ η := by
    intro y hy
    rw [abs_of_nonneg cdt0, hη]
    have := mul_le_mul_of_nonneg_left hy h0
    have := mul_le_mul_of_nonneg_left cdt h0
    linarith
  have b1 := a1.trans (le hx)
  have b2 := a2.trans (le hy)
  have b3 := a3.trans (le hxi)
  obtain ⟨m1, m2, m3⟩ := halfPush_moved hc hdt p
  unfold boris1
  dsimp only
  have p2x : (halfPush1 rnd k.c dt p).px = p.px := rfl
  have p2y : (halfPush1 rnd k.c dt p).py = p.py := rfl
  have p2z : (halfPush1 rnd k.c dt p).pz = p.pz := rfl
  generalize halfPush1 rnd k.c dt p = p' at *
  have p1x : (Push.halfPush1 k dt p).px = p.px := rfl
  have p1y : (Push.halfPush1 k dt p).py = p.py := rfl
  have p1z : (Push.halfPush1 k dt p).pz = p.pz := rfl
  -- the fields
  obtain ⟨f', hf'⟩ : ∃ f', f' = felt fields τ ⟨p'.x, p'.y, p'.xi, 0, 0, 0⟩ := ⟨_, rfl⟩
  rw [← hf']
  have hn : NearEB (L * (θ + 3 * η)) f' (felt fields (t + dt / 2) (Push.halfPush1 k dt p)) := by
    rw [hf']
    refine (hf.lipschitz τ (t + dt / 2) _ (Push.halfPush1 k dt p) hτ0 hτT (by linarith) (by linarith)).mono (mul_le_mul_of_nonneg_left ?_ hL)
    dsimp only
    linarith
  have hbd : NearEB M f' ⟨0, 0, 0, 0, 0, 0⟩ := by rw [hf']; exact hf.bounded τ _ hτ0 hτT
  clear hf'
  obtain ⟨f, hfd⟩ : ∃ f, f = felt fields (t + dt / 2) (Push.halfPush1 k dt p) := ⟨_, rfl⟩
  rw [← hfd] at hn
  -- the exact step with these fields
  have slow : Slow k.c t { p with xi := p.xi + k.c * t } p := by
    rcases ht.eq_or_lt with h | h
    · left
      exact ⟨h.symm, rfl, rfl, by dsimp only; rw [← h]; ring⟩
    · right
      refine ⟨h, ?_⟩
      dsimp only
      have : 0 < k.c * t := by positivity
      nlinarith
  have ex := boris_perturbed hc (hf.smooth { p with xi := p.xi + k.c * t } (k.c * T)) (g := fields ++ [offset f f'])
    (by positivity) small (fun t p _ _ _ => offset_near hn t p fields) t dt p ht hdt htT slow
  have eg : felt (fields ++ [offset f f']) (t + dt / 2) (Push.halfPush1 k dt p) = f' := by
    rw [felt_offset, ← hfd]
    unfold offset
    simp only [add_sub_cancel]
  unfold borisStep at ex
  dsimp only at ex
  rw [eg] at ex
  -- the rounded momentum push
  have kick : ∀ {y e : ℝ}, |y| ≤ Q → |e - 0| ≤ M → |y| + |k.qmc * dt / 2 * e| ≤ Q + |k.qmc| * T * M := by
    intro y e hy he
    rw [sub_zero] at he
    refine add_le_add hy ?_
    rw [abs_mul, abs_div, abs_mul, abs_of_nonneg hdt, abs_two]
    refine mul_le_mul ?_ he (abs_nonneg _) (by positivity)
    rw [mul_div_assoc]
    exact mul_le_mul_of_nonneg_left (by linarith) (abs_nonneg _)
  obtain ⟨c1, c2, c3⟩ := push_rounded hr h0 h1 k dt f' p' (P := Q + |k.qmc| * T * M) (by rw [p2x]; exact kick hpx hbd.ex)
    (by rw [p2y]; exact kick hpy hbd.ey) (by rw [p2z]; exact kick hpz hbd.ez)
  have same : (Push.pushMomentum1 k dt f' p').px = (Push.pushMomentum1 k dt f' (Push.halfPush1 k dt p)).px ∧
      (Push.pushMomentum1 k dt f' p').py = (Push.pushMomentum1 k dt f' (Push.halfPush1 k dt p)).py ∧
      (Push.pushMomentum1 k dt f' p').pz = (Push.pushMomentum1 k dt f' (Push.halfPush1 k dt p)).pz := by
    unfold Push.pushMomentum1
    dsimp only
    rw [p2x, p2y, p2z, p1x, p1y, p1z]
    exact ⟨rfl, rfl, rfl⟩
  rw [same.1] at c1
  rw [same.2.1] at c2
  rw [same.2.2] at c3
  have qx : (pushMomentum1 rnd k.c k.qmc dt f' p').x = p'.x := rfl
  have qy : (pushMomentum1 rnd k.c k.qmc dt f' p').y = p'.y := rfl
  have qz : (pushMomentum1 rnd k.c k.qmc dt f' p').xi = p'.xi := rfl
  have rx : (Push.pushMomentum1 k dt f' (Push.halfPush1 k dt p)).x = (Push.halfPush1 k dt p).x := rfl
  have ry : (Push.pushMomentum1 k dt f' (Push.halfPush1 k dt p)).y = (Push.halfPush1 k dt p).y := rfl
  have rz : (Push.pushMomentum1 k dt f' (Push.halfPush1 k dt p)).xi = (Push.halfPush1 k dt p).xi := rfl
  generalize pushMomentum1 rnd k.c k.qmc dt f' p' = q' at *
  generalize Push.pushMomentum1 k dt f' (Push.halfPush1 k dt p) = q at *
  have P0 : 0 ≤ Q + |k.qmc| * T * M := by positivity
  generalize hP : Q + |k.qmc| * T * M = P at *
  -- second half
  obtain ⟨d1, d2, d3⟩ := halfPush_rounded hr h0 h1 k dt q'
  obtain ⟨e1, e2, e3⟩ := halfPush_near hc hdt (a := η) (by rw [qx, rx]; exact b1) (by rw [qy, ry]; exact b2) (by rw [qz, rz]; exact b3) c1 c2 c3
  have fin : ∀ {y y' y1 u v w : ℝ}, |y| ≤ X → |y1 - y| ≤ k.c * dt → |y' - y1| ≤ η → |u - v| ≤ ε * |y'| + 12 * ε * |k.c * dt| →
      |v - w| ≤ η + 2 * (k.c * dt) * (800 * ε * P) → |u - w| ≤ unitsOf k T M X Q * ε := by
    intro y y' y1 u v w hy hy1 hy' huv hvw
    have s1 : |y'| ≤ X + k.c * T + η := by
      have := abs_sub_abs_le_abs_sub y' y1
      have := abs_sub_abs_le_abs_sub y1 y
      linarith
    have s2 := mul_le_mul_of_nonneg_left s1 h0
    have s3 := mul_le_mul_of_nonneg_left ηs h0
    have s4 := mul_le_mul_of_nonneg_left cdt h0
    rw [abs_of_nonneg cdt0] at huv
    have s5 : 2 * (k.c * dt) * (800 * ε * P) ≤ 2 * (k.c * T) * (800 * ε * P) := mul_le_mul_of_nonneg_right (by linarith) (by positivity)
    have s6 := abs_sub_le u v w
    unfold unitsOf
    rw [hP]
    have s7 : 0 ≤ 800 * P * ε := by positivity
    have s8 : 0 ≤ ε * X := by positivity
    have s9 : 0 ≤ ε * (k.c * T) := by positivity
    have : (3 * X + 26 * (k.c * T) + (1 + 2 * (k.c * T)) * (800 * P)) * ε =
      3 * (ε * X) + 26 * (ε * (k.c * T)) + 800 * P * ε + 2 * (k.c * T) * (800 * ε * P) := by ring
    rw [this]
    linarith
  have mom : ∀ {a b : ℝ}, |a - b| ≤ 800 * ε * P → |a - b| ≤ unitsOf k T M X Q * ε := by
    intro a b hab
    refine hab.trans ?_
    unfold unitsOf
    rw [hP]
    have s7 : 0 ≤ 800 * P * ε := by positivity
    have s8 : 0 ≤ ε * X := by positivity
    have s9 : 0 ≤ ε * (k.c * T) := by positivity
    have s10 : 0 ≤ 2 * (k.c * T) * (800 * ε * P) := by positivity
    have : (3 * X + 26 * (k.c * T) + (1 + 2 * (k.c * T)) * (800 * P)) * ε =
      3 * (ε * X) + 26 * (ε * (k.c * T)) + 800 * P * ε + 2 * (k.c * T) * (800 * ε * P) := by ring
    rw [this]
    linarith
  have round : Push.Near (unitsOf k T M X Q * ε) (halfPush1 rnd k.c dt q') (Push.halfPush1 k dt q) :=
    ⟨fin hx m1 b1 (by rw [← qx]; exact d1) e1, fin hy m2 b2 (by rw [← qy]; exact d2) e2, fin hxi m3 b3 (by rw [← qz]; exact d3) e3,
      mom c1, mom c2, mom c3⟩
  exact (round.trans ex).mono (le_of_eq (by ring))

/-! ### Many steps -/

/-- Bound of the error after `n` steps at the time `t`. -/
private noncomputable def err (W Λ K : ℝ) (n : ℕ) (t : ℝ) : ℝ := (W * t + n * K) * Real.exp (Λ * t)

private theorem err_step {W Λ K t dt : ℝ} (W0 : 0 ≤ W) (Λ0 : 0 ≤ Λ) (K0 : 0 ≤ K) (ht : 0 ≤ t) (hdt : 0 ≤ dt) (n : ℕ) :
    err W Λ K n t + dt * (Λ * err W Λ K n t) + W * dt + K ≤ err W Λ K (n + 1) (t + dt) := by
  unfold err
  have g1 : 1 + Λ * dt ≤ Real.exp (Λ * dt) := by linarith [Real.add_one_le_exp (Λ * dt)]
  have g2 : Real.exp (Λ * (t + dt)) = Real.exp (Λ * t) * Real.exp (Λ * dt) := by rw [mul_add, Real.exp_add]
  have g3 : 1 ≤ Real.exp (Λ * (t + dt)) := Real.one_le_exp (by positivity)
  have g4 : Real.exp (Λ * t) * (1 + Λ * dt) ≤ Real.exp (Λ * (t + dt)) := by
    rw [g2]
    exact mul_le_mul_of_nonneg_left g1 (Real.exp_pos _).le
  have g5 : (W * t + n * K) * (Real.exp (Λ * t) * (1 + Λ * dt)) ≤ (W * t + n * K) * Real.exp (Λ * (t + dt)) :=
    mul_le_mul_of_nonneg_left g4 (by positivity)
  have g6 : (W * dt + K) * 1 ≤ (W * dt + K) * Real.exp (Λ * (t + dt)) := mul_le_mul_of_nonneg_left g3 (by positivity)
  push_cast
  linarith

private theorem err_le {W Λ K t T : ℝ} (W0 : 0 ≤ W) (Λ0 : 0 ≤ Λ) (K0 : 0 ≤ K) (ht : 0 ≤ t) (htT : t ≤ T) {n m : ℕ} (hn : n ≤ m) :
    err W Λ K n t ≤ (W * T + m * K) * Real.exp (Λ * T) := by
  unfold err
  have : (n : ℝ) ≤ m := Nat.cast_le.mpr hn
  refine mul_le_mul (add_le_add (mul_le_mul_of_nonneg_left htT W0) (mul_le_mul_of_nonneg_right this K0))
    (Real.exp_le_exp.mpr (mul_le_mul_of_nonneg_left htT Λ0)) (Real.exp_pos _).le (by have := ht.trans htT; positivity)

private theorem push_error (hr : Rounds ε rnd) (h0 : 0 ≤ ε) (h1 : ε ≤ 1 / 1000) {k : Const} (hc : 0 < k.c) {fields : List PField} {T M L : ℝ}
    (hf : Gentle fields T M L) {z : ℝ → Ph} (hz : Trajectory k fields T z) {X Q D θ B : ℝ}
    (hX : |(z 0).x| + T * rateBound k (M + 1) + 1 ≤ X ∧ |(z 0).y| + T * rateBound k (M + 1) + 1 ≤ X ∧ |(z 0).xi| + T * rateBound k (M + 1) + 1 ≤ X)
    (hQ : |(z 0).px| + T * rateBound k (M + 1) + 1 ≤ Q ∧ |(z 0).py| + T * rateBound k (M + 1) + 1 ≤ Q ∧ |(z 0).pz| + T * rateBound k (M + 1) + 1 ≤ Q)
    (small : L * (θ + 3 * (ε * (X + 12 * (k.c * T)))) ≤ 1) (hB : B = rateShift k (L * (θ + 3 * (ε * (X + 12 * (k.c * T)))))) (B0 : 0 ≤ B)
    (K0 : 0 ≤ unitsOf k T M X Q) (D0 : 0 ≤ D) (N : ℕ)
    (hN : ((2 * (rateLip k (M + 1) L * (1 + rateBound k (M + 1))) * D + B) * T + N * (unitsOf k T M X Q * ε)) *
      Real.exp (rateLip k (M + 1) L * T) ≤ 1) (S : List (ℝ × ℝ)) :
    ∀ (t : ℝ) (n : ℕ) (p : Ph), 0 ≤ t → t ≤ T → n + S.length ≤ N → Timed D θ T t S →
      Push.Near (err (2 * (rateLip k (M + 1) L * (1 + rateBound k (M + 1))) * D + B) (rateLip k (M + 1) L) (unitsOf k T M X Q * ε) n t) p (z t) →
      Push.Near (((2 * (rateLip k (M + 1) L * (1 + rateBound k (M + 1))) * D + B) * T + N * (unitsOf k T M X Q * ε)) *
        Real.exp (rateLip k (M + 1) L * T)) (push rnd k fields S p) (z (t + (S.map Prod.fst).sum)) := by
  have hs1 : ∀ p0, Smooth fields T p0 (k.c * T) (M + 1) L := fun p0 => (hf.smooth p0 _).mono (le_add_of_nonneg_right zero_le_one)
  have hA := rateBound_nonneg (k := k) (M := M + 1) hc (hs1 (z 0)).M0
  have hΛ := rateLip_nonneg (k := k) (M := M + 1) (L := L) hc (hs1 (z 0)).M0 hf.L0
  have W0 : 0 ≤ 2 * (rateLip k (M + 1) L * (1 + rateBound k (M + 1))) * D + B := by positivity
  have Kε : 0 ≤ unitsOf k T M X Q * ε := mul_nonneg K0 h0
  induction S with
  | nil =>
    intro t n p ht htT hn _ h
    simp only [List.map_nil, List.sum_nil, add_zero]
    exact h.mono (err_le W0 hΛ Kε ht htT (by simpa using hn))
  | cons s S ih =>
    intro t n p ht htT hn hS h
    obtain ⟨s1, s2, s3, s4, s5, s6, s7⟩ := hS
    rw [List.length_cons] at hn
    have one := (err_le W0 hΛ Kε ht htT (show n ≤ N by omega)).trans hN
    have near1 := h.mono one
    have moved := hz.near hc (hs1 (z 0)) le_rfl ht htT
    rw [sub_zero] at moved
    have tT := mul_le_mul_of_nonneg_right htT hA
    have size : ∀ {a b d : ℝ}, |a - b| ≤ 1 → |b - d| ≤ t * rateBound k (M + 1) → |a| ≤ |d| + T * rateBound k (M + 1) + 1 := by
      intro a b d h1 h2
      have := abs_sub_abs_le_abs_sub a b
      have := abs_sub_abs_le_abs_sub b d
      linarith
    have st := step_error hr h0 h1 hc hf ht s1 s3 s4 s5 s6 ((size near1.x moved.x).trans hX.1) ((size near1.y moved.y).trans hX.2.1)
      ((size near1.xi moved.xi).trans hX.2.2) ((size near1.px moved.px).trans hQ.1) ((size near1.py moved.py).trans hQ.2.1)
      ((size near1.pz moved.pz).trans hQ.2.2) small
    rw [← hB] at st
    have h2 := hz.step hc (hs1 (z 0)) ht s1 s3
    have δ0 := h.nonneg
    have h3 := motion_near hc ((hf.smooth (z t) _).mono (le_add_of_nonneg_right zero_le_one : M ≤ M + 1)) ht htT ht htT (show |t - t| ≤ 0 by simp)
      (show InReach (z t) _ p from ⟨h.x, h.y, h.xi.trans (by linarith)⟩)
      (show InReach (z t) _ (z t) by
        unfold InReach
        simp only [sub_self, abs_zero]
        exact ⟨δ0, δ0, by linarith⟩) h
    have h4 := (st.trans (h.shift s1 h3)).trans h2
    have e : t + ((s :: S).map Prod.fst).sum = t + s.1 + (S.map Prod.fst).sum := by rw [List.map_cons, List.sum_cons]; ring
    rw [e]
    refine ih (t + s.1) (n + 1) _ (by linarith) s3 (by omega) s7 (h4.mono (le_trans ?_ (err_step W0 hΛ Kε ht s1 n)))
    have : rateLip k (M + 1) L * (1 + rateBound k (M + 1)) * s.1 ^ 2 ≤ rateLip k (M + 1) L * (1 + rateBound k (M + 1)) * D * s.1 := by
      have := mul_le_mul_of_nonneg_left s2 (by positivity : 0 ≤ rateLip k (M + 1) L * (1 + rateBound k (M + 1)) * s.1)
      linarith
    linarith

private theorem rateShift_mul (k : Const) (e : ℝ) : rateShift k e = rateShift k 1 * e := by unfold rateShift; ring

private theorem within {Y D θ n ε : ℝ} (hY : 0 ≤ Y) (hD : 0 ≤ D) (hθ : 0 ≤ θ) (hn : 0 ≤ n) (hε : 0 ≤ ε) :
    θ + 3 * (ε * Y) ≤ (1 + 3 * Y) * (D + θ + (n + 1) * ε) := by
  have a : 0 ≤ Y * θ := mul_nonneg hY hθ
  have b : 0 ≤ Y * D := mul_nonneg hY hD
  have c : 0 ≤ n * ε := mul_nonneg hn hε
  have d : 0 ≤ Y * (n * ε) := mul_nonneg hY c
  have e : (1 + 3 * Y) * (D + θ + (n + 1) * ε) = D + θ + n * ε + ε + 3 * (Y * D) + 3 * (Y * θ) + 3 * (Y * (n * ε)) + 3 * (ε * Y) := by ring
  linarith

private theorem total_small {Y D θ n ε L W : ℝ} (hY : 0 ≤ Y) (hD : 0 ≤ D) (hθ : 0 ≤ θ) (hn : 0 ≤ n) (hε : 0 ≤ ε) (hL : 0 ≤ L) (hW : 0 ≤ W) :
    L * (θ + 3 * (ε * Y)) ≤ (W + L * (1 + 3 * Y) + 1) * (D + θ + (n + 1) * ε) := by
  have a := mul_le_mul_of_nonneg_left (within hY hD hθ hn hε) hL
  have b : 0 ≤ D + θ + (n + 1) * ε := by positivity
  have c : 0 ≤ W * (D + θ + (n + 1) * ε) := mul_nonneg hW b
  have e : (W + L * (1 + 3 * Y) + 1) * (D + θ + (n + 1) * ε) =
    W * (D + θ + (n + 1) * ε) + L * ((1 + 3 * Y) * (D + θ + (n + 1) * ε)) + (D + θ + (n + 1) * ε) := by ring
  linarith

private theorem total_bound {Y D θ n ε L C T s K G : ℝ} (hY : 0 ≤ Y) (hD : 0 ≤ D) (hθ : 0 ≤ θ) (hn : 0 ≤ n) (hε : 0 ≤ ε) (hL : 0 ≤ L) (hC : 0 ≤ C)
    (hT : 0 ≤ T) (hs : 0 ≤ s) (hK : 0 ≤ K) (hG : 0 ≤ G) :
    ((2 * C * D + s * (L * (θ + 3 * (ε * Y)))) * T + n * (K * ε)) * G ≤
      ((2 * C * T + s * L * (1 + 3 * Y) * T + K) * G + L * (1 + 3 * Y) + 1) * (D + θ + (n + 1) * ε) := by
  have n0 : 0 ≤ n * ε := mul_nonneg hn hε
  obtain ⟨R, hR⟩ : ∃ R, R = D + θ + (n + 1) * ε := ⟨_, rfl⟩
  have R0 : 0 ≤ R := by rw [hR]; positivity
  have h2 := mul_le_mul_of_nonneg_left (within hY hD hθ hn hε) (mul_nonneg (mul_nonneg hs hL) hT)
  rw [← hR] at h2 ⊢
  have h1 : 2 * C * T * D ≤ 2 * C * T * R := mul_le_mul_of_nonneg_left (by linarith) (by positivity)
  have h3 : K * (n * ε) ≤ K * R := mul_le_mul_of_nonneg_left (by linarith) hK
  have h4 : (2 * C * D + s * (L * (θ + 3 * (ε * Y)))) * T + n * (K * ε) ≤ (2 * C * T + s * L * (1 + 3 * Y) * T + K) * R := by
    have e1 : (2 * C * D + s * (L * (θ + 3 * (ε * Y)))) * T + n * (K * ε) = 2 * C * T * D + s * L * T * (θ + 3 * (ε * Y)) + K * (n * ε) := by ring
    have e2 : (2 * C * T + s * L * (1 + 3 * Y) * T + K) * R = 2 * C * T * R + s * L * T * ((1 + 3 * Y) * R) + K * R := by ring
    linarith
  have h5 := mul_le_mul_of_nonneg_right h4 hG
  have h6 : 0 ≤ (L * (1 + 3 * Y) + 1) * R := by positivity
  have e : ((2 * C * T + s * L * (1 + 3 * Y) * T + K) * G + L * (1 + 3 * Y) + 1) * R =
    (2 * C * T + s * L * (1 + 3 * Y) * T + K) * R * G + (L * (1 + 3 * Y) + 1) * R := by ring
  linarith

private theorem push_gentle {k : Const} (hc : 0 < k.c) {fields : List PField} {T M L : ℝ} (hT : 0 ≤ T) (hf : Gentle fields T M L) {z : ℝ → Ph}
    (hz : Trajectory k fields T z) :
    ∃ C, 0 < C ∧ ∀ (ε : ℝ) (rnd : ℝ → ℝ), 0 ≤ ε → ε ≤ 1 / 1000 → Rounds ε rnd → ∀ (D θ : ℝ) (S : List (ℝ × ℝ)), 0 ≤ D → 0 ≤ θ → Timed D θ T 0 S →
      C * (D + θ + (S.length + 1) * ε) ≤ 1 →
      Push.Near (C * (D + θ + (S.length + 1) * ε)) (push rnd k fields S (z 0)) (z (S.map Prod.fst).sum) := by
  have hM1 : 0 ≤ M + 1 := by linarith [hf.M0]
  have hM := hf.M0
  have hL := hf.L0
  have hA := rateBound_nonneg (k := k) (M := M + 1) hc hM1
  have hΛ := rateLip_nonneg (k := k) (M := M + 1) (L := L) hc hM1 hL
  have hS := rateShift_nonneg (k := k) hc zero_le_one
  obtain ⟨X, hXd⟩ : ∃ X, X = |(z 0).x| + |(z 0).y| + |(z 0).xi| + T * rateBound k (M + 1) + 1 := ⟨_, rfl⟩
  obtain ⟨Q, hQd⟩ : ∃ Q, Q = |(z 0).px| + |(z 0).py| + |(z 0).pz| + T * rateBound k (M + 1) + 1 := ⟨_, rfl⟩
  have TA : 0 ≤ T * rateBound k (M + 1) := mul_nonneg hT hA
  have X0 : 0 ≤ X := by rw [hXd]; positivity
  have Q0 : 0 ≤ Q := by rw [hQd]; positivity
  have hX : |(z 0).x| + T * rateBound k (M + 1) + 1 ≤ X ∧ |(z 0).y| + T * rateBound k (M + 1) + 1 ≤ X ∧ |(z 0).xi| + T * rateBound k (M + 1) + 1 ≤ X := by
    rw [hXd]
    have := abs_nonneg (z 0).x
    have := abs_nonneg (z 0).y
    have := abs_nonneg (z 0).xi
    exact ⟨by linarith, by linarith, by linarith⟩
  have hQ : |(z 0).px| + T * rateBound k (M + 1) + 1 ≤ Q ∧ |(z 0).py| + T * rateBound k (M + 1) + 1 ≤ Q ∧ |(z 0).pz| + T * rateBound k (M + 1) + 1 ≤ Q := by
    rw [hQd]
    have := abs_nonneg (z 0).px
    have := abs_nonneg (z 0).py
    have := abs_nonneg (z 0).pz
    exact ⟨by linarith, by linarith, by linarith⟩
  have K0 : 0 ≤ unitsOf k T M X Q := by unfold unitsOf; positivity
  obtain ⟨Y, hY⟩ : ∃ Y, Y = X + 12 * (k.c * T) := ⟨_, rfl⟩
  have Y0 : 0 ≤ Y := by rw [hY]; positivity
  obtain ⟨G, hG⟩ : ∃ G, G = Real.exp (rateLip k (M + 1) L * T) := ⟨_, rfl⟩
  have G0 : 0 < G := by rw [hG]; exact Real.exp_pos _
  obtain ⟨C0, hC0d⟩ : ∃ C0, C0 = rateLip k (M + 1) L * (1 + rateBound k (M + 1)) := ⟨_, rfl⟩
  have hC0 : 0 ≤ C0 := by rw [hC0d]; positivity
  obtain ⟨s, hs⟩ : ∃ s, s = rateShift k 1 := ⟨_, rfl⟩
  rw [← hs] at hS
  refine ⟨(2 * C0 * T + s * L * (1 + 3 * Y) * T + unitsOf k T M X Q) * G + L * (1 + 3 * Y) + 1, by positivity, ?_⟩
  intro ε rnd h0 h1 hr D θ S D0 θ0 hS' hsmall
  have n0 : 0 ≤ (S.length : ℝ) := Nat.cast_nonneg _
  have small : L * (θ + 3 * (ε * (X + 12 * (k.c * T)))) ≤ 1 := by
    refine le_trans ?_ hsmall
    rw [← hY]
    exact total_small Y0 D0 θ0 n0 h0 hL (by positivity)
  have bound : ((2 * C0 * D + rateShift k (L * (θ + 3 * (ε * (X + 12 * (k.c * T)))))) * T + S.length * (unitsOf k T M X Q * ε)) * G ≤
      ((2 * C0 * T + s * L * (1 + 3 * Y) * T + unitsOf k T M X Q) * G + L * (1 + 3 * Y) + 1) * (D + θ + (S.length + 1) * ε) := by
    rw [rateShift_mul, ← hs, ← hY]
    exact total_bound Y0 D0 θ0 n0 h0 hL hC0 hT hS K0 G0.le
  have key := push_error hr h0 h1 hc hf hz hX hQ small rfl (rateShift_nonneg hc (by positivity)) K0 D0 S.length
    (by rw [← hG, ← hC0d]; exact bound.trans hsmall) S 0 0 (z 0) le_rfl hT (by omega) hS' (by unfold err; simpa using Push.Near.refl le_rfl (z 0))
  rw [← hG, ← hC0d, zero_add] at key
  exact key.mono bound

/-! ### Fields near the particle -/

private noncomputable def clampTo (a R x : ℝ) : ℝ := max (a - R) (min (a + R) x)

private theorem clampTo_near (a R x y : ℝ) : |clampTo a R x - clampTo a R y| ≤ |x - y| := by
  have h1 := abs_max_sub_max_le_max (a - R) (min (a + R) x) (a - R) (min (a + R) y)
  have h2 := abs_min_sub_min_le_max (a + R) x (a + R) y
  rw [sub_self, abs_zero] at h1 h2
  exact h1.trans (max_le (abs_nonneg _) (h2.trans (max_le (abs_nonneg _) le_rfl)))

private theorem clampTo_in {a R : ℝ} (hR : 0 ≤ R) (x : ℝ) : |clampTo a R x - a| ≤ R := by
  unfold clampTo
  rw [abs_le]
  constructor
  · linarith [le_max_left (a - R) (min (a + R) x)]
  · have : max (a - R) (min (a + R) x) ≤ a + R := max_le (by linarith) (min_le_left _ _)
    linarith

private theorem clampTo_eq {a R x : ℝ} (h : |x - a| ≤ R) : clampTo a R x = x := by
  rw [abs_le] at h
  unfold clampTo
  rw [min_eq_right (by linarith), max_eq_right (by linarith)]

/-- The nearest position within reach. -/
private noncomputable def inside (p0 : Ph) (R : ℝ) (p : Ph) : Ph :=
  ⟨clampTo p0.x R p.x, clampTo p0.y R p.y, clampTo p0.xi (2 * R) p.xi, 0, 0, 0⟩

/-- The fields continued beyond the reach of the particle. -/
private noncomputable def clamped (fields : List PField) (p0 : Ph) (R : ℝ) : List PField :=
  [fun t x y xi _ => felt fields t (inside p0 R ⟨x, y, xi, 0, 0, 0⟩)]

private theorem felt_clamped (fields : List PField) (p0 : Ph) (R t : ℝ) (p : Ph) :
    felt (clamped fields p0 R) t p = felt fields t (inside p0 R p) := rfl

private theorem felt_inside {fields : List PField} {p0 : Ph} {R : ℝ} {p : Ph} (h : InReach p0 R p) (t : ℝ) :
    felt (clamped fields p0 R) t p = felt fields t p := by
  rw [felt_clamped]
  unfold inside felt
  rw [clampTo_eq h.1, clampTo_eq h.2.1, clampTo_eq h.2.2]

private theorem clamped_gentle {fields : List PField} {T R M L : ℝ} {p0 : Ph} (hR : 0 ≤ R) (hf : Smooth fields T p0 R M L) :
    Gentle (clamped fields p0 R) T M L := by
  have r : ∀ p, InReach p0 R (inside p0 R p) := fun p => ⟨clampTo_in hR _, clampTo_in hR _, clampTo_in (by linarith) _⟩
  refine ⟨hf.M0, hf.L0, fun t p h1 h2 => hf.bounded t _ h1 h2 (r p), fun t s p q h1 h2 h3 h4 => ?_⟩
  refine (hf.lipschitz t s _ _ h1 h2 h3 h4 (r p) (r q)).mono (mul_le_mul_of_nonneg_left ?_ hf.L0)
  have a1 := clampTo_near p0.x R p.x q.x
  have a2 := clampTo_near p0.y R p.y q.y
  have a3 := clampTo_near p0.xi (2 * R) p.xi q.xi
  unfold inside
  dsimp only
  linarith

private theorem Trajectory.upTo {k : Const} {fields : List PField} {T T' : ℝ} {z : ℝ → Ph} (hz : Trajectory k fields T z) (h : T' ≤ T) :
    Trajectory k fields T' z := by
  have sub : Set.Icc 0 T' ⊆ Set.Icc 0 T := Set.Icc_subset_Icc le_rfl h
  obtain ⟨h1, h2, h3, h4, h5, h6⟩ := hz
  exact ⟨fun t ht => (h1 t (sub ht)).mono sub, fun t ht => (h2 t (sub ht)).mono sub, fun t ht => (h3 t (sub ht)).mono sub,
    fun t ht => (h4 t (sub ht)).mono sub, fun t ht => (h5 t (sub ht)).mono sub, fun t ht => (h6 t (sub ht)).mono sub⟩

private theorem clamped_trajectory {k : Const} (hc : 0 < k.c) {fields : List PField} {T R : ℝ} {z : ℝ → Ph} (hR : k.c * T ≤ R)
    (hz : Trajectory k fields T z) : Trajectory k (clamped fields (z 0) R) T z := by
  have e : ∀ t ∈ Set.Icc 0 T, motion k (clamped fields (z 0) R) t (z t) = motion k fields t (z t) := by
    intro t ht
    obtain ⟨h1, h2, h3⟩ := hz.inReach hc ht.1 ht.2
    unfold motion
    rw [felt_inside ⟨h1.trans hR, h2.trans hR, h3.trans (by linarith)⟩]
  obtain ⟨h1, h2, h3, h4, h5, h6⟩ := hz
  constructor <;> intro t ht <;> rw [e t ht]
  exacts [h1 t ht, h2 t ht, h3 t ht, h4 t ht, h5 t ht, h6 t ht]

private theorem Timed.init {D θ T : ℝ} {S : List (ℝ × ℝ)} {s : ℝ × ℝ} : ∀ {t : ℝ}, Timed D θ T t (S ++ [s]) →
    Timed D θ T t S ∧ 0 ≤ (S.map Prod.fst).sum ∧ 0 ≤ s.1 ∧ t + (S.map Prod.fst).sum + s.1 ≤ T := by
  induction S with
  | nil =>
    rintro t ⟨h1, -, h3, -⟩
    refine ⟨trivial, le_rfl, h1, ?_⟩
    simpa using h3
  | cons a S ih =>
    rintro t ⟨h1, h2, h3, h4, h5, h6, h7⟩
    obtain ⟨i1, i2, i3, i4⟩ := ih h7
    simp only [List.map_cons, List.sum_cons]
    exact ⟨⟨h1, h2, h3, h4, h5, h6, i1⟩, by linarith, i3, by linarith⟩

private theorem halfPush_reach (hr : Rounds ε rnd) (h0 : 0 ≤ ε) (h1 : ε ≤ 1 / 1000) {k : Const} (hc : 0 < k.c) {p0 w p : Ph} {t dt T E : ℝ}
    (ht : 0 ≤ t) (hdt : 0 ≤ dt) (hT : t + dt ≤ T) (hw : InReach p0 (k.c * t) w) (hp : Push.Near 1 p w)
    (hE : |p0.x| + |p0.y| + |p0.xi| + 14 * (k.c * T) + 1 ≤ E) (hεE : ε * E ≤ 1) :
    InReach p0 (k.c * T + 2) (halfPush1 rnd k.c dt p) := by
  obtain ⟨a1, a2, a3⟩ := halfPush_rounded hr h0 h1 k dt p
  obtain ⟨m1, m2, m3⟩ := halfPush_moved hc hdt p
  obtain ⟨w1, w2, w3⟩ := hw
  have cdt : k.c * t + k.c * dt ≤ k.c * T := by
    rw [← mul_add]; exact mul_le_mul_of_nonneg_left hT hc.le
  have ct : 0 ≤ k.c * t := by positivity
  have cd : 0 ≤ k.c * dt := by positivity
  rw [abs_of_nonneg cd] at a1 a2 a3
  have x0 := abs_nonneg p0.x
  have y0 := abs_nonneg p0.y
  have z0 := abs_nonneg p0.xi
  have key : ∀ {b a v c u : ℝ}, |b| ≤ |p0.x| + |p0.y| + |p0.xi| → |v - b| ≤ 2 * (k.c * t) → |a - v| ≤ 1 → |u - c| ≤ ε * |a| + 12 * ε * (k.c * dt) →
      |u - c| ≤ 1 := by
    intro b a v c u hb hv ha hu
    refine hu.trans (le_trans ?_ hεE)
    have e1 := abs_sub_abs_le_abs_sub a v
    have e2 := abs_sub_abs_le_abs_sub v b
    have e3 : |a| + 12 * (k.c * dt) ≤ E := by linarith
    have := mul_le_mul_of_nonneg_left e3 h0
    linarith
  have b1 := key (by linarith) (w1.trans (by linarith)) hp.x a1
  have b2 := key (by linarith) (w2.trans (by linarith)) hp.y a2
  have b3 := key (by linarith) w3 hp.xi a3
  have fin : ∀ {b v a c u R : ℝ}, |v - b| ≤ R → |a - v| ≤ 1 → |c - a| ≤ k.c * dt → |u - c| ≤ 1 → |u - b| ≤ R + k.c * dt + 2 := by
    intro b v a c u R h1 h2 h3 h4
    have := abs_sub_le u c b
    have := abs_sub_le c a b
    have := abs_sub_le a v b
    linarith
  exact ⟨(fin w1 hp.x m1 b1).trans (by linarith), (fin w2 hp.y m2 b2).trans (by linarith), (fin w3 hp.xi m3 b3).trans (by linarith)⟩

/-- Tracking with rounding differs from the exact trajectory at most by a constant times the sum of the largest time step, of the error of the
times at which the fields are evaluated, and of the unit of rounding times the number of steps, as long as this is below one.  The constant
depends on the fields and on the initial state only.  The fields have to be bounded and Lipschitz continuous where the particle can be. -/
theorem push_accurate {k : Const} (hc : 0 < k.c) {fields : List PField} {T M L : ℝ} (hT : 0 ≤ T) {z : ℝ → Ph} (hz : Trajectory k fields T z)
    (hf : Smooth fields T (z 0) (k.c * T + 2) M L) :
    ∃ C, 0 < C ∧ ∀ (ε : ℝ) (rnd : ℝ → ℝ), 0 ≤ ε → ε ≤ 1 / 1000 → Rounds ε rnd → ∀ (D θ : ℝ) (S : List (ℝ × ℝ)), 0 ≤ D → 0 ≤ θ → Timed D θ T 0 S →
      C * (D + θ + (S.length + 1) * ε) ≤ 1 →
      Push.Near (C * (D + θ + (S.length + 1) * ε)) (push rnd k fields S (z 0)) (z (S.map Prod.fst).sum) := by
  have cT : 0 ≤ k.c * T := mul_nonneg hc.le hT
  obtain ⟨C, C0, h⟩ := push_gentle hc hT (clamped_gentle (by linarith) hf) (clamped_trajectory hc (by linarith) hz)
  obtain ⟨E, hE⟩ : ∃ E, E = |(z 0).x| + |(z 0).y| + |(z 0).xi| + 14 * (k.c * T) + 1 := ⟨_, rfl⟩
  have E0 : 0 ≤ E := by rw [hE]; positivity
  refine ⟨C + E, by positivity, ?_⟩
  intro ε rnd h0 h1 hr D θ S D0 θ0 hS hs
  have same : push rnd k fields S (z 0) = push rnd k (clamped fields (z 0) (k.c * T + 2)) S (z 0) := by
    induction S using List.reverseRecOn with
    | nil => rfl
    | append_singleton S s ih =>
      obtain ⟨t1, t2, t3, t4⟩ := hS.init
      rw [zero_add] at t4
      have n0 : (0 : ℝ) ≤ S.length := Nat.cast_nonneg _
      have hlen : (C + E) * (D + θ + (S.length + 1) * ε) ≤ 1 := by
        refine le_trans (mul_le_mul_of_nonneg_left ?_ (by positivity)) hs
        rw [List.length_append, List.length_singleton]
        push_cast
        linarith
      have R0 : 0 ≤ D + θ + (S.length + 1) * ε := by positivity
      have hC : C * (D + θ + (S.length + 1) * ε) ≤ 1 := by
        have := mul_nonneg E0 R0
        linarith
      have hεE : ε * E ≤ 1 := by
        have a : E * ε ≤ E * (D + θ + (S.length + 1) * ε) := mul_le_mul_of_nonneg_left (by have := mul_nonneg n0 h0; linarith) E0
        have := mul_nonneg C0.le R0
        linarith
      have near := (h ε rnd h0 h1 hr D θ S D0 θ0 t1 hC).mono hC
      have one : ∀ g : List PField, push rnd k g (S ++ [s]) (z 0) =
          boris1 rnd k.c k.qmc s.1 (fun x y xi => felt g s.2 ⟨x, y, xi, 0, 0, 0⟩) (push rnd k g S (z 0)) := by
        intro g
        unfold push steps
        rw [List.map_append, List.foldl_append]
        rfl
      have reach := halfPush_reach hr h0 h1 hc t2 t3 t4 (Trajectory.inReach hc (Trajectory.upTo hz (by linarith)) t2 le_rfl) near hE.ge hεE
      rw [one, one, ih t1 hlen]
      generalize push rnd k (clamped fields (z 0) (k.c * T + 2)) S (z 0) = p at *
      unfold boris1
      dsimp only
      have : felt fields s.2 ⟨(halfPush1 rnd k.c s.1 p).x, (halfPush1 rnd k.c s.1 p).y, (halfPush1 rnd k.c s.1 p).xi, 0, 0, 0⟩ =
          felt (clamped fields (z 0) (k.c * T + 2)) s.2 ⟨(halfPush1 rnd k.c s.1 p).x, (halfPush1 rnd k.c s.1 p).y, (halfPush1 rnd k.c s.1 p).xi, 0, 0, 0⟩ :=
        (felt_inside ⟨reach.1, reach.2.1, reach.2.2⟩ s.2).symm
      rw [this]
  have R0 : 0 ≤ D + θ + (S.length + 1) * ε := by positivity
  have := mul_nonneg E0 R0
  rw [same]
  exact (h ε rnd h0 h1 hr D θ S D0 θ0 hS (by linarith)).mono (by linarith)

/-! ### The clock of the bunch -/

/-- The steps of a bunch with the time of the bunch rounded after each step (tracker.py 185, 201, 213-220, 245; boris_pusher.py 36). -/
noncomputable def clock (rnd : ℝ → ℝ) : ℝ → List ℝ → List (ℝ × ℝ)
  | _, [] => []
  | t, dt :: L => (dt, rnd (t + rnd (dt / 2))) :: clock rnd (rnd (t + dt)) L

theorem clock_length (rnd : ℝ → ℝ) (L : List ℝ) (t : ℝ) : (clock rnd t L).length = L.length := by
  induction L generalizing t with
  | nil => rfl
  | cons dt L ih => simp [clock, ih]

theorem clock_fst (rnd : ℝ → ℝ) (L : List ℝ) (t : ℝ) : (clock rnd t L).map Prod.fst = L := by
  induction L generalizing t with
  | nil => rfl
  | cons dt L ih => simp [clock, ih]

private theorem clock_timed (hr : Rounds ε rnd) (h0 : 0 ≤ ε) (h1 : ε ≤ 1 / 1000) {D T θ : ℝ} (T0 : 0 ≤ T) (L : List ℝ) (hL : ∀ dt ∈ L, 0 ≤ dt ∧ dt ≤ D) (n : ℕ)
    (hθ : (2 * (n + L.length) + 3) * (ε * T) ≤ θ) {s t : ℝ} (hs : 0 ≤ s) (ht : 0 ≤ t) (hst : |t - s| ≤ 2 * n * (ε * T)) (hT : s + L.sum + θ ≤ T) :
    Timed D θ T s (clock rnd t L) := by
  induction L generalizing n s t with
  | nil => trivial
  | cons dt L ih =>
    obtain ⟨d0, dD⟩ := hL dt (by simp)
    have hsum : 0 ≤ L.sum := List.sum_nonneg fun x hx => (hL x (by simp [hx])).1
    rw [List.sum_cons] at hT
    simp only [List.length_cons, Nat.cast_add, Nat.cast_one] at hθ
    have ln : (0 : ℝ) ≤ L.length := Nat.cast_nonneg _
    have nn : (0 : ℝ) ≤ n := Nat.cast_nonneg _
    have e0 : 0 ≤ ε * T := mul_nonneg h0 T0
    have hn : (2 * n + 5) * (ε * T) ≤ θ := le_trans (by nlinarith) hθ
    have hθ0 : 0 ≤ θ := le_trans (by positivity) hn
    rw [abs_le] at hst
    have a1 := hr (t + dt)
    have a2 := hr (dt / 2)
    rw [abs_of_nonneg (a := t + dt) (by linarith)] at a1
    rw [abs_of_nonneg (a := dt / 2) (by linarith)] at a2
    have b2 : |rnd (dt / 2) - dt / 2| ≤ ε * T := a2.trans (mul_le_mul_of_nonneg_left (by linarith) h0)
    have tT : t + dt ≤ 2 * T := by nlinarith
    have b1 : |rnd (t + dt) - (t + dt)| ≤ 2 * (ε * T) := by
      refine a1.trans ?_
      have := mul_le_mul_of_nonneg_left tT h0
      linarith
    have r2 : 0 ≤ rnd (dt / 2) := hr.nonneg (by linarith) (by linarith)
    have a3 := hr (t + rnd (dt / 2))
    rw [abs_of_nonneg (a := t + rnd (dt / 2)) (by linarith)] at a3
    rw [abs_le] at b1 b2
    have b3 : |rnd (t + rnd (dt / 2)) - (t + rnd (dt / 2))| ≤ 2 * (ε * T) := by
      refine a3.trans ?_
      have : t + rnd (dt / 2) ≤ 2 * T := by nlinarith
      have := mul_le_mul_of_nonneg_left this h0
      linarith
    rw [abs_le] at b3
    have c : |rnd (t + rnd (dt / 2)) - (s + dt / 2)| ≤ (2 * n + 5) * (ε * T) := by
      rw [abs_le]
      constructor <;> linarith [b1.1, b1.2, b2.1, b2.2, b3.1, b3.2, hst.1, hst.2]
    have c' := abs_le.1 (c.trans hn)
    refine ⟨d0, dD, by linarith, hr.nonneg (by linarith) (by linarith), by linarith [c'.2], c.trans hn, ?_⟩
    refine ih (fun x hx => hL x (by simp [hx])) (n + 1) (le_trans (le_of_eq ?_) hθ) (by linarith) (hr.nonneg (by linarith) (by linarith)) ?_ (by linarith)
    · push_cast; ring
    · push_cast
      rw [abs_le]
      constructor <;> linarith [b1.1, b1.2, hst.1, hst.2]

/-- The same with the time of the bunch rounded after each step too.  The error is at most a constant times the sum of the largest time step
and of the unit of rounding times the number of steps. -/
theorem track_accurate {k : Const} (hc : 0 < k.c) {fields : List PField} {T M L : ℝ} (hT : 0 ≤ T) {z : ℝ → Ph} (hz : Trajectory k fields (T + 1) z)
    (hf : Smooth fields (T + 1) (z 0) (k.c * (T + 1) + 2) M L) :
    ∃ C, 0 < C ∧ ∀ (ε : ℝ) (rnd : ℝ → ℝ), 0 ≤ ε → ε ≤ 1 / 1000 → Rounds ε rnd → ∀ (D : ℝ) (S : List ℝ), 0 ≤ D → (∀ dt ∈ S, 0 ≤ dt ∧ dt ≤ D) →
      S.sum ≤ T → C * (D + (S.length + 1) * ε) ≤ 1 →
      Push.Near (C * (D + (S.length + 1) * ε)) (push rnd k fields (clock rnd 0 S) (z 0)) (z S.sum) := by
  obtain ⟨C, C0, h⟩ := push_accurate hc (by linarith) hz hf
  refine ⟨C * (1 + 3 * (T + 1)) + 3 * (T + 1), by positivity, ?_⟩
  intro ε rnd h0 h1 hr D S D0 hS hST hs
  have n0 : (0 : ℝ) ≤ S.length := Nat.cast_nonneg _
  obtain ⟨R, hR⟩ : ∃ R, R = (S.length + 1) * ε := ⟨_, rfl⟩
  have R0 : 0 ≤ R := by rw [hR]; positivity
  rw [← hR] at hs ⊢
  have p1 : 0 ≤ C * R := by positivity
  have p2 : 0 ≤ C * D := by positivity
  have p3 : 0 ≤ T * (C * D) := by positivity
  have p4 : 0 ≤ T * D := by positivity
  have p5 : 0 ≤ T * R := by positivity
  have p6 : 0 ≤ T * (C * R) := by positivity
  have e1 : (C * (1 + 3 * (T + 1)) + 3 * (T + 1)) * (D + R) =
    C * (D + 3 * (T + 1) * R + R) + 3 * (T + 1) * R + 3 * (T * (C * D)) + 3 * (C * D) + 3 * (T * D) + 3 * D := by ring
  have q : 0 ≤ 3 * (T + 1) * R := by positivity
  have q' : 0 ≤ C * (D + 3 * (T + 1) * R + R) := by positivity
  have ht : Timed D (3 * (T + 1) * R) (T + 1) 0 (clock rnd 0 S) := by
    refine clock_timed hr h0 h1 (by linarith) S hS 0 ?_ le_rfl le_rfl (by simp) (by linarith)
    rw [hR, Nat.cast_zero, zero_add]
    have : 0 ≤ S.length * (ε * (T + 1)) := by positivity
    nlinarith
  have key := h ε rnd h0 h1 hr D _ _ D0 q ht (by rw [clock_length, ← hR]; linarith)
  rw [clock_length, clock_fst, ← hR] at key
  exact key.mono (by linarith)

/-- A particle that is accelerated from rest during one unit of time on the axis of a quadrupole, with `n` steps: the error is at most
`C (1/n + (n + 1) ε)`. -/
example : ∃ C, 0 < C ∧ ∀ (ε : ℝ) (rnd : ℝ → ℝ), 0 ≤ ε → ε ≤ 1 / 1000 → Rounds ε rnd → ∀ n : ℕ, 0 < n → C * (1 / n + (n + 1) * ε) ≤ 1 →
    Push.Near (C * (1 / n + (n + 1) * ε)) (push rnd ⟨1, -1, -1⟩ demoFields (clock rnd 0 (List.replicate n (1 / n))) (demoPath 0)) (demoPath 1) := by
  have hz : Trajectory ⟨1, -1, -1⟩ demoFields (1 + 1) demoPath := by rw [one_add_one_eq_two]; exact demoPath_exact
  have hf : Smooth demoFields (1 + 1) (demoPath 0) (1 * (1 + 1) + 2) 12 3 := by
    constructor
    · norm_num
    · norm_num
    · rintro t p - - ⟨h1, h2, -⟩
      rw [demo_felt]
      simp only [demoPath, sub_zero, abs_le] at h1 h2
      constructor <;> simp only [sub_zero, abs_le] <;> constructor <;> linarith
    · rintro t s p q - - - - - -
      rw [demo_felt, demo_felt]
      have h1 := abs_nonneg (t - s)
      have h2 := abs_nonneg (p.x - q.x)
      have h3 := abs_nonneg (p.y - q.y)
      have h4 := abs_nonneg (p.xi - q.xi)
      constructor <;> dsimp only
      · rw [sub_self, abs_zero]; positivity
      · rw [sub_self, abs_zero]; positivity
      · rw [sub_self, abs_zero]; positivity
      · rw [← mul_sub, abs_mul, abs_of_pos (by norm_num : (0 : ℝ) < 3)]; linarith
      · rw [← mul_sub, abs_mul, abs_of_pos (by norm_num : (0 : ℝ) < 3)]; linarith
      · rw [sub_self, abs_zero]; positivity
  obtain ⟨C, C0, h⟩ := track_accurate (k := ⟨1, -1, -1⟩) one_pos (by norm_num) hz hf
  refine ⟨C, C0, fun ε rnd h0 h1 hr n hn hs => ?_⟩
  have n0 : (0 : ℝ) < n := by exact_mod_cast hn
  have e : (List.replicate n (1 / (n : ℝ))).sum = 1 := by
    rw [List.sum_replicate, nsmul_eq_mul]; field_simp
  have := h ε rnd h0 h1 hr (1 / n) (List.replicate n (1 / n)) (by positivity)
    (fun dt hdt => by rw [List.eq_of_mem_replicate hdt]; exact ⟨by positivity, le_rfl⟩) e.le (by rw [List.length_replicate]; exact hs)
  rwa [List.length_replicate, e] at this

/-- The bound is below one for many steps and a small unit of rounding. -/
example (C : ℝ) (hC : 0 < C) : ∃ (n : ℕ) (ε : ℝ), 0 < n ∧ 0 < ε ∧ C * (1 / n + (n + 1) * ε) ≤ 1 := by
  obtain ⟨n, hn⟩ := exists_nat_gt (2 * C)
  have n0 : (0 : ℝ) < n := by linarith
  refine ⟨n, 1 / (2 * C * (n + 1)), by exact_mod_cast n0, by positivity, ?_⟩
  have e1 : C * (1 / n) ≤ 1 / 2 := by
    rw [mul_div_assoc', div_le_div_iff₀ n0 two_pos]; linarith
  have e2 : C * ((n + 1) * (1 / (2 * C * (n + 1)))) = 1 / 2 := by field_simp
  linarith [mul_add C (1 / n) ((n + 1) * (1 / (2 * C * (n + 1))))]

end WakeT.Push.Rounded
