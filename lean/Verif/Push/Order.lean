import Verif.Push.Converge
import Verif.Base.Order
import Mathlib.Analysis.Calculus.Deriv.Prod
import Mathlib.Analysis.SpecialFunctions.Sqrt

/-! # Order of the pushers (C143, C144) -/

set_option linter.unusedSectionVars false

namespace WakeT.Push

open Fields (EB)

/-! ### Specification -/

/-- The fields have `n` continuous derivatives in time and space. -/
structure ContDiffFields (n : ℕ) (fields : List PField) : Prop where
  ex : ContDiff ℝ n fun v : ℝ × ℝ × ℝ × ℝ => (felt fields v.1 ⟨v.2.1, v.2.2.1, v.2.2.2, 0, 0, 0⟩).ex
  ey : ContDiff ℝ n fun v : ℝ × ℝ × ℝ × ℝ => (felt fields v.1 ⟨v.2.1, v.2.2.1, v.2.2.2, 0, 0, 0⟩).ey
  ez : ContDiff ℝ n fun v : ℝ × ℝ × ℝ × ℝ => (felt fields v.1 ⟨v.2.1, v.2.2.1, v.2.2.2, 0, 0, 0⟩).ez
  bx : ContDiff ℝ n fun v : ℝ × ℝ × ℝ × ℝ => (felt fields v.1 ⟨v.2.1, v.2.2.1, v.2.2.2, 0, 0, 0⟩).bx
  b_y : ContDiff ℝ n fun v : ℝ × ℝ × ℝ × ℝ => (felt fields v.1 ⟨v.2.1, v.2.2.1, v.2.2.2, 0, 0, 0⟩).b_y
  bz : ContDiff ℝ n fun v : ℝ × ℝ × ℝ × ℝ => (felt fields v.1 ⟨v.2.1, v.2.2.1, v.2.2.2, 0, 0, 0⟩).bz

/-! ### Auxiliary definitions -/

/-- The point in the middle of two points of phase space. -/
noncomputable def Ph.mean (p q : Ph) : Ph :=
  ⟨(p.x + q.x) / 2, (p.y + q.y) / 2, (p.xi + q.xi) / 2, (p.px + q.px) / 2, (p.py + q.py) / 2, (p.pz + q.pz) / 2⟩

/-! ### The Boris step and the midpoint rule -/

/-- The mean of two velocities and the velocity of the mean. -/
theorem quot_mean {c a b g g1 g2 D e : ℝ} (hc : 0 ≤ c) (hg1 : 1 ≤ g1) (hg2 : 1 ≤ g2) (hg : 1 ≤ g) (hm : |(a + b) / 2| ≤ g)
    (hab : |b - a| ≤ 2 * e) (h12 : |g2 - g1| ≤ 6 * e) (hsq : g1 ^ 2 + g2 ^ 2 = 2 * g ^ 2 + 2 * D) (hD0 : 0 ≤ D) (hD : D ≤ 3 * e ^ 2) :
    |(c * a / g1 + c * b / g2) / 2 - c * ((a + b) / 2) / g| ≤ 24 * c * e ^ 2 := by
  have p1 : 0 < g1 := by linarith
  have p2 : 0 < g2 := by linarith
  have p0 : 0 < g := by linarith
  have e0 : 0 ≤ e := by linarith [abs_nonneg (b - a)]
  have hN : |g * (g1 + g2) - 2 * g1 * g2| ≤ 42 * e ^ 2 := by
    have k1 : g * (g1 + g2) - 2 * g1 * g2 = 2 * D - (g1 + g2 - 2 * g) * (g1 + g2 + g) := by linear_combination hsq
    have k2 : (g1 + g2 - 2 * g) * (g1 + g2 + 2 * g) = 4 * D - (g2 - g1) ^ 2 := by linear_combination 2 * hsq
    have k3 : (g2 - g1) ^ 2 ≤ (6 * e) ^ 2 := sq_le_sq' (by linarith [neg_abs_le (g2 - g1)]) (by linarith [le_abs_self (g2 - g1)])
    have k4 : |(g1 + g2 - 2 * g) * (g1 + g2 + 2 * g)| ≤ 36 * e ^ 2 := by
      rw [k2, abs_le]
      constructor <;> nlinarith [sq_nonneg (g2 - g1), sq_nonneg e]
    have k5 : |(g1 + g2 - 2 * g) * (g1 + g2 + g)| ≤ 36 * e ^ 2 := by
      refine le_trans ?_ k4
      rw [abs_mul, abs_mul]
      refine mul_le_mul_of_nonneg_left ?_ (abs_nonneg _)
      rw [abs_of_pos (by linarith), abs_of_pos (by linarith)]
      linarith
    rw [k1]
    refine (abs_sub _ _).trans ?_
    rw [abs_of_nonneg (by linarith : 0 ≤ 2 * D)]
    linarith
  have key : (c * a / g1 + c * b / g2) / 2 - c * ((a + b) / 2) / g =
      c / 2 * ((a + b) / 2 / g * ((g * (g1 + g2) - 2 * g1 * g2) / (g1 * g2)) - (b - a) / 2 * ((g2 - g1) / (g1 * g2))) := by
    field_simp
    ring
  have hp : 1 ≤ g1 * g2 := by nlinarith
  have t1 : |(a + b) / 2 / g * ((g * (g1 + g2) - 2 * g1 * g2) / (g1 * g2))| ≤ 42 * e ^ 2 := by
    rw [abs_mul]
    have q1 : |(a + b) / 2 / g| ≤ 1 := by
      rw [abs_div, abs_of_pos p0]
      exact (div_le_one p0).2 hm
    have q2 : |(g * (g1 + g2) - 2 * g1 * g2) / (g1 * g2)| ≤ 42 * e ^ 2 := by
      rw [abs_div, abs_of_pos (by linarith : 0 < g1 * g2)]
      exact (div_le_self (abs_nonneg _) hp).trans hN
    calc _ ≤ 1 * (42 * e ^ 2) := mul_le_mul q1 q2 (abs_nonneg _) zero_le_one
      _ = _ := one_mul _
  have t2 : |(b - a) / 2 * ((g2 - g1) / (g1 * g2))| ≤ 6 * e ^ 2 := by
    rw [abs_mul]
    have q1 : |(b - a) / 2| ≤ e := by
      rw [abs_div, abs_two]
      linarith
    have q2 : |(g2 - g1) / (g1 * g2)| ≤ 6 * e := by
      rw [abs_div, abs_of_pos (by linarith : 0 < g1 * g2)]
      exact (div_le_self (abs_nonneg _) hp).trans h12
    calc _ ≤ e * (6 * e) := mul_le_mul q1 q2 (abs_nonneg _) e0
      _ = _ := by ring
  rw [key, abs_mul, abs_of_nonneg (by linarith : 0 ≤ c / 2)]
  have t3 := (abs_sub ((a + b) / 2 / g * ((g * (g1 + g2) - 2 * g1 * g2) / (g1 * g2))) ((b - a) / 2 * ((g2 - g1) / (g1 * g2)))).trans
    (add_le_add t1 t2)
  have t4 := mul_le_mul_of_nonneg_left t3 (by linarith : 0 ≤ c / 2)
  linarith

theorem velocity_mean {c e : ℝ} (hc : 0 ≤ c) {p q : Ph} (hx : |q.px - p.px| ≤ 2 * e) (hy : |q.py - p.py| ≤ 2 * e) (hz : |q.pz - p.pz| ≤ 2 * e) :
    |(c * p.px / p.gamma + c * q.px / q.gamma) / 2 - c * (p.mean q).px / (p.mean q).gamma| ≤ 24 * c * e ^ 2 ∧
    |(c * p.py / p.gamma + c * q.py / q.gamma) / 2 - c * (p.mean q).py / (p.mean q).gamma| ≤ 24 * c * e ^ 2 ∧
    |(c * p.pz / p.gamma + c * q.pz / q.gamma) / 2 - c * (p.mean q).pz / (p.mean q).gamma| ≤ 24 * c * e ^ 2 := by
  have g := gamma_sq (p.mean q)
  have g1 := gamma_sq p
  have g2 := gamma_sq q
  obtain ⟨a1, a2, a3⟩ := abs_le_gamma (p.mean q)
  have h12 : |q.gamma - p.gamma| ≤ 6 * e := (gamma_near hx hy hz).trans (le_of_eq (by ring))
  have hsq : p.gamma ^ 2 + q.gamma ^ 2 = 2 * (p.mean q).gamma ^ 2 +
      2 * (((q.px - p.px) / 2) ^ 2 + ((q.py - p.py) / 2) ^ 2 + ((q.pz - p.pz) / 2) ^ 2) := by
    simp only [Ph.mean] at g ⊢
    rw [g, g1, g2]
    ring
  have bound : ∀ a : ℝ, |a| ≤ 2 * e → (a / 2) ^ 2 ≤ e ^ 2 := fun a ha =>
    sq_le_sq' (by linarith [neg_abs_le a]) (by linarith [le_abs_self a])
  have hD : ((q.px - p.px) / 2) ^ 2 + ((q.py - p.py) / 2) ^ 2 + ((q.pz - p.pz) / 2) ^ 2 ≤ 3 * e ^ 2 := by
    linarith [bound _ hx, bound _ hy, bound _ hz]
  exact ⟨quot_mean hc (gamma_one_le p) (gamma_one_le q) (gamma_one_le _) a1 hx h12 hsq (by positivity) hD,
    quot_mean hc (gamma_one_le p) (gamma_one_le q) (gamma_one_le _) a2 hy h12 hsq (by positivity) hD,
    quot_mean hc (gamma_one_le p) (gamma_one_le q) (gamma_one_le _) a3 hz h12 hsq (by positivity) hD⟩

/-- The velocity of the centred equation of motion and the velocity of the mean momentum. -/
theorem centred_mean {c g g' s w : ℝ} (hc : 0 ≤ c) (hg : 1 ≤ g) (hg' : 1 ≤ g') (hs : |s| ≤ g') (hgg : |g' ^ 2 - g ^ 2| ≤ w) :
    |c * s / g - c * s / g'| ≤ c * w := by
  have p : 0 < g := by linarith
  have p' : 0 < g' := by linarith
  have h1 : |g' - g| ≤ w := by
    have h2 : |g' ^ 2 - g ^ 2| = |g' - g| * (g' + g) := by
      rw [show g' ^ 2 - g ^ 2 = (g' - g) * (g' + g) by ring, abs_mul, abs_of_pos (by linarith : 0 < g' + g)]
    rw [h2] at hgg
    nlinarith [abs_nonneg (g' - g)]
  have h3 : c * s / g - c * s / g' = c * (s / g' * ((g' - g) / g)) := by
    field_simp
  rw [h3, abs_mul, abs_of_nonneg hc]
  refine mul_le_mul_of_nonneg_left ?_ hc
  rw [abs_mul]
  have q1 : |s / g'| ≤ 1 := by
    rw [abs_div, abs_of_pos p']
    exact (div_le_one p').2 hs
  have q2 : |(g' - g) / g| ≤ w := by
    rw [abs_div, abs_of_pos p]
    exact (div_le_self (abs_nonneg _) hg).trans h1
  calc _ ≤ 1 * w := mul_le_mul q1 q2 (abs_nonneg _) zero_le_one
    _ = _ := one_mul _

section
variable {k : Const} {fields : List PField} {T M L : ℝ} {p0 : Ph}

/-- The constant of the error of the Boris step in the midpoint rule. -/
noncomputable def midConst (k : Const) (M L : ℝ) : ℝ :=
  6 * k.c * rateBound k M ^ 2 + |k.q / (k.m * k.c)| * (3 * L * (k.c * rateBound k M) +
    2 * (k.c * rateBound k M ^ 2 * M + k.c * (3 * L * (k.c * rateBound k M))))

theorem midConst_nonneg (hc : 0 < k.c) (hM : 0 ≤ M) (hL : 0 ≤ L) : 0 ≤ midConst k M L := by
  have := rateBound_nonneg (M := M) hc hM
  unfold midConst
  positivity

theorem InReach.mean {R : ℝ} {p q : Ph} (hp : InReach p0 R p) (hq : InReach p0 R q) : InReach p0 R (p.mean q) := by
  obtain ⟨h1, h2, h3⟩ := hp
  obtain ⟨g1, g2, g3⟩ := hq
  rw [abs_le] at h1 h2 h3 g1 g2 g3
  refine ⟨abs_le.2 ?_, abs_le.2 ?_, abs_le.2 ?_⟩ <;> constructor <;> simp only [Ph.mean] <;> linarith

set_option maxHeartbeats 1000000 in
/-- The Boris step solves the midpoint rule up to third order. -/
theorem boris_midpoint (hc : 0 < k.c) (hs : Smooth fields T p0 (k.c * T) M L) {t dt : ℝ} {p : Ph} (ht : 0 ≤ t) (hdt : 0 ≤ dt) (htT : t + dt ≤ T)
    (hp : Slow k.c t p0 p) : Near (midConst k M L * dt ^ 3) (borisStep k fields t dt p)
      (p.shift dt (motion k fields (t + dt / 2) (p.mean (borisStep k fields t dt p)))) := by
  have hM := hs.M0
  have hL := hs.L0
  have hA := rateBound_nonneg (M := M) hc hM
  have hdt2 : 0 ≤ dt / 2 := by linarith
  have r0 : InReach p0 (k.c * T) p := Slow.inReach hc (by linarith) hp
  have r2 : InReach p0 (k.c * T) (borisStep k fields t dt p) := Slow.inReach hc htT (hp.trans hc (borisStep_slow hc fields t hdt p))
  have hκ := abs_nonneg (k.q / (k.m * k.c))
  have hF : |k.q / (k.m * k.c)| * (M + 2 * k.c * M) ≤ rateBound k M := by unfold rateBound; linarith
  have sch : Sched.Valid (fun _ _ => List.range 1) 1 := fun _ _ => List.Perm.refl _
  obtain ⟨p', ⟨e1, e2, e3⟩, hcen, e4⟩ := boris_centred k fields sch t dt (fun _ => p) (fun _ => ⟨0, 0, 0, 0, 0, 0⟩) 0 Nat.one_pos
  rw [boris_apply k fields sch, if_pos Nat.one_pos] at e4
  rw [e4] at r2 ⊢
  have r1 : InReach p0 (k.c * T) (p.drift k (dt / 2)) := by
    refine Slow.inReach hc (show t + dt / 2 ≤ T by linarith) (hp.trans hc ?_)
    rw [slow_iff]
    convert within_velocity hc p hdt2 using 1 <;> simp only [Ph.drift] <;> ring
  have rm := r0.mean r2
  have hf := hs.bounded (t + dt / 2) _ (by linarith) (by linarith) r1
  have hl := hs.lipschitz (t + dt / 2) (t + dt / 2) _ _ (by linarith) (by linarith) (by linarith) (by linarith) r1 rm
  have mm : (p.mean (p'.drift k (dt / 2))).gamma = (p.mean p').gamma := rfl
  have x1 : (p.drift k (dt / 2)).x = p.x + dt / 2 * (k.c * p.px / p.gamma) := rfl
  have x2 : (p.drift k (dt / 2)).y = p.y + dt / 2 * (k.c * p.py / p.gamma) := rfl
  have x3 : (p.drift k (dt / 2)).xi = p.xi + dt / 2 * (k.c * p.pz / p.gamma - k.c) := rfl
  have y1 : (p'.drift k (dt / 2)).x = p'.x + dt / 2 * (k.c * p'.px / p'.gamma) := rfl
  have y2 : (p'.drift k (dt / 2)).y = p'.y + dt / 2 * (k.c * p'.py / p'.gamma) := rfl
  have y3 : (p'.drift k (dt / 2)).xi = p'.xi + dt / 2 * (k.c * p'.pz / p'.gamma - k.c) := rfl
  generalize felt fields (t + dt / 2) (p.drift k (dt / 2)) = f at *
  have m1 : (p.drift k (dt / 2)).px = p.px := rfl
  have m2 : (p.drift k (dt / 2)).py = p.py := rfl
  have m3 : (p.drift k (dt / 2)).pz = p.pz := rfl
  unfold Centred at hcen
  dsimp only at hcen
  rw [m1, m2, m3] at hcen
  have ha : k.q * dt / (k.m * k.c) = dt * (k.q / (k.m * k.c)) := by ring
  rw [ha] at hcen
  obtain ⟨f1, f2, f3, f4, f5, f6⟩ := hf
  simp only [sub_zero] at f1 f2 f3 f4 f5 f6
  generalize hmid : (⟨p.x, p.y, p.xi, p.px + dt * (k.q / (k.m * k.c)) / 2 * f.ex, p.py + dt * (k.q / (k.m * k.c)) / 2 * f.ey,
      p.pz + dt * (k.q / (k.m * k.c)) / 2 * f.ez⟩ : Ph) = mid at *
  have mx : mid.px = p.px + dt * (k.q / (k.m * k.c)) / 2 * f.ex := by rw [← hmid]
  have my : mid.py = p.py + dt * (k.q / (k.m * k.c)) / 2 * f.ey := by rw [← hmid]
  have mz : mid.pz = p.pz + dt * (k.q / (k.m * k.c)) / 2 * f.ez := by rw [← hmid]
  rw [← mx, ← my, ← mz] at hcen
  have hgm : √(1 + mid.px ^ 2 + mid.py ^ 2 + mid.pz ^ 2) = mid.gamma := rfl
  rw [hgm] at hcen
  generalize hux : k.c * (p.px + p'.px) / (2 * mid.gamma) = ux at hcen
  generalize huy : k.c * (p.py + p'.py) / (2 * mid.gamma) = uy at hcen
  generalize huz : k.c * (p.pz + p'.pz) / (2 * mid.gamma) = uz at hcen
  obtain ⟨c1, c2, c3⟩ := hcen
  have hu : ux ^ 2 + uy ^ 2 + uz ^ 2 ≤ k.c ^ 2 := by
    refine centred_velocity (gamma_pos mid) (mx := mid.px) (my := mid.py) (mz := mid.pz)
      (by have := gamma_sq mid; linarith) hux.symm huy.symm huz.symm (a := dt * (k.q / (k.m * k.c)))
      (bx := f.bx) (b_y := f.b_y) (bz := f.bz) ?_ ?_ ?_
    · rw [mx]; linear_combination c1
    · rw [my]; linear_combination c2
    · rw [mz]; linear_combination c3
  have hux' : |ux| ≤ k.c := abs_le_of_sq_le_sq (by linarith [sq_nonneg uy, sq_nonneg uz]) hc.le
  have huy' : |uy| ≤ k.c := abs_le_of_sq_le_sq (by linarith [sq_nonneg ux, sq_nonneg uz]) hc.le
  have huz' : |uz| ≤ k.c := abs_le_of_sq_le_sq (by linarith [sq_nonneg uy, sq_nonneg ux]) hc.le
  -- the change of the momenta
  have push : ∀ a b F : ℝ, b - a = dt * (k.q / (k.m * k.c)) * F → |k.q / (k.m * k.c) * F| ≤ rateBound k M →
      |b - a| ≤ rateBound k M * dt := by
    intro a b F h1 h2
    rw [h1, mul_assoc, abs_mul, abs_of_nonneg hdt, mul_comm]
    exact mul_le_mul_of_nonneg_right h2 hdt
  have d1 := push _ _ _ c1 ((force_bound f1 huy' huz' f6 f5).trans hF)
  have d2 := push _ _ _ c2 ((force_bound f2 huz' hux' f4 f6).trans hF)
  have d3 := push _ _ _ c3 ((force_bound f3 hux' huy' f5 f4).trans hF)
  -- the Lorentz factors
  have hg := (gamma_pos mid).ne'
  have hc0 := hc.ne'
  have turn : ∀ u v b d : ℝ, |u| ≤ k.c → |v| ≤ k.c → |b| ≤ M → |d| ≤ M →
      (dt * (k.q / (k.m * k.c)) / 2 * (u * b - v * d)) ^ 2 ≤ (rateBound k M * dt) ^ 2 / 4 := by
    intro u v b d h1 h2 h3 h4
    have h5 := (force_bound (κ := k.q / (k.m * k.c)) (e := 0) (by rw [abs_zero]; exact hM) h1 h2 h3 h4).trans hF
    rw [zero_add] at h5
    have h6 : (k.q / (k.m * k.c) * (u * b - v * d)) ^ 2 ≤ rateBound k M ^ 2 := by
      refine sq_le_sq' ?_ ?_
      · linarith [neg_abs_le (k.q / (k.m * k.c) * (u * b - v * d))]
      · linarith [le_abs_self (k.q / (k.m * k.c) * (u * b - v * d))]
    have h7 := mul_le_mul_of_nonneg_left h6 (by positivity : 0 ≤ dt ^ 2 / 4)
    linarith
  have t1 := turn uy uz f.bz f.b_y huy' huz' f6 f5
  have t2 := turn uz ux f.bx f.bz huz' hux' f4 f6
  have t3 := turn ux uy f.b_y f.bx hux' huy' f5 f4
  have n1 : (p.mean p').px = mid.px + dt * (k.q / (k.m * k.c)) / 2 * (uy * f.bz - uz * f.b_y) := by
    simp only [Ph.mean]
    rw [mx]
    linear_combination c1 / 2
  have n2 : (p.mean p').py = mid.py + dt * (k.q / (k.m * k.c)) / 2 * (uz * f.bx - ux * f.bz) := by
    simp only [Ph.mean]
    rw [my]
    linear_combination c2 / 2
  have n3 : (p.mean p').pz = mid.pz + dt * (k.q / (k.m * k.c)) / 2 * (ux * f.b_y - uy * f.bx) := by
    simp only [Ph.mean]
    rw [mz]
    linear_combination c3 / 2
  have w1 : ux = k.c * (p.mean p').px / mid.gamma := by
    rw [← hux]
    simp only [Ph.mean]
    field_simp
  have w2 : uy = k.c * (p.mean p').py / mid.gamma := by
    rw [← huy]
    simp only [Ph.mean]
    field_simp
  have w3 : uz = k.c * (p.mean p').pz / mid.gamma := by
    rw [← huz]
    simp only [Ph.mean]
    field_simp
  have i1 : k.c * (p.mean p').px = mid.gamma * ux := by rw [w1]; field_simp
  have i2 : k.c * (p.mean p').py = mid.gamma * uy := by rw [w2]; field_simp
  have i3 : k.c * (p.mean p').pz = mid.gamma * uz := by rw [w3]; field_simp
  have orth : (p.mean p').px * (uy * f.bz - uz * f.b_y) + (p.mean p').py * (uz * f.bx - ux * f.bz) +
      (p.mean p').pz * (ux * f.b_y - uy * f.bx) = 0 := by
    refine mul_left_cancel₀ hc0 ?_
    linear_combination (uy * f.bz - uz * f.b_y) * i1 + (uz * f.bx - ux * f.bz) * i2 + (ux * f.b_y - uy * f.bx) * i3
  have hgg : |(p.mean p').gamma ^ 2 - mid.gamma ^ 2| ≤ rateBound k M ^ 2 * dt ^ 2 := by
    have h1 := gamma_sq (p.mean p')
    have h2 := gamma_sq mid
    have h3 : (p.mean p').gamma ^ 2 - mid.gamma ^ 2 = -((dt * (k.q / (k.m * k.c)) / 2 * (uy * f.bz - uz * f.b_y)) ^ 2 +
        (dt * (k.q / (k.m * k.c)) / 2 * (uz * f.bx - ux * f.bz)) ^ 2 + (dt * (k.q / (k.m * k.c)) / 2 * (ux * f.b_y - uy * f.bx)) ^ 2) := by
      have j1 : mid.px = (p.mean p').px - dt * (k.q / (k.m * k.c)) / 2 * (uy * f.bz - uz * f.b_y) := by linear_combination -n1
      have j2 : mid.py = (p.mean p').py - dt * (k.q / (k.m * k.c)) / 2 * (uz * f.bx - ux * f.bz) := by linear_combination -n2
      have j3 : mid.pz = (p.mean p').pz - dt * (k.q / (k.m * k.c)) / 2 * (ux * f.b_y - uy * f.bx) := by linear_combination -n3
      rw [h1, h2, j1, j2, j3]
      linear_combination dt * (k.q / (k.m * k.c)) * orth
    rw [h3, abs_neg, abs_of_nonneg (by positivity)]
    have h4 : 0 ≤ rateBound k M ^ 2 * dt ^ 2 := by positivity
    linarith
  -- the velocities
  obtain ⟨b1, b2, b3⟩ := abs_le_gamma (p.mean p')
  have v1 : |ux - k.c * (p.mean p').px / (p.mean p').gamma| ≤ k.c * (rateBound k M ^ 2 * dt ^ 2) := by
    rw [w1]
    exact centred_mean hc.le (gamma_one_le mid) (gamma_one_le _) b1 hgg
  have v2 : |uy - k.c * (p.mean p').py / (p.mean p').gamma| ≤ k.c * (rateBound k M ^ 2 * dt ^ 2) := by
    rw [w2]
    exact centred_mean hc.le (gamma_one_le mid) (gamma_one_le _) b2 hgg
  have v3 : |uz - k.c * (p.mean p').pz / (p.mean p').gamma| ≤ k.c * (rateBound k M ^ 2 * dt ^ 2) := by
    rw [w3]
    exact centred_mean hc.le (gamma_one_le mid) (gamma_one_le _) b3 hgg
  obtain ⟨z1, z2, z3⟩ := abs_velocity hc.le (p.mean p')
  have hg' : |p'.gamma - p.gamma| ≤ 3 * (rateBound k M * dt) := gamma_near d1 d2 d3
  have u1 := quot_near hc.le (gamma_one_le p') (gamma_one_le p) (abs_le_gamma p).1 d1 hg'
  have u2 := quot_near hc.le (gamma_one_le p') (gamma_one_le p) (abs_le_gamma p).2.1 d2 hg'
  have u3 := quot_near hc.le (gamma_one_le p') (gamma_one_le p) (abs_le_gamma p).2.2 d3 hg'
  obtain ⟨s1, s2, s3⟩ := velocity_mean hc.le (e := rateBound k M * dt / 2) (p := p) (q := p') (by linarith) (by linarith) (by linarith)
  -- the fields
  have place : ∀ a b x v v' : ℝ, b = a + dt / 2 * v → x = b + dt / 2 * v' → |v' - v| ≤ 4 * k.c * (rateBound k M * dt) →
      |b - (a + x) / 2| ≤ k.c * rateBound k M * dt ^ 2 := by
    intro a b x v v' h1 h2 h3
    have h4 : b - (a + x) / 2 = -(dt / 4 * (v' - v)) := by rw [h2, h1]; ring
    rw [h4, abs_neg, abs_mul, abs_of_nonneg (by linarith : 0 ≤ dt / 4)]
    have h5 := mul_le_mul_of_nonneg_left h3 (by linarith : 0 ≤ dt / 4)
    linarith
  have l1 := place _ _ _ _ _ x1 (y1.trans (by rw [e1])) u1
  have l2 := place _ _ _ _ _ x2 (y2.trans (by rw [e2])) u2
  have l3 := place _ _ _ _ _ x3 (y3.trans (by rw [e3])) (by rw [sub_sub_sub_cancel_right]; exact u3)
  have hl := hl.mono (δ := 3 * L * (k.c * rateBound k M) * dt ^ 2) (by
    rw [sub_self, abs_zero, zero_add]
    calc _ ≤ L * (k.c * rateBound k M * dt ^ 2 + k.c * rateBound k M * dt ^ 2 + k.c * rateBound k M * dt ^ 2) :=
          mul_le_mul_of_nonneg_left (add_le_add (add_le_add l1 l2) l3) hL
      _ = _ := by ring)
  have hW : 6 * k.c * rateBound k M ^ 2 * dt ^ 3 ≤ midConst k M L * dt ^ 3 := by
    refine mul_le_mul_of_nonneg_right ?_ (by positivity)
    unfold midConst
    have : 0 ≤ |k.q / (k.m * k.c)| * (3 * L * (k.c * rateBound k M) +
      2 * (k.c * rateBound k M ^ 2 * M + k.c * (3 * L * (k.c * rateBound k M)))) := by positivity
    linarith
  have hG : dt * (|k.q / (k.m * k.c)| * (3 * L * (k.c * rateBound k M) * dt ^ 2 + 2 * (k.c * (rateBound k M ^ 2 * dt ^ 2) * M +
      k.c * (3 * L * (k.c * rateBound k M) * dt ^ 2)))) ≤ midConst k M L * dt ^ 3 := by
    unfold midConst
    have : 0 ≤ 6 * k.c * rateBound k M ^ 2 * dt ^ 3 := by positivity
    linarith
  have pos : ∀ a b x v v' w : ℝ, b = a + dt / 2 * v → x = b + dt / 2 * v' → |(v + v') / 2 - w| ≤ 24 * k.c * (rateBound k M * dt / 2) ^ 2 →
      |x - (a + dt * w)| ≤ midConst k M L * dt ^ 3 := by
    intro a b x v v' w h1 h2 h3
    have h4 : x - (a + dt * w) = dt * ((v + v') / 2 - w) := by rw [h2, h1]; ring
    rw [h4, abs_mul, abs_of_nonneg hdt]
    have h5 := mul_le_mul_of_nonneg_left h3 hdt
    linarith
  have mom : ∀ a b F F' B : ℝ, b - a = dt * (k.q / (k.m * k.c)) * F →
      |k.q / (k.m * k.c) * F - k.q / (k.m * k.c) * F'| ≤ B → dt * B ≤ midConst k M L * dt ^ 3 →
      |b - (a + dt * (k.q / (k.m * k.c) * F'))| ≤ midConst k M L * dt ^ 3 := by
    intro a b F F' B h1 h2 h3
    have h4 : b - (a + dt * (k.q / (k.m * k.c) * F')) = dt * (k.q / (k.m * k.c) * F - k.q / (k.m * k.c) * F') := by
      linear_combination h1
    rw [h4, abs_mul, abs_of_nonneg hdt]
    exact (mul_le_mul_of_nonneg_left h2 hdt).trans h3
  unfold motion Ph.shift
  dsimp only
  rw [mm]
  constructor <;> dsimp only
  · exact pos _ _ _ _ _ _ (e1.trans x1) y1 s1
  · exact pos _ _ _ _ _ _ (e2.trans x2) y2 s2
  · refine pos _ _ _ _ _ _ (e3.trans x3) y3 ?_
    refine le_trans (le_of_eq ?_) s3
    congr 1
    simp only [Ph.mean, Ph.drift]
    ring
  · exact mom _ _ _ _ _ c1 (force_near hl.ex v2 v3 hl.bz hl.b_y z2 z3 f6 f5) hG
  · exact mom _ _ _ _ _ c2 (force_near hl.ey v3 v1 hl.bx hl.bz z3 z1 f4 f6) hG
  · exact mom _ _ _ _ _ c3 (force_near hl.ez v1 v2 hl.b_y hl.bx z1 z2 f5 f4) hG

/-! ### Smooth fields -/

theorem ContDiffFields.le {n m : ℕ} (h : ContDiffFields n fields) (hm : m ≤ n) : ContDiffFields m fields := by
  have h0 : (m : WithTop ℕ∞) ≤ n := by exact_mod_cast hm
  exact ⟨h.ex.of_le h0, h.ey.of_le h0, h.ez.of_le h0, h.bx.of_le h0, h.b_y.of_le h0, h.bz.of_le h0⟩

/-- Bounds of a differentiable function in the reach of a particle. -/
theorem reach_bounds {φ : ℝ × ℝ × ℝ × ℝ → ℝ} (hφ : ContDiff ℝ 1 φ) (T R : ℝ) (p0 : Ph) :
    ∃ M L, 0 ≤ M ∧ 0 ≤ L ∧ (∀ t p, 0 ≤ t → t ≤ T → InReach p0 R p → |φ (t, p.x, p.y, p.xi)| ≤ M) ∧
      ∀ t s p q, 0 ≤ t → t ≤ T → 0 ≤ s → s ≤ T → InReach p0 R p → InReach p0 R q →
        |φ (t, p.x, p.y, p.xi) - φ (s, q.x, q.y, q.xi)| ≤ L * (|t - s| + |p.x - q.x| + |p.y - q.y| + |p.xi - q.xi|) := by
  obtain ⟨L, hL0, hL⟩ := Order.lip_on_ball hφ (|T| + |p0.x| + |p0.y| + |p0.xi| + 2 * |R|)
  have ball : ∀ t p, 0 ≤ t → t ≤ T → InReach p0 R p → ‖(t, p.x, p.y, p.xi)‖ ≤ |T| + |p0.x| + |p0.y| + |p0.xi| + 2 * |R| := by
    rintro t p h0 hT ⟨h1, h2, h3⟩
    have k0 := abs_nonneg T
    have k1 := abs_nonneg p0.x
    have k2 := abs_nonneg p0.y
    have k3 := abs_nonneg p0.xi
    have k4 := abs_nonneg R
    have k5 := le_abs_self R
    have j1 := abs_sub_abs_le_abs_sub p.x p0.x
    have j2 := abs_sub_abs_le_abs_sub p.y p0.y
    have j3 := abs_sub_abs_le_abs_sub p.xi p0.xi
    have j4 := le_abs_self T
    rw [Prod.norm_mk, Prod.norm_mk, Prod.norm_mk]
    simp only [Real.norm_eq_abs]
    rw [abs_of_nonneg h0]
    refine max_le ?_ (max_le ?_ (max_le ?_ ?_)) <;> linarith
  have hR0 : 0 ≤ |T| + |p0.x| + |p0.y| + |p0.xi| + 2 * |R| := by positivity
  refine ⟨|φ 0| + L * (|T| + |p0.x| + |p0.y| + |p0.xi| + 2 * |R|), L, by positivity, hL0, fun t p h0 hT hp => ?_, fun t s p q h0 hT h0' hT' hp hq => ?_⟩
  · have h1 := hL (t, p.x, p.y, p.xi) 0 (ball t p h0 hT hp) (by rw [norm_zero]; exact hR0)
    rw [sub_zero, Real.norm_eq_abs] at h1
    have h2 := abs_sub_abs_le_abs_sub (φ (t, p.x, p.y, p.xi)) (φ 0)
    have h3 := mul_le_mul_of_nonneg_left (ball t p h0 hT hp) hL0
    linarith
  · have h1 := hL _ _ (ball t p h0 hT hp) (ball s q h0' hT' hq)
    rw [Real.norm_eq_abs] at h1
    refine h1.trans (mul_le_mul_of_nonneg_left ?_ hL0)
    rw [Prod.mk_sub_mk, Prod.mk_sub_mk, Prod.mk_sub_mk, Prod.norm_mk, Prod.norm_mk, Prod.norm_mk]
    simp only [Real.norm_eq_abs]
    have k0 := abs_nonneg (t - s)
    have k1 := abs_nonneg (p.x - q.x)
    have k2 := abs_nonneg (p.y - q.y)
    have k3 := abs_nonneg (p.xi - q.xi)
    refine max_le ?_ (max_le ?_ (max_le ?_ ?_)) <;> linarith

theorem ContDiffFields.smooth (h : ContDiffFields 1 fields) (T R : ℝ) (p0 : Ph) : ∃ M L, Smooth fields T p0 R M L := by
  obtain ⟨M1, L1, m1, l1, b1, d1⟩ := reach_bounds (h.ex) T R p0
  obtain ⟨M2, L2, m2, l2, b2, d2⟩ := reach_bounds (h.ey) T R p0
  obtain ⟨M3, L3, m3, l3, b3, d3⟩ := reach_bounds (h.ez) T R p0
  obtain ⟨M4, L4, m4, l4, b4, d4⟩ := reach_bounds (h.bx) T R p0
  obtain ⟨M5, L5, m5, l5, b5, d5⟩ := reach_bounds (h.b_y) T R p0
  obtain ⟨M6, L6, m6, l6, b6, d6⟩ := reach_bounds (h.bz) T R p0
  refine ⟨M1 + M2 + M3 + M4 + M5 + M6, L1 + L2 + L3 + L4 + L5 + L6, by positivity, by positivity, fun t p h0 hT hp => ?_,
    fun t s p q h0 hT h0' hT' hp hq => ?_⟩
  · constructor <;> rw [sub_zero]
    · exact (b1 t p h0 hT hp).trans (by linarith)
    · exact (b2 t p h0 hT hp).trans (by linarith)
    · exact (b3 t p h0 hT hp).trans (by linarith)
    · exact (b4 t p h0 hT hp).trans (by linarith)
    · exact (b5 t p h0 hT hp).trans (by linarith)
    · exact (b6 t p h0 hT hp).trans (by linarith)
  · have hS : 0 ≤ |t - s| + |p.x - q.x| + |p.y - q.y| + |p.xi - q.xi| := by positivity
    constructor
    · exact (d1 t s p q h0 hT h0' hT' hp hq).trans (mul_le_mul_of_nonneg_right (by linarith) hS)
    · exact (d2 t s p q h0 hT h0' hT' hp hq).trans (mul_le_mul_of_nonneg_right (by linarith) hS)
    · exact (d3 t s p q h0 hT h0' hT' hp hq).trans (mul_le_mul_of_nonneg_right (by linarith) hS)
    · exact (d4 t s p q h0 hT h0' hT' hp hq).trans (mul_le_mul_of_nonneg_right (by linarith) hS)
    · exact (d5 t s p q h0 hT h0' hT' hp hq).trans (mul_le_mul_of_nonneg_right (by linarith) hS)
    · exact (d6 t s p q h0 hT h0' hT' hp hq).trans (mul_le_mul_of_nonneg_right (by linarith) hS)

/-! ### Phase space as a vector space -/

/-- The coordinates as a vector. -/
def toV (p : Ph) : Fin 6 → ℝ := ![p.x, p.y, p.xi, p.px, p.py, p.pz]

/-- A vector as a point of phase space. -/
def ofV (v : Fin 6 → ℝ) : Ph := ⟨v 0, v 1, v 2, v 3, v 4, v 5⟩

theorem ofV_toV (p : Ph) : ofV (toV p) = p := rfl

theorem toV_ofV (v : Fin 6 → ℝ) : toV (ofV v) = v := by
  funext i
  fin_cases i <;> rfl

theorem toV_shift (p : Ph) (h : ℝ) (d : Ph) : toV (p.shift h d) = toV p + h • toV d := by
  funext i
  fin_cases i <;> rfl

theorem toV_mean (p q : Ph) : toV (p.mean q) = (1 / 2 : ℝ) • (toV p + toV q) := by
  funext i
  fin_cases i <;> simp [toV, Ph.mean] <;> ring

theorem near_iff {ε : ℝ} {p q : Ph} : Near ε p q ↔ ‖toV p - toV q‖ ≤ ε := by
  constructor
  · intro h
    rw [pi_norm_le_iff_of_nonneg h.nonneg]
    intro i
    fin_cases i
    · exact h.x
    · exact h.y
    · exact h.xi
    · exact h.px
    · exact h.py
    · exact h.pz
  · intro h
    have h1 : ∀ i, ‖(toV p - toV q) i‖ ≤ ε := fun i => (norm_le_pi_norm _ i).trans h
    exact ⟨h1 0, h1 1, h1 2, h1 3, h1 4, h1 5⟩

/-- The equations of motion as a vector field. -/
noncomputable def vmotion (k : Const) (fields : List PField) (u : ℝ × (Fin 6 → ℝ)) : Fin 6 → ℝ := toV (motion k fields u.1 (ofV u.2))

theorem vrk4 (k : Const) (fields : List PField) (t dt : ℝ) (p : Ph) :
    toV (classicalRK4 (motion k fields) t dt p) = Order.rk4 (fun t v => vmotion k fields (t, v)) t dt (toV p) := by
  have e : ∀ t p, vmotion k fields (t, toV p) = toV (motion k fields t p) := fun _ _ => rfl
  simp only [Order.rk4, e, ← toV_shift]
  rfl

theorem vmotion_smooth {n : ℕ} (h : ContDiffFields n fields) : ContDiff ℝ n (vmotion k fields) := by
  have c : ∀ i : Fin 6, ContDiff ℝ n fun u : ℝ × (Fin 6 → ℝ) => u.2 i := fun i => (contDiff_apply ℝ ℝ i).comp contDiff_snd
  have hpos : ContDiff ℝ n fun u : ℝ × (Fin 6 → ℝ) => ((u.1, u.2 0, u.2 1, u.2 2) : ℝ × ℝ × ℝ × ℝ) :=
    contDiff_fst.prodMk ((c 0).prodMk ((c 1).prodMk (c 2)))
  have hg : ContDiff ℝ n fun u : ℝ × (Fin 6 → ℝ) => (ofV u.2).gamma := by
    refine ContDiff.sqrt (((contDiff_const.add ((c 3).pow 2)).add ((c 4).pow 2)).add ((c 5).pow 2)) fun u => ?_
    positivity
  have hne : ∀ u : ℝ × (Fin 6 → ℝ), (ofV u.2).gamma ≠ 0 := fun u => (gamma_pos _).ne'
  have v1 : ContDiff ℝ n fun u : ℝ × (Fin 6 → ℝ) => k.c * (ofV u.2).px / (ofV u.2).gamma := (contDiff_const.mul (c 3)).div hg hne
  have v2 : ContDiff ℝ n fun u : ℝ × (Fin 6 → ℝ) => k.c * (ofV u.2).py / (ofV u.2).gamma := (contDiff_const.mul (c 4)).div hg hne
  have v3 : ContDiff ℝ n fun u : ℝ × (Fin 6 → ℝ) => k.c * (ofV u.2).pz / (ofV u.2).gamma := (contDiff_const.mul (c 5)).div hg hne
  have f1 := h.ex.comp hpos
  have f2 := h.ey.comp hpos
  have f3 := h.ez.comp hpos
  have f4 := h.bx.comp hpos
  have f5 := h.b_y.comp hpos
  have f6 := h.bz.comp hpos
  refine contDiff_pi.2 fun i => ?_
  fin_cases i
  · exact v1
  · exact v2
  · exact v3.sub contDiff_const
  · exact contDiff_const.mul (f1.add ((v2.mul f6).sub (v3.mul f5)))
  · exact contDiff_const.mul (f2.add ((v3.mul f4).sub (v1.mul f6)))
  · exact contDiff_const.mul (f3.add ((v1.mul f5).sub (v2.mul f4)))

theorem Trajectory.vec {z : ℝ → Ph} (hz : Trajectory k fields T z) :
    ∀ t ∈ Set.Icc 0 T, HasDerivWithinAt (fun t => toV (z t)) (vmotion k fields (t, toV (z t))) (Set.Icc 0 T) t := by
  intro t ht
  rw [hasDerivWithinAt_pi]
  intro i
  fin_cases i
  · exact hz.x t ht
  · exact hz.y t ht
  · exact hz.xi t ht
  · exact hz.px t ht
  · exact hz.py t ht
  · exact hz.pz t ht

/-- The points that can be reached up to the time `t`. -/
def vreach (k : Const) (p0 : Ph) (t : ℝ) : Set (Fin 6 → ℝ) := {v | InReach p0 (k.c * t) (ofV v)}

theorem vreach_reach (hc : 0 < k.c) : Order.Reach (fun t v => vmotion k fields (t, v)) T (vreach k p0) where
  mono := by
    rintro s t hst v ⟨h1, h2, h3⟩
    have h4 : k.c * s ≤ k.c * t := mul_le_mul_of_nonneg_left hst hc.le
    exact ⟨h1.trans h4, h2.trans h4, h3.trans (by linarith)⟩
  move := by
    rintro t h s p q ht hh ⟨h1, h2, h3⟩
    obtain ⟨g1, g2, g3⟩ := abs_velocity hc.le (ofV q)
    have e : p + h • vmotion k fields (s, q) = toV ((ofV p).shift h (motion k fields s (ofV q))) := by
      rw [toV_shift, toV_ofV]
      rfl
    show InReach p0 _ (ofV _)
    rw [e, ofV_toV]
    have part : ∀ a b v B : ℝ, |a - b| ≤ B → |v| ≤ k.c → |a + h * v - b| ≤ B + h * k.c := by
      intro a b v B hab hv
      have h4 : a + h * v - b = (a - b) + h * v := by ring
      rw [h4]
      refine (abs_add_le _ _).trans (add_le_add hab ?_)
      rw [abs_mul, abs_of_nonneg hh]
      exact mul_le_mul_of_nonneg_left hv hh
    refine ⟨(part _ _ _ _ h1 g1).trans (le_of_eq (by ring)), (part _ _ _ _ h2 g2).trans (le_of_eq (by ring)), ?_⟩
    have h4 : ((ofV p).shift h (motion k fields s (ofV q))).xi - p0.xi =
        ((ofV p).xi + h * (k.c * (ofV q).pz / (ofV q).gamma) - p0.xi) - h * k.c := by
      simp only [Ph.shift, motion]
      ring
    rw [h4]
    refine (abs_sub _ _).trans ?_
    have h5 := part _ _ _ _ h3 g3
    rw [abs_of_nonneg (by positivity : 0 ≤ h * k.c)]
    linarith

theorem vreach_convex (t : ℝ) : Convex ℝ (vreach k p0 t) := by
  rintro p ⟨h1, h2, h3⟩ q ⟨g1, g2, g3⟩ a b ha hb hab
  rw [abs_le] at h1 h2 h3 g1 g2 g3
  have key : ∀ x y c B : ℝ, -B ≤ x - c ∧ x - c ≤ B → -B ≤ y - c ∧ y - c ≤ B → |a * x + b * y - c| ≤ B := by
    intro x y c B hx hy
    have h4 : a * x + b * y - c = a * (x - c) + b * (y - c) := by linear_combination c * hab
    have h5 : B = a * B + b * B := by rw [← add_mul, hab, one_mul]
    rw [h4, abs_le]
    constructor <;> nlinarith [mul_le_mul_of_nonneg_left hx.1 ha, mul_le_mul_of_nonneg_left hx.2 ha, mul_le_mul_of_nonneg_left hy.1 hb,
      mul_le_mul_of_nonneg_left hy.2 hb]
  exact ⟨key _ _ _ _ h1 g1, key _ _ _ _ h2 g2, key _ _ _ _ h3 g3⟩

theorem vmotion_lip (hc : 0 < k.c) (hs : Smooth fields T p0 (k.c * T) M L) : ∀ t ∈ Set.Icc 0 T, ∀ p ∈ vreach k p0 T, ∀ q ∈ vreach k p0 T,
    ‖vmotion k fields (t, p) - vmotion k fields (t, q)‖ ≤ rateLip k M L * ‖p - q‖ := by
  intro t ht p hp q hq
  have h1 : Near ‖p - q‖ (ofV p) (ofV q) := near_iff.2 (by rw [toV_ofV, toV_ofV])
  have h2 := motion_near hc hs (t := t) (s := t) (τ := 0) ht.1 ht.2 ht.1 ht.2 (by simp) hp hq h1
  rw [zero_add] at h2
  exact near_iff.1 h2

theorem Trajectory.vreach {z : ℝ → Ph} (hc : 0 < k.c) (hz : Trajectory k fields T z) : ∀ t ∈ Set.Icc 0 T, toV (z t) ∈ vreach k (z 0) t := by
  intro t ht
  have hz' : Trajectory k fields t z := by
    have hsub : Set.Icc 0 t ⊆ Set.Icc 0 T := Set.Icc_subset_Icc le_rfl ht.2
    exact ⟨fun s hs => (hz.x s (hsub hs)).mono hsub, fun s hs => (hz.y s (hsub hs)).mono hsub, fun s hs => (hz.xi s (hsub hs)).mono hsub,
      fun s hs => (hz.px s (hsub hs)).mono hsub, fun s hs => (hz.py s (hsub hs)).mono hsub, fun s hs => (hz.pz s (hsub hs)).mono hsub⟩
  exact hz'.inReach hc ht.1 le_rfl

/-! ### The order of the pushers -/

/-- The error of a step of a method of order `m`, from any point that was reached so far. -/
def OrderStep (k : Const) (T : ℝ) (z : ℝ → Ph) (m : ℕ) (step : ℝ → ℝ → Ph → Ph) : Prop :=
  ∃ C Γ, 0 ≤ C ∧ 0 ≤ Γ ∧ ∀ D t dt p, 0 ≤ t → 0 ≤ dt → dt ≤ D → t + dt ≤ T → Slow k.c t (z 0) p → Near (Order.err C Γ D m t) p (z t) →
    Near (Order.err C Γ D m (t + dt)) (step t dt p) (z (t + dt))

theorem boris_order (hc : 0 < k.c) (hT : 0 < T) {z : ℝ → Ph} (hz : Trajectory k fields T z) (hf : ContDiffFields 2 fields) :
    OrderStep k T z 2 (borisStep k fields) := by
  obtain ⟨M, L, hs⟩ := (hf.le one_le_two).smooth T (k.c * T) (z 0)
  have hΛ := rateLip_nonneg (M := M) (L := L) hc hs.M0 hs.L0
  have hA := rateBound_nonneg (M := M) hc hs.M0
  obtain ⟨g, hg0, hg, hg1⟩ := Order.curve_of_flow (vmotion_smooth (k := k) hf) hT hz.vec
  have hin : ∀ t ∈ Set.Icc 0 T, g 0 t ∈ Push.vreach k (z 0) T := by
    intro t ht
    rw [hg0]
    exact (vreach_reach (fields := fields) (T := T) hc).mono t T ht.2 (hz.vreach hc t ht)
  obtain ⟨B, hB0, hB⟩ := Order.midpoint_local (f := fun t v => vmotion k fields (t, v)) hΛ hg (fun t ht => by rw [hg1 t ht, hg0]) hin
    (vreach_convex T) (vmotion_lip hc hs)
  rw [hg0] at hB
  have hC : 0 ≤ rateLip k M L * (1 + rateBound k M) * T + rateBound k M := by positivity
  refine ⟨2 * (midConst k M L + B) + 2 * (rateLip k M L * (1 + rateBound k M) * T + rateBound k M) * rateLip k M L ^ 2, 2 * rateLip k M L,
    ?_, by positivity, fun D t dt p ht hdt hD htT hp hn => ?_⟩
  · have := midConst_nonneg (M := M) (L := L) hc hs.M0 hs.L0
    positivity
  have r0 : InReach (z 0) (k.c * T) p := Slow.inReach hc (by linarith) hp
  have r2 : InReach (z 0) (k.c * T) (borisStep k fields t dt p) := Slow.inReach hc htT (hp.trans hc (borisStep_slow hc fields t hdt p))
  have hm := boris_midpoint hc hs ht hdt htT hp
  have hcon := boris_consistent hc hs t dt p ht hdt htT hp
  have hmove : Near ((rateLip k M L * (1 + rateBound k M) * T + rateBound k M) * dt) (borisStep k fields t dt p) p := by
    refine (hcon.trans (Near.moved hdt (motion_bound hc hs ht (by linarith) r0))).mono ?_
    have h1 : rateLip k M L * (1 + rateBound k M) * dt ^ 2 ≤ rateLip k M L * (1 + rateBound k M) * (T * dt) := by
      refine mul_le_mul_of_nonneg_left ?_ (by positivity)
      rw [pow_two]
      exact mul_le_mul_of_nonneg_right (by linarith) hdt
    linarith
  have hmove' : Near ((rateLip k M L * (1 + rateBound k M) * T + rateBound k M) * dt) (z (t + dt)) (z t) := by
    refine (hz.near hc hs ht (by linarith : t ≤ t + dt) htT).mono ?_
    have h1 : 0 ≤ rateLip k M L * (1 + rateBound k M) * T * dt := by positivity
    linarith
  have hmid : t + dt / 2 ∈ Set.Icc 0 T := ⟨by linarith, by linarith⟩
  have key := Order.midpoint_step (f := fun t v => vmotion k fields (t, v)) (s := t + dt / 2) (h := dt) (p := toV p) (q := toV (z t))
    (p' := toV (borisStep k fields t dt p)) (q' := toV (z (t + dt))) hΛ hdt (midConst_nonneg (M := M) (L := L) hc hs.M0 hs.L0) hB0 ?_ ?_
    (hB t dt ht hdt htT) (near_iff.1 hmove) (near_iff.1 hmove') (near_iff.1 hn)
  · exact near_iff.2 (key.trans (Order.err_step (m := 2) (by
      have := midConst_nonneg (M := M) (L := L) hc hs.M0 hs.L0
      positivity) (by positivity) ht hdt hD))
  · refine vmotion_lip hc hs _ hmid _ ?_ _ ?_
    · rw [← toV_mean]
      exact r0.mean r2
    · rw [← toV_mean]
      exact (hz.inReach hc ht (by linarith)).mean (hz.inReach hc (by linarith) htT)
  · have h1 := near_iff.1 hm
    rw [toV_shift, ← sub_sub] at h1
    rw [← toV_mean]
    exact h1

theorem rk4_order (hc : 0 < k.c) (hT : 0 < T) {z : ℝ → Ph} (hz : Trajectory k fields T z) (hf : ContDiffFields 4 fields) :
    OrderStep k T z 4 (classicalRK4 (motion k fields)) := by
  obtain ⟨M, L, hs⟩ := (hf.le (by norm_num : 1 ≤ 4)).smooth T (k.c * T) (z 0)
  have hΛ := rateLip_nonneg (M := M) (L := L) hc hs.M0 hs.L0
  obtain ⟨g, hg0, hg, hg1⟩ := Order.curve_of_flow (vmotion_smooth (k := k) hf) hT hz.vec
  have hΩ := vreach_reach (k := k) (fields := fields) (T := T) (p0 := z 0) hc
  have hin : ∀ t ∈ Set.Icc 0 T, g 0 t ∈ Push.vreach k (z 0) t := by
    intro t ht
    rw [hg0]
    exact hz.vreach hc t ht
  obtain ⟨J, Q, hJ, hQ⟩ := Order.linearise (vmotion_smooth (k := k) (hf.le (by norm_num : 2 ≤ 4))) (hg.le (by norm_num : 0 ≤ 4)) hΛ
    (fun t ht => hΩ.mono t T ht.2 (hin t ht)) (vmotion_lip hc hs)
  obtain ⟨C, hC0, hC⟩ := Order.rk4_local hΩ hg (fun t ht => by rw [hg1 t ht, hg0]) hin hJ (Q := Q) (fun t ht p hp => by
    have := hQ t ht p hp
    rw [hg1 t ht]
    rw [hg0] at this ⊢
    exact this)
  rw [hg0] at hC
  refine ⟨C, rateLip k M L * (1 + rateLip k M L * T) ^ 3, hC0, by positivity, fun D t dt p ht hdt hD htT hp hn => ?_⟩
  have hp' : toV p ∈ Push.vreach k (z 0) t := Slow.inReach hc le_rfl hp
  have h1 := Order.rk4_stable hΩ hΛ (vmotion_lip hc hs) ht hdt htT hp' (hz.vreach hc t ⟨ht, by linarith⟩)
  have h2 := hC t dt ht hdt htT
  rw [near_iff, vrk4]
  refine le_trans ?_ (Order.err_step (m := 4) hC0 (by positivity) ht hdt hD)
  have h3 := near_iff.1 hn
  have h4 := norm_sub_le_norm_sub_add_norm_sub (Order.rk4 (fun t v => vmotion k fields (t, v)) t dt (toV p))
    (Order.rk4 (fun t v => vmotion k fields (t, v)) t dt (toV (z t))) (toV (z (t + dt)))
  refine h4.trans (add_le_add (h1.trans (mul_le_mul_of_nonneg_left h3 (by positivity))) h2)

end

end WakeT.Push
