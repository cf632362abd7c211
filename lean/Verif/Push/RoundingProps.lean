import Verif.Push.Rounding
import Verif.Push.Lemmas
import Verif.Base.Rounding
import Mathlib.Analysis.SpecialFunctions.Exponential

/-! # Rounding and the energy of particles in magnetic fields -/

set_option linter.unusedSectionVars false

namespace WakeT.Push.Rounded

open WakeT.Base (Rounds)
open Fields (EB)

variable {rnd : ℝ → ℝ} {ε : ℝ}

/-- Relative closeness: a bound `M` of the value and an error of `k` units of rounding of the bound. -/
def Near (ε k M x' x : ℝ) : Prop := |x| ≤ M ∧ |x' - x| ≤ k * (ε * M)

theorem Near.rnd' (hr : Rounds ε rnd) (h0 : 0 ≤ ε) (h1 : ε ≤ 1 / 1000) {k M x' x : ℝ} (hk : 0 ≤ k) (h : Near ε k M x' x) :
    Near ε (1001 / 1000 * k + 1) M (rnd x') x := by
  obtain ⟨a, b⟩ := h
  have M0 : 0 ≤ M := (abs_nonneg _).trans a
  refine ⟨a, (hr.near h0 b a).trans ?_⟩
  have : ε * (k * (ε * M)) ≤ 1 / 1000 * (k * (ε * M)) := mul_le_mul_of_nonneg_right h1 (by positivity)
  nlinarith

theorem Near.mul (h0 : 0 ≤ ε) (h1 : ε ≤ 1 / 1000) {k k' M M' x' x y' y : ℝ} (hk : 0 ≤ k) (hk' : 0 ≤ k') (h : Near ε k M x' x)
    (h' : Near ε k' M' y' y) : Near ε (k + k' + k * k' / 1000) (M * M') (x' * y') (x * y) := by
  obtain ⟨a, b⟩ := h
  obtain ⟨c, d⟩ := h'
  have M0 : 0 ≤ M := (abs_nonneg _).trans a
  have M0' : 0 ≤ M' := (abs_nonneg _).trans c
  refine ⟨by rw [abs_mul]; exact mul_le_mul a c (abs_nonneg _) M0, (Base.mul_near b d a c).trans ?_⟩
  have : ε * (k * k' * (ε * (M * M'))) ≤ 1 / 1000 * (k * k' * (ε * (M * M'))) := mul_le_mul_of_nonneg_right h1 (by positivity)
  nlinarith

theorem Near.mono {k k' M x' x : ℝ} (h0 : 0 ≤ ε) (h : Near ε k M x' x) (hk : k ≤ k') : Near ε k' M x' x :=
  ⟨h.1, h.2.trans (mul_le_mul_of_nonneg_right hk (mul_nonneg h0 ((abs_nonneg _).trans h.1)))⟩

theorem cross_near (hr : Rounds ε rnd) (h0 : 0 ≤ ε) (h1 : ε ≤ 1 / 1000) {κ A P a u v : ℝ} {b' c' d' e' : ℝ} (hκ : 0 ≤ κ) (ha : |a| ≤ A)
    (hu : Near ε κ P (b' * c') u) (hv : Near ε κ P (d' * e') v) :
    |cross rnd a b' c' d' e' - (a + u - v)| ≤ (21 / 10 * A + (21 / 10 * κ + 6) * P) * ε := by
  have A0 : 0 ≤ A := (abs_nonneg _).trans ha
  have P0 : 0 ≤ P := (abs_nonneg _).trans hu.1
  obtain ⟨u1, u2⟩ := hu.rnd' hr h0 h1 hκ
  obtain ⟨v1, v2⟩ := hv.rnd' hr h0 h1 hκ
  have s1 : |a + rnd (b' * c') - (a + u)| ≤ (1001 / 1000 * κ + 1) * (ε * P) := by rw [add_sub_add_left_eq_sub]; exact u2
  have s2 := hr.near h0 s1 (M := A + P) ((abs_add_le _ _).trans (by linarith))
  have s3 : |rnd (a + rnd (b' * c')) - rnd (d' * e') - (a + u - v)| ≤
      (1001 / 1000 * κ + 1) * (ε * P) + ε * (A + P + (1001 / 1000 * κ + 1) * (ε * P)) + (1001 / 1000 * κ + 1) * (ε * P) := by
    have e : rnd (a + rnd (b' * c')) - rnd (d' * e') - (a + u - v) = (rnd (a + rnd (b' * c')) - (a + u)) - (rnd (d' * e') - v) := by ring
    rw [e]
    exact (abs_sub _ _).trans (add_le_add s2 v2)
  have s4 := hr.near h0 s3 (M := A + P + P) ((abs_sub _ _).trans (add_le_add ((abs_add_le _ _).trans (add_le_add ha u1)) v1))
  unfold cross
  refine s4.trans ?_
  have q1 : ε * (ε * P) ≤ 1 / 1000 * (ε * P) := mul_le_mul_of_nonneg_right h1 (mul_nonneg h0 P0)
  have q2 : ε * (ε * A) ≤ 1 / 1000 * (ε * A) := mul_le_mul_of_nonneg_right h1 (mul_nonneg h0 A0)
  have q3 : ε * (ε * (ε * P)) ≤ 1 / 1000 * (ε * (ε * P)) := mul_le_mul_of_nonneg_right h1 (by positivity)
  have q4 : ε * (ε * (ε * P)) * κ ≤ 1 / 1000 * (ε * (ε * P)) * κ := mul_le_mul_of_nonneg_right q3 hκ
  have q5 : ε * (ε * P) * κ ≤ 1 / 1000 * (ε * P) * κ := mul_le_mul_of_nonneg_right q1 hκ
  have q6 : 0 ≤ ε * P * κ := by positivity
  nlinarith [mul_nonneg h0 P0, mul_nonneg h0 A0]

/-- The factor `2 / (1 + t²)`. -/
theorem cs_near (hr : Rounds ε rnd) (h0 : 0 ≤ ε) (h1 : ε ≤ 1 / 1000) (tx ty tz : ℝ) :
    Near ε 6 (2 / (1 + tx ^ 2 + ty ^ 2 + tz ^ 2)) (rnd (2 / rnd (rnd (rnd (1 + rnd (tx ^ 2)) + rnd (ty ^ 2)) + rnd (tz ^ 2))))
      (2 / (1 + tx ^ 2 + ty ^ 2 + tz ^ 2)) := by
  set D := 1 + tx ^ 2 + ty ^ 2 + tz ^ 2 with hD
  have D1 : 1 ≤ D := by nlinarith [sq_nonneg tx, sq_nonneg ty, sq_nonneg tz]
  have sq : ∀ t : ℝ, |rnd (t ^ 2) - t ^ 2| ≤ ε * t ^ 2 := fun t => by
    have := hr (t ^ 2)
    rwa [abs_of_nonneg (sq_nonneg t)] at this
  have add : ∀ {k x' x y' y : ℝ}, 0 ≤ k → 0 ≤ x → 0 ≤ y → |x' - x| ≤ k * ε * x → |y' - y| ≤ ε * y → 1 ≤ k → k ≤ 10 →
      |rnd (x' + y') - (x + y)| ≤ (k + 11 / 10) * ε * (x + y) := by
    intro k x' x y' y hk hx hy h h' k1 k2
    have e : |x' + y' - (x + y)| ≤ k * ε * (x + y) := by
      have e : x' + y' - (x + y) = (x' - x) + (y' - y) := by ring
      rw [e]
      refine (abs_add_le _ _).trans ((add_le_add h h').trans ?_)
      nlinarith [mul_nonneg h0 hy]
    refine (hr.near h0 e (abs_of_nonneg (add_nonneg hx hy)).le).trans ?_
    have s0 : 0 ≤ ε * (x + y) := mul_nonneg h0 (add_nonneg hx hy)
    have : ε * (k * (ε * (x + y))) ≤ 1 / 1000 * (k * (ε * (x + y))) := mul_le_mul_of_nonneg_right h1 (mul_nonneg hk s0)
    nlinarith
  have a1 := add (k := 1) (x' := 1) (x := 1) (by norm_num) (by norm_num) (sq_nonneg tx) (by simp [h0]) (sq tx) le_rfl (by norm_num)
  have a2 := add (by norm_num) (by positivity) (sq_nonneg ty) a1 (sq ty) (by norm_num) (by norm_num)
  have a3 := add (by norm_num) (by positivity) (sq_nonneg tz) a2 (sq tz) (by norm_num) (by norm_num)
  rw [← hD] at a3
  generalize rnd (rnd (rnd (1 + rnd (tx ^ 2)) + rnd (ty ^ 2)) + rnd (tz ^ 2)) = E at *
  have E1 : 99 / 100 * D ≤ E := by
    have := (abs_le.mp a3).1
    nlinarith [mul_le_mul_of_nonneg_right h1 (by linarith : 0 ≤ D)]
  have E0 : 0 < E := by linarith
  have D0 : 0 < D := by linarith
  have q0 : 0 < 2 / D := by positivity
  have n : |2 / E - 2 / D| ≤ 9 / 2 * ε * (2 / D) := by
    have e : 2 / E - 2 / D = -(E - D) / E * (2 / D) := by field_simp; ring
    rw [e, abs_mul, abs_of_pos q0, abs_div, abs_neg, abs_of_pos E0]
    refine mul_le_mul_of_nonneg_right ?_ q0.le
    rw [div_le_iff₀ E0]
    refine a3.trans ?_
    nlinarith [mul_le_mul_of_nonneg_left E1 h0, mul_nonneg h0 D0.le]
  refine ⟨(abs_of_pos q0).le, (hr.near h0 n (abs_of_pos q0).le).trans ?_⟩
  have : ε * (ε * (2 / D)) ≤ 1 / 1000 * (ε * (2 / D)) := mul_le_mul_of_nonneg_right h1 (mul_nonneg h0 q0.le)
  nlinarith [mul_nonneg h0 q0.le]

theorem Near.mono' {k M M' x' x : ℝ} (h0 : 0 ≤ ε) (hk : 0 ≤ k) (h : Near ε k M x' x) (hM : M ≤ M') : Near ε k M' x' x :=
  ⟨h.1.trans hM, h.2.trans (mul_le_mul_of_nonneg_left (mul_le_mul_of_nonneg_left hM h0) hk)⟩

theorem near_refl {M x : ℝ} (h : |x| ≤ M) : Near ε 0 M x x := ⟨h, by simp⟩

/-- The rotation: every component is computed to 151 units of rounding of the momentum, whatever the magnetic field. -/
private theorem rotation (hr : Rounds ε rnd) (h0 : 0 ≤ ε) (h1 : ε ≤ 1 / 1000) {N T px py pz tx ty tz : ℝ} (hx : |px| ≤ N) (hy : |py| ≤ N)
    (hz : |pz| ≤ N) (hT : T ^ 2 = tx ^ 2 + ty ^ 2 + tz ^ 2) (T0 : 0 ≤ T) {sx sy sz : ℝ}
    (hsx : Near ε 8 (2 / (1 + tx ^ 2 + ty ^ 2 + tz ^ 2) * T) sx (2 / (1 + tx ^ 2 + ty ^ 2 + tz ^ 2) * tx))
    (hsy : Near ε 8 (2 / (1 + tx ^ 2 + ty ^ 2 + tz ^ 2) * T) sy (2 / (1 + tx ^ 2 + ty ^ 2 + tz ^ 2) * ty))
    (hsz : Near ε 8 (2 / (1 + tx ^ 2 + ty ^ 2 + tz ^ 2) * T) sz (2 / (1 + tx ^ 2 + ty ^ 2 + tz ^ 2) * tz))
    (R : ℝ) (hR : R = px + (py + pz * tx - px * tz) * (2 / (1 + tx ^ 2 + ty ^ 2 + tz ^ 2) * tz) -
      (pz + px * ty - py * tx) * (2 / (1 + tx ^ 2 + ty ^ 2 + tz ^ 2) * ty)) (hRN : |R| ≤ N) :
    |rnd (cross rnd px (cross rnd py pz tx px tz) sz (cross rnd pz px ty py tx) sy + 0) - R| ≤ 151 * (ε * N) := by
  have N0 : 0 ≤ N := (abs_nonneg _).trans hx
  have NT : 0 ≤ N * T := mul_nonneg N0 T0
  have htx : |tx| ≤ T := abs_le_of_sq_le_sq (by nlinarith [sq_nonneg ty, sq_nonneg tz]) T0
  have hty : |ty| ≤ T := abs_le_of_sq_le_sq (by nlinarith [sq_nonneg tx, sq_nonneg tz]) T0
  have htz : |tz| ≤ T := abs_le_of_sq_le_sq (by nlinarith [sq_nonneg tx, sq_nonneg ty]) T0
  have eD : 1 + tx ^ 2 + ty ^ 2 + tz ^ 2 = 1 + T ^ 2 := by rw [hT]; ring
  have first : ∀ {a b c d e : ℝ}, |a| ≤ N → |b| ≤ N → |c| ≤ T → |d| ≤ N → |e| ≤ T →
      Near ε 3 (N + 2 * (N * T)) (cross rnd a b c d e) (a + b * c - d * e) := by
    intro a b c d e ha hb hc hd he
    have m1 := (Near.mul h0 h1 le_rfl le_rfl (near_refl (ε := ε) hb) (near_refl hc))
    have m2 := (Near.mul h0 h1 le_rfl le_rfl (near_refl (ε := ε) hd) (near_refl he))
    have := cross_near hr h0 h1 (by norm_num) ha m1 m2
    refine ⟨(abs_sub _ _).trans ?_, this.trans ?_⟩
    · have := abs_add_le a (b * c)
      have := m1.1
      have := m2.1
      linarith
    · nlinarith [mul_nonneg h0 N0, mul_nonneg h0 NT]
  have y := first hy hz htx hx htz
  have z := first hz hx hty hy htx
  have bound : (N + 2 * (N * T)) * (2 / (1 + tx ^ 2 + ty ^ 2 + tz ^ 2) * T) ≤ 5 * N := by
    rw [eD]
    have d0 : 0 < 1 + T ^ 2 := by positivity
    have e : (N + 2 * (N * T)) * (2 / (1 + T ^ 2) * T) = (2 * N * T + 4 * (N * T ^ 2)) / (1 + T ^ 2) := by field_simp; ring
    rw [e, div_le_iff₀ d0]
    nlinarith [mul_nonneg N0 (sq_nonneg (T - 1)), mul_nonneg N0 (sq_nonneg T)]
  have m1 := ((Near.mul h0 h1 (by norm_num) (by norm_num) y hsz).mono' h0 (by norm_num) bound).mono h0 (show _ ≤ 111 / 10 by norm_num)
  have m2 := ((Near.mul h0 h1 (by norm_num) (by norm_num) z hsy).mono' h0 (by norm_num) bound).mono h0 (show _ ≤ 111 / 10 by norm_num)
  have c := cross_near hr h0 h1 (by norm_num) hx m1 m2
  rw [← hR] at c
  have n : Near ε 149 N (cross rnd px (cross rnd py pz tx px tz) sz (cross rnd pz px ty py tx) sy + 0) R := by
    refine ⟨hRN, ?_⟩
    rw [add_zero]
    refine c.trans ?_
    nlinarith [mul_nonneg h0 N0]
  exact ((n.rnd' hr h0 h1 (by norm_num)).mono h0 (by norm_num)).2

/-- From the components to the square. -/
private theorem sum_squares (h0 : 0 ≤ ε) (h1 : ε ≤ 1 / 1000) {X Y Z Rx Ry Rz N : ℝ} (N0 : 0 ≤ N) (norm : Rx ^ 2 + Ry ^ 2 + Rz ^ 2 = N ^ 2)
    (qx : |X - Rx| ≤ 151 * (ε * N)) (qy : |Y - Ry| ≤ 151 * (ε * N)) (qz : |Z - Rz| ≤ 151 * (ε * N)) :
    |X ^ 2 + Y ^ 2 + Z ^ 2 - N ^ 2| ≤ 673 * ε * N ^ 2 := by
  have E0 : 0 ≤ ε * N := mul_nonneg h0 N0
  have sq : ∀ {q R : ℝ}, |q - R| ≤ 151 * (ε * N) → |q ^ 2 - R ^ 2| ≤ 151 * (ε * N) * (2 * |R| + 151 / 1000 * N) := by
    intro q R h
    have e : q ^ 2 - R ^ 2 = (q - R) * (2 * R + (q - R)) := by ring
    rw [e, abs_mul]
    refine mul_le_mul h ((abs_add_le _ _).trans (add_le_add ?_ (h.trans ?_))) (abs_nonneg _) (by positivity)
    · rw [abs_mul, abs_of_pos (by norm_num : (0 : ℝ) < 2)]
    · have := mul_le_mul_of_nonneg_right h1 N0
      linarith
  have sR : |Rx| + |Ry| + |Rz| ≤ 2 * N := by
    refine abs_le_of_sq_le_sq' ?_ (by linarith) |>.2
    nlinarith [sq_abs Rx, sq_abs Ry, sq_abs Rz, sq_nonneg (|Rx| - |Ry|), sq_nonneg (|Rx| - |Rz|), sq_nonneg (|Ry| - |Rz|), sq_nonneg N]
  have tot : |X ^ 2 + Y ^ 2 + Z ^ 2 - N ^ 2| ≤ 673 * ε * N ^ 2 := by
    have e : X ^ 2 + Y ^ 2 + Z ^ 2 - N ^ 2 = (X ^ 2 - Rx ^ 2) + (Y ^ 2 - Ry ^ 2) + (Z ^ 2 - Rz ^ 2) := by rw [← norm]; ring
    rw [e]
    refine (abs_add_three _ _ _).trans ((add_le_add (add_le_add (sq qx) (sq qy)) (sq qz)).trans ?_)
    calc _ = 151 * (ε * N) * (2 * (|Rx| + |Ry| + |Rz|) + 453 / 1000 * N) := by ring
      _ ≤ 151 * (ε * N) * (2 * (2 * N) + 453 / 1000 * N) := mul_le_mul_of_nonneg_left (by linarith) (by positivity)
      _ = 672403 / 1000 * (ε * N ^ 2) := by ring
      _ ≤ _ := by nlinarith [mul_nonneg h0 (sq_nonneg N)]
  exact tot

set_option maxHeartbeats 1000000 in
private theorem rot_energy (hr : Rounds ε rnd) (h0 : 0 ≤ ε) (h1 : ε ≤ 1 / 1000) (mx my mz tx ty tz cs' : ℝ)
    (cs : Near ε 6 (2 / (1 + tx ^ 2 + ty ^ 2 + tz ^ 2)) cs' (2 / (1 + tx ^ 2 + ty ^ 2 + tz ^ 2))) :
    |rnd (cross rnd mx (cross rnd my mz tx mx tz) (rnd (cs' * tz)) (cross rnd mz mx ty my tx) (rnd (cs' * ty)) + 0) ^ 2 +
      rnd (cross rnd my (cross rnd mz mx ty my tx) (rnd (cs' * tx)) (cross rnd mx my tz mz ty) (rnd (cs' * tz)) + 0) ^ 2 +
      rnd (cross rnd mz (cross rnd mx my tz mz ty) (rnd (cs' * ty)) (cross rnd my mz tx mx tz) (rnd (cs' * tx)) + 0) ^ 2 -
      (mx ^ 2 + my ^ 2 + mz ^ 2)| ≤ 673 * ε * (mx ^ 2 + my ^ 2 + mz ^ 2) := by
  set T := √(tx ^ 2 + ty ^ 2 + tz ^ 2) with hTd
  have hT : T ^ 2 = tx ^ 2 + ty ^ 2 + tz ^ 2 := Real.sq_sqrt (by positivity)
  have T0 : 0 ≤ T := Real.sqrt_nonneg _
  set N := √(mx ^ 2 + my ^ 2 + mz ^ 2) with hNd
  have hN : N ^ 2 = mx ^ 2 + my ^ 2 + mz ^ 2 := Real.sq_sqrt (by positivity)
  have N0 : 0 ≤ N := Real.sqrt_nonneg _
  have htx : |tx| ≤ T := abs_le_of_sq_le_sq (by nlinarith [sq_nonneg ty, sq_nonneg tz]) T0
  have hty : |ty| ≤ T := abs_le_of_sq_le_sq (by nlinarith [sq_nonneg tx, sq_nonneg tz]) T0
  have htz : |tz| ≤ T := abs_le_of_sq_le_sq (by nlinarith [sq_nonneg tx, sq_nonneg ty]) T0
  have hmx : |mx| ≤ N := abs_le_of_sq_le_sq (by nlinarith [sq_nonneg my, sq_nonneg mz]) N0
  have hmy : |my| ≤ N := abs_le_of_sq_le_sq (by nlinarith [sq_nonneg mx, sq_nonneg mz]) N0
  have hmz : |mz| ≤ N := abs_le_of_sq_le_sq (by nlinarith [sq_nonneg mx, sq_nonneg my]) N0
  have hs : ∀ {t : ℝ}, |t| ≤ T → Near ε 8 (2 / (1 + tx ^ 2 + ty ^ 2 + tz ^ 2) * T) (rnd (cs' * t)) (2 / (1 + tx ^ 2 + ty ^ 2 + tz ^ 2) * t) := by
    intro t ht
    exact ((Near.mul h0 h1 (by norm_num) le_rfl cs (near_refl ht)).rnd' hr h0 h1 (by norm_num)).mono h0 (by norm_num)
  have sx := hs htx
  have sy := hs hty
  have sz := hs htz
  generalize rnd (cs' * tx) = sx' at *
  generalize rnd (cs' * ty) = sy' at *
  generalize rnd (cs' * tz) = sz' at *
  -- the exact rotation
  set w := 2 / (1 + tx ^ 2 + ty ^ 2 + tz ^ 2) with hw
  have hwD : w * (1 + tx ^ 2 + ty ^ 2 + tz ^ 2) = 2 := by rw [hw]; field_simp
  set Rx := mx + (my + mz * tx - mx * tz) * (w * tz) - (mz + mx * ty - my * tx) * (w * ty) with hRx
  set Ry := my + (mz + mx * ty - my * tx) * (w * tx) - (mx + my * tz - mz * ty) * (w * tz) with hRy
  set Rz := mz + (mx + my * tz - mz * ty) * (w * ty) - (my + mz * tx - mx * tz) * (w * tx) with hRz
  have norm : Rx ^ 2 + Ry ^ 2 + Rz ^ 2 = N ^ 2 := by
    rw [hN, hRx, hRy, hRz]
    linear_combination w * ((my * tz - mz * ty) ^ 2 + (mz * tx - mx * tz) ^ 2 + (mx * ty - my * tx) ^ 2) * hwD
  have hRxN : |Rx| ≤ N := abs_le_of_sq_le_sq (by nlinarith [sq_nonneg Ry, sq_nonneg Rz]) N0
  have hRyN : |Ry| ≤ N := abs_le_of_sq_le_sq (by nlinarith [sq_nonneg Rx, sq_nonneg Rz]) N0
  have hRzN : |Rz| ≤ N := abs_le_of_sq_le_sq (by nlinarith [sq_nonneg Rx, sq_nonneg Ry]) N0
  have qx := rotation hr h0 h1 hmx hmy hmz hT T0 sx sy sz Rx hRx hRxN
  have e1 : 1 + ty ^ 2 + tz ^ 2 + tx ^ 2 = 1 + tx ^ 2 + ty ^ 2 + tz ^ 2 := by ring
  have e2 : 1 + tz ^ 2 + tx ^ 2 + ty ^ 2 = 1 + tx ^ 2 + ty ^ 2 + tz ^ 2 := by ring
  have qy := rotation hr h0 h1 hmy hmz hmx (tx := ty) (ty := tz) (tz := tx) (by rw [hT]; ring) T0 (sx := sy') (sy := sz') (sz := sx')
    (by rw [e1]; exact sy) (by rw [e1]; exact sz) (by rw [e1]; exact sx) Ry (by rw [e1, hRy]) hRyN
  have qz := rotation hr h0 h1 hmz hmx hmy (tx := tz) (ty := tx) (tz := ty) (by rw [hT]; ring) T0 (sx := sz') (sy := sx') (sz := sy')
    (by rw [e2]; exact sz) (by rw [e2]; exact sx) (by rw [e2]; exact sy) Rz (by rw [e2, hRz]) hRzN
  have tot := sum_squares h0 h1 N0 norm qx qy qz
  rw [hN] at tot
  exact tot

/-- Square of the momentum. -/
noncomputable def psq (p : Ph) : ℝ := p.px ^ 2 + p.py ^ 2 + p.pz ^ 2

private theorem push_energy (hr : Rounds ε rnd) (h0 : 0 ≤ ε) (h1 : ε ≤ 1 / 1000) (c qmc dt : ℝ) {f : EB ℝ} (hf : f.ex = 0 ∧ f.ey = 0 ∧ f.ez = 0)
    (p : Ph) : |psq (pushMomentum1 rnd c qmc dt f p) - psq p| ≤ 700 * ε * psq p := by
  unfold psq pushMomentum1
  simp only [hf.1, hf.2.1, hf.2.2, mul_zero, hr.zero]
  generalize hpx : rnd (p.px + 0) = mx
  generalize hpy : rnd (p.py + 0) = my
  generalize hpz : rnd (p.pz + 0) = mz
  have base : ∀ {a m : ℝ}, rnd (a + 0) = m → |m ^ 2 - a ^ 2| ≤ 21 / 10 * ε * a ^ 2 := by
    intro a m h
    have h2 := hr (a + 0)
    rw [h, add_zero] at h2
    have e : m ^ 2 - a ^ 2 = (m - a) * (2 * a + (m - a)) := by ring
    rw [e, abs_mul]
    have h3 : |2 * a + (m - a)| ≤ (2 + ε) * |a| := by
      refine (abs_add_le _ _).trans ?_
      rw [abs_mul, abs_of_pos (by norm_num : (0 : ℝ) < 2)]
      linarith
    calc _ ≤ ε * |a| * ((2 + ε) * |a|) := mul_le_mul h2 h3 (abs_nonneg _) (by positivity)
      _ = ε * (2 + ε) * |a| ^ 2 := by ring
      _ = ε * (2 + ε) * a ^ 2 := by rw [sq_abs]
      _ ≤ _ := mul_le_mul_of_nonneg_right (by nlinarith) (sq_nonneg a)
  have bx := base hpx
  have bY := base hpy
  have bz := base hpz
  generalize rnd (rnd (rnd (rnd (qmc * dt) / 2) * cOverGamma rnd c mx my mz) * f.bx) = tx
  generalize rnd (rnd (rnd (rnd (qmc * dt) / 2) * cOverGamma rnd c mx my mz) * f.b_y) = ty
  generalize rnd (rnd (rnd (rnd (qmc * dt) / 2) * cOverGamma rnd c mx my mz) * f.bz) = tz
  have cs := cs_near hr h0 h1 tx ty tz
  generalize rnd (2 / rnd (rnd (rnd (1 + rnd (tx ^ 2)) + rnd (ty ^ 2)) + rnd (tz ^ 2))) = cs' at *
  have tot := rot_energy hr h0 h1 mx my mz tx ty tz cs' cs
  generalize rnd (cross rnd mx (cross rnd my mz tx mx tz) (rnd (cs' * tz)) (cross rnd mz mx ty my tx) (rnd (cs' * ty)) + 0) = X at *
  generalize rnd (cross rnd my (cross rnd mz mx ty my tx) (rnd (cs' * tx)) (cross rnd mx my tz mz ty) (rnd (cs' * tz)) + 0) = Y at *
  generalize rnd (cross rnd mz (cross rnd mx my tz mz ty) (rnd (cs' * ty)) (cross rnd my mz tx mx tz) (rnd (cs' * tx)) + 0) = Z at *
  have pre : |mx ^ 2 + my ^ 2 + mz ^ 2 - (p.px ^ 2 + p.py ^ 2 + p.pz ^ 2)| ≤ 21 / 10 * ε * (p.px ^ 2 + p.py ^ 2 + p.pz ^ 2) := by
    have e : mx ^ 2 + my ^ 2 + mz ^ 2 - (p.px ^ 2 + p.py ^ 2 + p.pz ^ 2) = (mx ^ 2 - p.px ^ 2) + (my ^ 2 - p.py ^ 2) + (mz ^ 2 - p.pz ^ 2) := by ring
    rw [e]
    refine (abs_add_three _ _ _).trans ((add_le_add (add_le_add bx bY) bz).trans (le_of_eq ?_))
    ring
  have S0 : 0 ≤ p.px ^ 2 + p.py ^ 2 + p.pz ^ 2 := by positivity
  generalize p.px ^ 2 + p.py ^ 2 + p.pz ^ 2 = S at *
  have N0 : 0 ≤ mx ^ 2 + my ^ 2 + mz ^ 2 := by positivity
  generalize mx ^ 2 + my ^ 2 + mz ^ 2 = M at *
  have t := abs_sub_le (X ^ 2 + Y ^ 2 + Z ^ 2) M S
  have hNS : M ≤ 1003 / 1000 * S := by
    have := (abs_le.mp pre).2
    nlinarith [mul_le_mul_of_nonneg_right h1 S0]
  have := mul_le_mul_of_nonneg_left hNS (by linarith : 0 ≤ 673 * ε)
  nlinarith [mul_nonneg h0 S0]

/-- The fields have no electric part. -/
def Magnetic (f : ℝ → ℝ → ℝ → EB ℝ) : Prop := ∀ x y xi, (f x y xi).ex = 0 ∧ (f x y xi).ey = 0 ∧ (f x y xi).ez = 0

/-- One step in a magnetic field changes the square of the momentum by at most 700 units of rounding, however strong the field and long the
step are. -/
theorem magnetic_step (hr : Rounds ε rnd) (h0 : 0 ≤ ε) (h1 : ε ≤ 1 / 1000) (c qmc dt : ℝ) {f : ℝ → ℝ → ℝ → EB ℝ} (hf : Magnetic f) (p : Ph) :
    |psq (boris1 rnd c qmc dt f p) - psq p| ≤ 700 * ε * psq p :=
  push_energy hr h0 h1 c qmc dt (hf _ _ _) (halfPush1 rnd c dt p)

/-- Any number of steps. -/
theorem magnetic_steps (hr : Rounds ε rnd) (h0 : 0 ≤ ε) (h1 : ε ≤ 1 / 1000) (c qmc : ℝ) (L : List (ℝ × (ℝ → ℝ → ℝ → EB ℝ)))
    (hL : ∀ s ∈ L, Magnetic s.2) (p : Ph) : |psq (steps rnd c qmc L p) - psq p| ≤ ((1 + 700 * ε) ^ L.length - 1) * psq p := by
  induction L generalizing p with
  | nil => simp [steps]
  | cons s L ih =>
    have a := magnetic_step hr h0 h1 c qmc s.1 (hL s List.mem_cons_self) p
    have b := ih (fun s hs => hL s (List.mem_cons_of_mem _ hs)) (boris1 rnd c qmc s.1 s.2 p)
    have e : steps rnd c qmc (s :: L) p = steps rnd c qmc L (boris1 rnd c qmc s.1 s.2 p) := rfl
    rw [e, List.length_cons, pow_succ]
    have P1 : 1 ≤ (1 + 700 * ε) ^ L.length := one_le_pow₀ (by linarith)
    generalize (1 + 700 * ε) ^ L.length = P at *
    have t := abs_sub_le (psq (steps rnd c qmc L (boris1 rnd c qmc s.1 s.2 p))) (psq (boris1 rnd c qmc s.1 s.2 p)) (psq p)
    have := (abs_le.mp a).2
    nlinarith [mul_le_mul_of_nonneg_left (show psq (boris1 rnd c qmc s.1 s.2 p) ≤ (1 + 700 * ε) * psq p by linarith) (sub_nonneg.mpr P1)]

/-- The energy of a particle that is tracked through magnetic fields drifts by at most 1400 units of rounding per step. -/
theorem magnetic_energy_rounded (hr : Rounds ε rnd) (h0 : 0 ≤ ε) (h1 : ε ≤ 1 / 1000) (c qmc : ℝ) (L : List (ℝ × (ℝ → ℝ → ℝ → EB ℝ)))
    (hL : ∀ s ∈ L, Magnetic s.2) (hn : 700 * L.length * ε ≤ 1) (p : Ph) :
    |√(1 + psq (steps rnd c qmc L p)) - √(1 + psq p)| ≤ 1400 * L.length * ε * √(1 + psq p) := by
  have S0 : ∀ p, 0 ≤ psq p := fun p => by unfold psq; positivity
  have n0 : 0 ≤ (L.length : ℝ) * (700 * ε) := by positivity
  have a : (1 + 700 * ε) ^ L.length ≤ Real.exp (L.length * (700 * ε)) := by
    rw [Real.exp_nat_mul]
    exact pow_le_pow_left₀ (by linarith) (by linarith [Real.add_one_le_exp (700 * ε)]) _
  have b := (abs_le.mp (Real.abs_exp_sub_one_sub_id_le (x := L.length * (700 * ε)) (by rw [abs_of_nonneg n0]; linarith))).2
  have d : (1 + 700 * ε) ^ L.length - 1 ≤ 1400 * L.length * ε := by nlinarith
  have e := (magnetic_steps hr h0 h1 c qmc L hL p).trans (mul_le_mul_of_nonneg_right d (S0 p))
  have A := Real.sq_sqrt (show 0 ≤ 1 + psq (steps rnd c qmc L p) by linarith [S0 (steps rnd c qmc L p)])
  have B := Real.sq_sqrt (show 0 ≤ 1 + psq p by linarith [S0 p])
  have a0 := Real.sqrt_nonneg (1 + psq (steps rnd c qmc L p))
  have b0 : 0 < √(1 + psq p) := Real.sqrt_pos.mpr (by linarith [S0 p])
  generalize √(1 + psq (steps rnd c qmc L p)) = x at *
  generalize √(1 + psq p) = y at *
  have k0 : 0 ≤ 1400 * (L.length : ℝ) * ε := by positivity
  generalize 1400 * (L.length : ℝ) * ε = k at *
  have e2 : |x ^ 2 - y ^ 2| ≤ k * y ^ 2 := by
    rw [A, B, add_sub_add_left_eq_sub]
    linarith
  have e3 : x ^ 2 - y ^ 2 = (x - y) * (x + y) := by ring
  rw [e3, abs_mul, abs_of_pos (by linarith : 0 < x + y)] at e2
  by_contra hc
  push Not at hc
  nlinarith [mul_pos b0 b0, mul_nonneg (abs_nonneg (x - y)) a0]

/-- Without rounding: the pusher of `Verif.Push.Model`. -/
theorem exact_pushMomentum (k : Const) (dt : ℝ) (f : EB ℝ) (p : Ph) : pushMomentum1 id k.c k.qmc dt f p = Push.pushMomentum1 k dt f p := rfl

theorem exact_halfPush (k : Const) (dt : ℝ) (p : Ph) : halfPush1 id k.c dt p = Push.halfPush1 k dt p := rfl

/-- A step without rounding is the whole push of `Verif.Push.Model`. -/
theorem exact_boris (k : Const) (fields : List PField) {sch : Sched} {n : ℕ} (hs : sch.Valid n) (t dt : ℝ) (b : ℕ → Ph) (eb : ℕ → EB ℝ) (i : ℕ)
    (hi : i < n) : (boris k fields sch t dt b eb).1 i =
      boris1 id k.c k.qmc dt (fun x y xi => fields.foldl (fun v f => f (t + dt / 2) x y xi v) ⟨0, 0, 0, 0, 0, 0⟩) (b i) := by
  rw [boris_apply k fields hs, if_pos hi]
  rfl

/-- A million steps through a dipole with numbers of 64 bits: the energy is kept to six digits. -/
example (c qmc dt B : ℝ) (p : Ph) : let ε : ℝ := 1 / 2 ^ 53
    let L := List.replicate (10 ^ 6) (dt, fun _ _ _ => (⟨0, 0, 0, 0, B, 0⟩ : EB ℝ))
    |√(1 + psq (steps (fun x => (1 + ε) * x) c qmc L p)) - √(1 + psq p)| ≤ 1 / 10 ^ 6 * √(1 + psq p) := by
  intro ε L
  have h0 : 0 ≤ ε := by positivity
  have hr : Rounds ε (fun x => (1 + ε) * x) := by
    intro x
    have e : (1 + ε) * x - x = ε * x := by ring
    rw [e, abs_mul, abs_of_nonneg h0]
  have hl : L.length = 10 ^ 6 := List.length_replicate
  refine (magnetic_energy_rounded hr h0 (by norm_num [ε]) c qmc L (fun s hs => ?_) (by rw [hl]; norm_num [ε]) p).trans ?_
  · rw [List.eq_of_mem_replicate hs]
    exact fun _ _ _ => ⟨rfl, rfl, rfl⟩
  · rw [hl]
    exact mul_le_mul_of_nonneg_right (by norm_num [ε]) (Real.sqrt_nonneg _)

end WakeT.Push.Rounded
