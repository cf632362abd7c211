import Verif.Push.RoundingProps

/-! # Accuracy of one Boris step with rounding -/

set_option linter.unusedSectionVars false

namespace WakeT.Push.Rounded

open WakeT.Base (Rounds)
open Fields (EB)

variable {rnd : ℝ → ℝ} {ε : ℝ}

/-! ### The exact rotation depends continuously on the momentum -/

/-- First component of the rotation; the others by cyclic exchange. -/
private noncomputable def rotX (mx my mz tx ty tz : ℝ) : ℝ :=
  mx + (my + mz * tx - mx * tz) * (2 / (1 + tx ^ 2 + ty ^ 2 + tz ^ 2) * tz) -
    (mz + mx * ty - my * tx) * (2 / (1 + tx ^ 2 + ty ^ 2 + tz ^ 2) * ty)

private theorem rotX_le {mx my mz tx ty tz N : ℝ} (N0 : 0 ≤ N) (hN : mx ^ 2 + my ^ 2 + mz ^ 2 ≤ N ^ 2) : |rotX mx my mz tx ty tz| ≤ N := by
  have hw : 2 / (1 + tx ^ 2 + ty ^ 2 + tz ^ 2) * (1 + tx ^ 2 + ty ^ 2 + tz ^ 2) = 2 := by field_simp
  unfold rotX
  generalize 2 / (1 + tx ^ 2 + ty ^ 2 + tz ^ 2) = w at *
  refine abs_le_of_sq_le_sq ?_ N0
  set Rx := mx + (my + mz * tx - mx * tz) * (w * tz) - (mz + mx * ty - my * tx) * (w * ty) with hRx
  set Ry := my + (mz + mx * ty - my * tx) * (w * tx) - (mx + my * tz - mz * ty) * (w * tz) with hRy
  set Rz := mz + (mx + my * tz - mz * ty) * (w * ty) - (my + mz * tx - mx * tz) * (w * tx) with hRz
  have norm : Rx ^ 2 + Ry ^ 2 + Rz ^ 2 = mx ^ 2 + my ^ 2 + mz ^ 2 := by
    rw [hRx, hRy, hRz]
    linear_combination w * ((my * tz - mz * ty) ^ 2 + (mz * tx - mx * tz) ^ 2 + (mx * ty - my * tx) ^ 2) * hw
  nlinarith [sq_nonneg Ry, sq_nonneg Rz]

private theorem rotX_sub (mx my mz nx ny nz tx ty tz : ℝ) :
    rotX mx my mz tx ty tz - rotX nx ny nz tx ty tz = rotX (mx - nx) (my - ny) (mz - nz) tx ty tz := by
  unfold rotX
  ring

private theorem coef1 {g h β : ℝ} (hg : 0 < g) (hh : 0 < h) (hβ : 0 ≤ β) :
    |2 * β * g / (g ^ 2 + β ^ 2) - 2 * β * h / (h ^ 2 + β ^ 2)| * g ≤ 2 * |g - h| := by
  have a : 0 < g ^ 2 + β ^ 2 := by positivity
  have b : 0 < h ^ 2 + β ^ 2 := by positivity
  have e : 2 * β * g / (g ^ 2 + β ^ 2) - 2 * β * h / (h ^ 2 + β ^ 2) = (g - h) * (2 * β * (β ^ 2 - g * h)) / ((g ^ 2 + β ^ 2) * (h ^ 2 + β ^ 2)) := by
    field_simp
    ring
  rw [e, abs_div, abs_mul, abs_of_pos (mul_pos a b), div_mul_eq_mul_div, div_le_iff₀ (mul_pos a b)]
  have k : |2 * β * (β ^ 2 - g * h)| * g ≤ 2 * ((g ^ 2 + β ^ 2) * (h ^ 2 + β ^ 2)) := by
    have : |2 * β * (β ^ 2 - g * h)| ≤ 2 * β * (β ^ 2 + g * h) := by
      rw [abs_mul, abs_of_nonneg (by positivity : 0 ≤ 2 * β)]
      refine mul_le_mul_of_nonneg_left ((abs_sub _ _).trans (le_of_eq ?_)) (by positivity)
      rw [abs_of_nonneg (sq_nonneg β), abs_of_pos (mul_pos hg hh)]
    refine (mul_le_mul_of_nonneg_right this hg.le).trans ?_
    nlinarith [mul_nonneg (sq_nonneg g) (sq_nonneg (β - h)), mul_nonneg (sq_nonneg β) (sq_nonneg (β - g)), sq_nonneg (g * h), sq_nonneg (β * h),
      sq_nonneg (β * g), sq_nonneg (β ^ 2)]
  calc _ = |g - h| * (|2 * β * (β ^ 2 - g * h)| * g) := by ring
    _ ≤ |g - h| * (2 * ((g ^ 2 + β ^ 2) * (h ^ 2 + β ^ 2))) := mul_le_mul_of_nonneg_left k (abs_nonneg _)
    _ = _ := by ring

private theorem coef2 {g h β : ℝ} (hg : 0 < g) (hh : 0 < h) :
    |2 * β ^ 2 / (g ^ 2 + β ^ 2) - 2 * β ^ 2 / (h ^ 2 + β ^ 2)| * g ≤ 2 * |g - h| := by
  have a : 0 < g ^ 2 + β ^ 2 := by positivity
  have b : 0 < h ^ 2 + β ^ 2 := by positivity
  have e : 2 * β ^ 2 / (g ^ 2 + β ^ 2) - 2 * β ^ 2 / (h ^ 2 + β ^ 2) = (g - h) * (-(2 * β ^ 2 * (g + h))) / ((g ^ 2 + β ^ 2) * (h ^ 2 + β ^ 2)) := by
    field_simp
    ring
  rw [e, abs_div, abs_mul, abs_of_pos (mul_pos a b), div_mul_eq_mul_div, div_le_iff₀ (mul_pos a b), abs_neg,
    abs_of_nonneg (by positivity : 0 ≤ 2 * β ^ 2 * (g + h))]
  have k : 2 * β ^ 2 * (g + h) * g ≤ 2 * ((g ^ 2 + β ^ 2) * (h ^ 2 + β ^ 2)) := by
    nlinarith [sq_nonneg (β ^ 2 - g * h), sq_nonneg (β * h)]
  calc _ = |g - h| * (2 * β ^ 2 * (g + h) * g) := by ring
    _ ≤ |g - h| * (2 * ((g ^ 2 + β ^ 2) * (h ^ 2 + β ^ 2))) := mul_le_mul_of_nonneg_left k (abs_nonneg _)
    _ = _ := by ring

/-- Same momentum, different Lorentz factors. -/
private theorem rotX_gamma {mx my mz bx b_y bz g h : ℝ} (hg : 0 < g) (hh : 0 < h) (hm : mx ^ 2 + my ^ 2 + mz ^ 2 ≤ g ^ 2) :
    |rotX mx my mz (bx / h) (b_y / h) (bz / h) - rotX mx my mz (bx / g) (b_y / g) (bz / g)| ≤ 4 * |g - h| := by
  set β := √(bx ^ 2 + b_y ^ 2 + bz ^ 2) with hβd
  have hβ : β ^ 2 = bx ^ 2 + b_y ^ 2 + bz ^ 2 := Real.sq_sqrt (by positivity)
  have β0 : 0 ≤ β := Real.sqrt_nonneg _
  have form : ∀ {γ : ℝ}, 0 < γ → rotX mx my mz (bx / γ) (b_y / γ) (bz / γ) =
      mx + 2 * γ / (γ ^ 2 + β ^ 2) * (my * bz - mz * b_y) +
        2 / (γ ^ 2 + β ^ 2) * ((mz * bx - mx * bz) * bz - (mx * b_y - my * bx) * b_y) := by
    intro γ hγ
    unfold rotX
    rw [hβ]
    have e : 1 + (bx / γ) ^ 2 + (b_y / γ) ^ 2 + (bz / γ) ^ 2 = (γ ^ 2 + (bx ^ 2 + b_y ^ 2 + bz ^ 2)) / γ ^ 2 := by field_simp; ring
    rw [e]
    have : 0 < γ ^ 2 + (bx ^ 2 + b_y ^ 2 + bz ^ 2) := by positivity
    field_simp
    ring
  have lag : (my * bz - mz * b_y) ^ 2 + (mz * bx - mx * bz) ^ 2 + (mx * b_y - my * bx) ^ 2 ≤ (g * β) ^ 2 := by
    rw [mul_pow, hβ]
    nlinarith [sq_nonneg (mx * bx + my * b_y + mz * bz), mul_le_mul_of_nonneg_right hm (by positivity : 0 ≤ bx ^ 2 + b_y ^ 2 + bz ^ 2)]
  have hA : |my * bz - mz * b_y| ≤ g * β :=
    abs_le_of_sq_le_sq (by nlinarith [sq_nonneg (mz * bx - mx * bz), sq_nonneg (mx * b_y - my * bx)]) (by positivity)
  have hB : |(mz * bx - mx * bz) * bz - (mx * b_y - my * bx) * b_y| ≤ g * β * β := by
    refine abs_le_of_sq_le_sq ?_ (by positivity)
    generalize my * bz - mz * b_y = u at *
    generalize mz * bx - mx * bz = v at *
    generalize mx * b_y - my * bx = w at *
    have e : (g * β * β) ^ 2 = (g * β) ^ 2 * (bx ^ 2 + b_y ^ 2 + bz ^ 2) := by rw [mul_pow (g * β) β, hβ]
    rw [e]
    have := mul_le_mul_of_nonneg_right lag (by positivity : 0 ≤ bx ^ 2 + b_y ^ 2 + bz ^ 2)
    nlinarith [sq_nonneg (v * b_y + w * bz), sq_nonneg (u * bx), sq_nonneg (u * b_y), sq_nonneg (u * bz), sq_nonneg (v * bx), sq_nonneg (w * bx)]
  rw [form hg, form hh]
  generalize my * bz - mz * b_y = A at *
  generalize (mz * bx - mx * bz) * bz - (mx * b_y - my * bx) * b_y = B at *
  have e : mx + 2 * h / (h ^ 2 + β ^ 2) * A + 2 / (h ^ 2 + β ^ 2) * B - (mx + 2 * g / (g ^ 2 + β ^ 2) * A + 2 / (g ^ 2 + β ^ 2) * B) =
    -((2 * g / (g ^ 2 + β ^ 2) - 2 * h / (h ^ 2 + β ^ 2)) * A) - (2 / (g ^ 2 + β ^ 2) - 2 / (h ^ 2 + β ^ 2)) * B := by ring
  rw [e]
  refine (abs_sub _ _).trans ?_
  rw [abs_neg, abs_mul, abs_mul]
  have p1 : |2 * g / (g ^ 2 + β ^ 2) - 2 * h / (h ^ 2 + β ^ 2)| * |A| ≤ 2 * |g - h| := by
    refine (mul_le_mul_of_nonneg_left hA (abs_nonneg _)).trans (le_trans (le_of_eq ?_) (coef1 hg hh β0))
    have e : 2 * β * g / (g ^ 2 + β ^ 2) - 2 * β * h / (h ^ 2 + β ^ 2) = (2 * g / (g ^ 2 + β ^ 2) - 2 * h / (h ^ 2 + β ^ 2)) * β := by ring
    rw [e, abs_mul, abs_of_nonneg β0]
    ring
  have p2 : |2 / (g ^ 2 + β ^ 2) - 2 / (h ^ 2 + β ^ 2)| * |B| ≤ 2 * |g - h| := by
    refine (mul_le_mul_of_nonneg_left hB (abs_nonneg _)).trans (le_trans (le_of_eq ?_) (coef2 (β := β) hg hh))
    have e : 2 * β ^ 2 / (g ^ 2 + β ^ 2) - 2 * β ^ 2 / (h ^ 2 + β ^ 2) = (2 / (g ^ 2 + β ^ 2) - 2 / (h ^ 2 + β ^ 2)) * β ^ 2 := by ring
    rw [e, abs_mul, abs_of_nonneg (sq_nonneg β)]
    ring
  linarith

private theorem gamma_lip (mx my mz nx ny nz : ℝ) :
    |√(1 + (mx ^ 2 + my ^ 2 + mz ^ 2)) - √(1 + (nx ^ 2 + ny ^ 2 + nz ^ 2))| ≤ √((mx - nx) ^ 2 + (my - ny) ^ 2 + (mz - nz) ^ 2) := by
  have A := Real.sq_sqrt (show 0 ≤ 1 + (mx ^ 2 + my ^ 2 + mz ^ 2) by positivity)
  have B := Real.sq_sqrt (show 0 ≤ 1 + (nx ^ 2 + ny ^ 2 + nz ^ 2) by positivity)
  have C := Real.sq_sqrt (show 0 ≤ (mx - nx) ^ 2 + (my - ny) ^ 2 + (mz - nz) ^ 2 by positivity)
  have a0 := Real.sqrt_nonneg (1 + (mx ^ 2 + my ^ 2 + mz ^ 2))
  have b0 := Real.sqrt_nonneg (1 + (nx ^ 2 + ny ^ 2 + nz ^ 2))
  have c0 := Real.sqrt_nonneg ((mx - nx) ^ 2 + (my - ny) ^ 2 + (mz - nz) ^ 2)
  generalize √(1 + (mx ^ 2 + my ^ 2 + mz ^ 2)) = a at *
  generalize √(1 + (nx ^ 2 + ny ^ 2 + nz ^ 2)) = b at *
  generalize √((mx - nx) ^ 2 + (my - ny) ^ 2 + (mz - nz) ^ 2) = c at *
  refine abs_le_of_sq_le_sq ?_ c0
  -- 1 + m n ≤ a b
  have : 1 + (mx * nx + my * ny + mz * nz) ≤ a * b := by
    refine le_of_abs_le (abs_le_of_sq_le_sq ?_ (mul_nonneg a0 b0))
    rw [mul_pow, A, B]
    nlinarith [sq_nonneg (mx - nx), sq_nonneg (my - ny), sq_nonneg (mz - nz), sq_nonneg (mx * ny - my * nx), sq_nonneg (mx * nz - mz * nx),
      sq_nonneg (my * nz - mz * ny)]
  nlinarith

/-- The exact rotation changes by at most five times the change of the momentum, whatever the magnetic field. -/
private theorem rotX_lip (mx my mz nx ny nz bx b_y bz : ℝ) {d : ℝ} (d0 : 0 ≤ d) (hd : (mx - nx) ^ 2 + (my - ny) ^ 2 + (mz - nz) ^ 2 ≤ d ^ 2) :
    let g := √(1 + (mx ^ 2 + my ^ 2 + mz ^ 2))
    let h := √(1 + (nx ^ 2 + ny ^ 2 + nz ^ 2))
    |rotX mx my mz (bx / g) (b_y / g) (bz / g) - rotX nx ny nz (bx / h) (b_y / h) (bz / h)| ≤ 5 * d := by
  intro g h
  have g0 : 0 < g := Real.sqrt_pos.mpr (by positivity)
  have h0 : 0 < h := Real.sqrt_pos.mpr (by positivity)
  have hm : mx ^ 2 + my ^ 2 + mz ^ 2 ≤ g ^ 2 := by rw [Real.sq_sqrt (by positivity)]; linarith
  have a := rotX_gamma (bx := bx) (b_y := b_y) (bz := bz) g0 h0 hm
  have b := rotX_le (tx := bx / h) (ty := b_y / h) (tz := bz / h) d0 hd
  rw [← rotX_sub] at b
  have c : |g - h| ≤ d := (gamma_lip mx my mz nx ny nz).trans (by rw [Real.sqrt_le_left d0]; exact hd)
  have t := abs_sub_le (rotX mx my mz (bx / g) (b_y / g) (bz / g)) (rotX mx my mz (bx / h) (b_y / h) (bz / h)) (rotX nx ny nz (bx / h) (b_y / h) (bz / h))
  rw [abs_sub_comm] at a
  linarith

/-! ### Rounding in the rotation -/

private theorem near_inv (h0 : 0 ≤ ε) (h1 : ε ≤ 1 / 1000) {k D' D : ℝ} (k0 : 0 ≤ k) (k1 : k ≤ 30) (D0 : 0 < D) (h : |D' - D| ≤ k * ε * D) :
    0 < D' ∧ |2 / D' - 2 / D| ≤ (104 / 100 * k) * (ε * (2 / D)) ∧ 2 / D' ≤ 104 / 100 * (2 / D) := by
  have hk : k * ε ≤ 3 / 100 := by nlinarith
  have a := abs_le.mp (h.trans (mul_le_mul_of_nonneg_right hk D0.le))
  have E0 : 0 < D' := by linarith
  have q0 : 0 < 2 / D := by positivity
  refine ⟨E0, ?_, ?_⟩
  · have e : 2 / D' - 2 / D = -(D' - D) / D' * (2 / D) := by field_simp; ring
    rw [e, abs_mul, abs_of_pos q0, abs_div, abs_neg, abs_of_pos E0, ← mul_assoc]
    refine mul_le_mul_of_nonneg_right ?_ q0.le
    rw [div_le_iff₀ E0]
    refine h.trans ?_
    have : 0 ≤ k * ε := mul_nonneg k0 h0
    have : k * ε * D ≤ k * ε * (104 / 100 * D') := mul_le_mul_of_nonneg_left (by linarith) this
    linarith
  · rw [← mul_div_assoc, div_le_div_iff₀ E0 D0]
    nlinarith

/-- The factor `2 / (1 + t²)` from rounded components of `t`. -/
private theorem cs_near' (hr : Rounds ε rnd) (h0 : 0 ≤ ε) (h1 : ε ≤ 1 / 1000) {tx ty tz tx' ty' tz' : ℝ} (hx : Near ε 12 |tx| tx' tx)
    (hy : Near ε 12 |ty| ty' ty) (hz : Near ε 12 |tz| tz' tz) :
    Near ε 32 (2 / (1 + tx ^ 2 + ty ^ 2 + tz ^ 2)) (rnd (2 / rnd (rnd (rnd (1 + rnd (tx' ^ 2)) + rnd (ty' ^ 2)) + rnd (tz' ^ 2))))
      (2 / (1 + tx ^ 2 + ty ^ 2 + tz ^ 2)) := by
  have a := cs_near hr h0 h1 tx' ty' tz'
  have sq : ∀ {t' t : ℝ}, Near ε 12 |t| t' t → |t' ^ 2 - t ^ 2| ≤ 2415 / 100 * ε * t ^ 2 := by
    intro t' t h
    have := (Near.mul h0 h1 (by norm_num) (by norm_num) h h).2
    rw [abs_mul_abs_self] at this
    rw [sq, sq]
    nlinarith [mul_nonneg h0 (mul_self_nonneg t)]
  have sx := sq hx
  have sy := sq hy
  have sz := sq hz
  have D0 : 0 < 1 + tx ^ 2 + ty ^ 2 + tz ^ 2 := by positivity
  have d : |1 + tx' ^ 2 + ty' ^ 2 + tz' ^ 2 - (1 + tx ^ 2 + ty ^ 2 + tz ^ 2)| ≤ 2415 / 100 * ε * (1 + tx ^ 2 + ty ^ 2 + tz ^ 2) := by
    have e : 1 + tx' ^ 2 + ty' ^ 2 + tz' ^ 2 - (1 + tx ^ 2 + ty ^ 2 + tz ^ 2) = (tx' ^ 2 - tx ^ 2) + (ty' ^ 2 - ty ^ 2) + (tz' ^ 2 - tz ^ 2) := by ring
    rw [e]
    refine (abs_add_three _ _ _).trans ((add_le_add (add_le_add sx sy) sz).trans ?_)
    nlinarith
  obtain ⟨_, i1, i2⟩ := near_inv h0 h1 (by norm_num) (by norm_num) D0 d
  generalize rnd (2 / rnd (rnd (rnd (1 + rnd (tx' ^ 2)) + rnd (ty' ^ 2)) + rnd (tz' ^ 2))) = E at *
  have q0 : 0 < 2 / (1 + tx ^ 2 + ty ^ 2 + tz ^ 2) := by positivity
  generalize 2 / (1 + tx ^ 2 + ty ^ 2 + tz ^ 2) = q at *
  generalize 2 / (1 + tx' ^ 2 + ty' ^ 2 + tz' ^ 2) = q' at *
  refine ⟨(abs_of_pos q0).le, ?_⟩
  have t := abs_sub_le E q' q
  have := a.2
  have := mul_le_mul_of_nonneg_left i2 h0
  nlinarith [mul_nonneg h0 q0.le]

/-- The rounded rotation with rounded `t`: 700 units of rounding of the momentum. -/
private theorem rotation' (hr : Rounds ε rnd) (h0 : 0 ≤ ε) (h1 : ε ≤ 1 / 1000) {N px py pz tx ty tz tx' ty' tz' : ℝ} (hx : |px| ≤ N) (hy : |py| ≤ N)
    (hz : |pz| ≤ N) (htx : Near ε 12 |tx| tx' tx) (hty : Near ε 12 |ty| ty' ty) (htz : Near ε 12 |tz| tz' tz) {cs' : ℝ}
    (cs : Near ε 32 (2 / (1 + tx ^ 2 + ty ^ 2 + tz ^ 2)) cs' (2 / (1 + tx ^ 2 + ty ^ 2 + tz ^ 2))) :
    |cross rnd px (cross rnd py pz tx' px tz') (rnd (cs' * tz')) (cross rnd pz px ty' py tx') (rnd (cs' * ty')) - rotX px py pz tx ty tz| ≤
      700 * (ε * N) := by
  set T := √(tx ^ 2 + ty ^ 2 + tz ^ 2) with hTd
  have hT : T ^ 2 = tx ^ 2 + ty ^ 2 + tz ^ 2 := Real.sq_sqrt (by positivity)
  have T0 : 0 ≤ T := Real.sqrt_nonneg _
  have N0 : 0 ≤ N := (abs_nonneg _).trans hx
  have NT : 0 ≤ N * T := mul_nonneg N0 T0
  have ux := htx.mono' h0 (by norm_num) (show |tx| ≤ T from abs_le_of_sq_le_sq (by nlinarith [sq_nonneg ty, sq_nonneg tz]) T0)
  have uy := hty.mono' h0 (by norm_num) (show |ty| ≤ T from abs_le_of_sq_le_sq (by nlinarith [sq_nonneg tx, sq_nonneg tz]) T0)
  have uz := htz.mono' h0 (by norm_num) (show |tz| ≤ T from abs_le_of_sq_le_sq (by nlinarith [sq_nonneg tx, sq_nonneg ty]) T0)
  have eD : 1 + tx ^ 2 + ty ^ 2 + tz ^ 2 = 1 + T ^ 2 := by rw [hT]; ring
  have hs : ∀ {t' t : ℝ}, Near ε 12 T t' t → Near ε 46 (2 / (1 + tx ^ 2 + ty ^ 2 + tz ^ 2) * T) (rnd (cs' * t')) (2 / (1 + tx ^ 2 + ty ^ 2 + tz ^ 2) * t) := by
    intro t' t ht
    exact ((Near.mul h0 h1 (by norm_num) (by norm_num) cs ht).rnd' hr h0 h1 (by norm_num)).mono h0 (by norm_num)
  have sy := hs uy
  have sz := hs uz
  have first : ∀ {a b c c' d e e' : ℝ}, |a| ≤ N → |b| ≤ N → Near ε 12 T c' c → |d| ≤ N → Near ε 12 T e' e →
      Near ε 16 (N + 2 * (N * T)) (cross rnd a b c' d e') (a + b * c - d * e) := by
    intro a b c c' d e e' ha hb hc hd he
    have m1 := (Near.mul h0 h1 le_rfl (by norm_num) (near_refl (ε := ε) hb) hc).mono h0 (show _ ≤ (12 : ℝ) by norm_num)
    have m2 := (Near.mul h0 h1 le_rfl (by norm_num) (near_refl (ε := ε) hd) he).mono h0 (show _ ≤ (12 : ℝ) by norm_num)
    have := cross_near hr h0 h1 (by norm_num) ha m1 m2
    refine ⟨(abs_sub _ _).trans ?_, this.trans ?_⟩
    · have := abs_add_le a (b * c)
      have := m1.1
      have := m2.1
      linarith
    · nlinarith [mul_nonneg h0 N0, mul_nonneg h0 NT]
  have y := first hy hz ux hx uz
  have z := first hz hx uy hy ux
  have bound : (N + 2 * (N * T)) * (2 / (1 + tx ^ 2 + ty ^ 2 + tz ^ 2) * T) ≤ 5 * N := by
    rw [eD]
    have d0 : 0 < 1 + T ^ 2 := by positivity
    have e : (N + 2 * (N * T)) * (2 / (1 + T ^ 2) * T) = (2 * N * T + 4 * (N * T ^ 2)) / (1 + T ^ 2) := by field_simp; ring
    rw [e, div_le_iff₀ d0]
    nlinarith [mul_nonneg N0 (sq_nonneg (T - 1)), mul_nonneg N0 (sq_nonneg T)]
  have m1 := ((Near.mul h0 h1 (by norm_num) (by norm_num) y sz).mono' h0 (by norm_num) bound).mono h0 (show _ ≤ 63 by norm_num)
  have m2 := ((Near.mul h0 h1 (by norm_num) (by norm_num) z sy).mono' h0 (by norm_num) bound).mono h0 (show _ ≤ 63 by norm_num)
  have c := cross_near hr h0 h1 (by norm_num) hx m1 m2
  unfold rotX
  refine c.trans ?_
  nlinarith [mul_nonneg h0 N0]

/-- `c / γ`: seven units of rounding. -/
private theorem cOverGamma_near (hr : Rounds ε rnd) (h0 : 0 ≤ ε) (h1 : ε ≤ 1 / 1000) (c px py pz : ℝ) :
    Near ε 7 |c / √(1 + (px ^ 2 + py ^ 2 + pz ^ 2))| (cOverGamma rnd c px py pz) (c / √(1 + (px ^ 2 + py ^ 2 + pz ^ 2))) := by
  have sq : ∀ t : ℝ, |rnd (t ^ 2) - t ^ 2| ≤ 1 * ε * t ^ 2 := fun t => by
    have := hr (t ^ 2)
    rwa [abs_of_nonneg (sq_nonneg t), ← one_mul ε] at this
  have add : ∀ {k x' x y' y : ℝ}, 0 ≤ x → 0 ≤ y → |x' - x| ≤ k * ε * x → |y' - y| ≤ k * ε * y → 1 ≤ k → k ≤ 10 →
      |rnd (x' + y') - (x + y)| ≤ (k + 11 / 10) * ε * (x + y) := by
    intro k x' x y' y hx hy h h' k1 k2
    have e : |x' + y' - (x + y)| ≤ k * ε * (x + y) := by
      have e : x' + y' - (x + y) = (x' - x) + (y' - y) := by ring
      rw [e]
      refine (abs_add_le _ _).trans ((add_le_add h h').trans (le_of_eq ?_))
      ring
    refine (hr.near h0 e (abs_of_nonneg (add_nonneg hx hy)).le).trans ?_
    have s0 : 0 ≤ ε * (x + y) := mul_nonneg h0 (add_nonneg hx hy)
    have : ε * (k * (ε * (x + y))) ≤ 1 / 1000 * (k * (ε * (x + y))) := mul_le_mul_of_nonneg_right h1 (mul_nonneg (by linarith) s0)
    nlinarith
  have up : ∀ {k k' x' x : ℝ}, 0 ≤ x → k ≤ k' → |x' - x| ≤ k * ε * x → |x' - x| ≤ k' * ε * x := fun hx hk h =>
    h.trans (mul_le_mul_of_nonneg_right (mul_le_mul_of_nonneg_right hk h0) hx)
  have a1 := add (sq_nonneg px) (sq_nonneg py) (sq px) (sq py) le_rfl (by norm_num)
  have a2 := add (by positivity) (sq_nonneg pz) a1 (up (sq_nonneg pz) (by norm_num) (sq pz)) (by norm_num) (by norm_num)
  have a3 := add (x' := 1) (x := 1) (by norm_num) (by positivity) (by simp; norm_num; linarith) a2 (by norm_num) (by norm_num)
  unfold cOverGamma
  generalize rnd (1 + rnd (rnd (rnd (px ^ 2) + rnd (py ^ 2)) + rnd (pz ^ 2))) = S' at *
  have S1 : 1 ≤ 1 + (px ^ 2 + py ^ 2 + pz ^ 2) := by nlinarith [sq_nonneg px, sq_nonneg py, sq_nonneg pz]
  generalize 1 + (px ^ 2 + py ^ 2 + pz ^ 2) = S at *
  norm_num at a3
  have S0 : 0 < S := by linarith
  have g0 : 0 < √S := Real.sqrt_pos.mpr S0
  have S'0 : 0 ≤ S' := by
    have := (abs_le.mp a3).1
    nlinarith [mul_le_mul_of_nonneg_right h1 S0.le]
  have r : |√S' - √S| ≤ 43 / 10 * ε * √S := by
    have A := Real.sq_sqrt S'0
    have B := Real.sq_sqrt S0.le
    have a0 := Real.sqrt_nonneg S'
    rw [← A, ← B] at a3
    generalize √S' = a at *
    generalize √S = b at *
    have e : a ^ 2 - b ^ 2 = (a - b) * (a + b) := by ring
    rw [e, abs_mul, abs_of_pos (by linarith : 0 < a + b)] at a3
    by_contra hc
    push Not at hc
    nlinarith [mul_pos g0 g0, mul_nonneg (abs_nonneg (a - b)) a0, mul_lt_mul_of_pos_right hc g0]
  have n1 : Near ε (43 / 10) (√S) (√S') (√S) := ⟨(abs_of_pos g0).le, by rw [← mul_assoc]; exact r⟩
  have n2 := (n1.rnd' hr h0 h1 (by norm_num)).mono h0 (show _ ≤ 11 / 2 by norm_num)
  obtain ⟨E0, i1, _⟩ := near_inv h0 h1 (k := 11 / 2) (by norm_num) (by norm_num) g0 (by rw [mul_assoc]; exact n2.2)
  have n3 : Near ε (572 / 100) |c / √S| (c / rnd √S') (c / √S) := by
    refine ⟨le_rfl, ?_⟩
    have e : c / rnd √S' - c / √S = c / 2 * (2 / rnd √S' - 2 / √S) := by ring
    have e2 : |c / √S| = |c / 2| * (2 / √S) := by
      rw [← abs_of_pos (show 0 < 2 / √S by positivity), ← abs_mul]
      congr 1
      ring
    rw [e, abs_mul, e2]
    refine (mul_le_mul_of_nonneg_left i1 (abs_nonneg _)).trans ?_
    have : 0 ≤ ε * (|c / 2| * (2 / √S)) := by positivity
    nlinarith
  exact (n3.rnd' hr h0 h1 (by norm_num)).mono h0 (by norm_num)

/-! ### The whole step -/

private theorem half_near (hr : Rounds ε rnd) (h0 : 0 ≤ ε) (h1 : ε ≤ 1 / 1000) (a : ℝ) : Near ε (21 / 10) |a / 2| (rnd (rnd a / 2)) (a / 2) := by
  have n : Near ε 1 |a / 2| (rnd a / 2) (a / 2) := by
    refine ⟨le_rfl, ?_⟩
    rw [← sub_div, abs_div, abs_div, abs_of_pos (by norm_num : (0 : ℝ) < 2)]
    have := hr a
    linarith
  exact (n.rnd' hr h0 h1 (by norm_num)).mono h0 (by norm_num)

private theorem kick_near (hr : Rounds ε rnd) (h0 : 0 ≤ ε) (h1 : ε ≤ 1 / 1000) {κ κ' : ℝ} (h : Near ε (21 / 10) |κ| κ' κ) (E : ℝ) :
    Near ε (16 / 5) |κ * E| (rnd (κ' * E)) (κ * E) := by
  rw [abs_mul]
  exact ((Near.mul h0 h1 (by norm_num) le_rfl h (near_refl (ε := ε) (le_refl |E|))).rnd' hr h0 h1 (by norm_num)).mono h0 (by norm_num)

private theorem half_momentum (hr : Rounds ε rnd) (h0 : 0 ≤ ε) (h1 : ε ≤ 1 / 1000) {a u u' P : ℝ} (hu : Near ε (16 / 5) |u| u' u) (hP : |a| + |u| ≤ P) :
    |rnd (a + u') - (a + u)| ≤ 5 * (ε * P) := by
  have d : |a + u' - (a + u)| ≤ 16 / 5 * (ε * P) := by
    rw [add_sub_add_left_eq_sub]
    exact hu.2.trans (mul_le_mul_of_nonneg_left (mul_le_mul_of_nonneg_left (by linarith [abs_nonneg a]) h0) (by norm_num))
  have P0 : 0 ≤ P := by linarith [abs_nonneg a, abs_nonneg u]
  refine (hr.near h0 d ((abs_add_le _ _).trans hP)).trans ?_
  have : ε * (ε * P) ≤ 1 / 1000 * (ε * P) := mul_le_mul_of_nonneg_right h1 (mul_nonneg h0 P0)
  nlinarith [mul_nonneg h0 P0]

private theorem t_near (hr : Rounds ε rnd) (h0 : 0 ≤ ε) (h1 : ε ≤ 1 / 1000) {κ κ' c mx my mz : ℝ} (h : Near ε (21 / 10) |κ| κ' κ) (B : ℝ) :
    let g := √(1 + (mx ^ 2 + my ^ 2 + mz ^ 2))
    Near ε 12 |κ * c * B / g| (rnd (rnd (κ' * cOverGamma rnd c mx my mz) * B)) (κ * c * B / g) := by
  intro g
  have e : κ * c * B / g = κ * (c / g) * B := by ring
  rw [e, abs_mul, abs_mul]
  have a := ((Near.mul h0 h1 (by norm_num) (by norm_num) h (cOverGamma_near hr h0 h1 c mx my mz)).rnd' hr h0 h1 (by norm_num)).mono h0
    (show _ ≤ 102 / 10 by norm_num)
  exact ((Near.mul h0 h1 (by norm_num) le_rfl a (near_refl (ε := ε) (le_refl |B|))).rnd' hr h0 h1 (by norm_num)).mono h0 (by norm_num)

set_option maxHeartbeats 1000000 in
private theorem component (hr : Rounds ε rnd) (h0 : 0 ≤ ε) (h1 : ε ≤ 1 / 1000) {P mx my mz nx ny nz bx b_y bz u u' tx' ty' tz' cs' : ℝ}
    (hx : |mx| ≤ P) (hy : |my| ≤ P) (hz : |mz| ≤ P) (dx : |nx - mx| ≤ 5 * (ε * P)) (dy : |ny - my| ≤ 5 * (ε * P)) (dz : |nz - mz| ≤ 5 * (ε * P))
    (hu : |u| ≤ P) (du : |u' - u| ≤ 16 / 5 * (ε * P)) {g h : ℝ} (hg : g = √(1 + (mx ^ 2 + my ^ 2 + mz ^ 2))) (hh : h = √(1 + (nx ^ 2 + ny ^ 2 + nz ^ 2)))
    (htx : Near ε 12 |bx / h| tx' (bx / h)) (hty : Near ε 12 |b_y / h| ty' (b_y / h)) (htz : Near ε 12 |bz / h| tz' (bz / h))
    (cs : Near ε 32 (2 / (1 + (bx / h) ^ 2 + (b_y / h) ^ 2 + (bz / h) ^ 2)) cs' (2 / (1 + (bx / h) ^ 2 + (b_y / h) ^ 2 + (bz / h) ^ 2))) :
    |rnd (cross rnd nx (cross rnd ny nz tx' nx tz') (rnd (cs' * tz')) (cross rnd nz nx ty' ny tx') (rnd (cs' * ty')) + u') -
      (rotX mx my mz (bx / g) (b_y / g) (bz / g) + u)| ≤ 800 * ε * P := by
  have P0 : 0 ≤ P := (abs_nonneg _).trans hx
  have E0 : 0 ≤ ε * P := mul_nonneg h0 P0
  have small : ε * P ≤ 1 / 1000 * P := mul_le_mul_of_nonneg_right h1 P0
  have up : ∀ {n m : ℝ}, |m| ≤ P → |n - m| ≤ 5 * (ε * P) → |n| ≤ 1005 / 1000 * P := by
    intro n m a b
    have := abs_sub_abs_le_abs_sub n m
    linarith
  have a := rotation' hr h0 h1 (up hx dx) (up hy dy) (up hz dz) htx hty htz cs
  have b := rotX_lip nx ny nz mx my mz bx b_y bz (d := 9 * (ε * P)) (by positivity) (by
    have sq : ∀ {q : ℝ}, |q| ≤ 5 * (ε * P) → q ^ 2 ≤ 25 * (ε * P) ^ 2 := by
      intro q hq
      have := sq_le_sq' (abs_le.mp hq).1 (abs_le.mp hq).2
      nlinarith
    nlinarith [sq dx, sq dy, sq dz, sq_nonneg (ε * P)])
  simp only [← hg, ← hh] at b
  have c := rotX_le (mx := mx) (my := my) (mz := mz) (tx := bx / g) (ty := b_y / g) (tz := bz / g) (N := 2 * P) (by positivity) (by
    have sq : ∀ {q : ℝ}, |q| ≤ P → q ^ 2 ≤ P ^ 2 := fun hq => sq_le_sq' (abs_le.mp hq).1 (abs_le.mp hq).2
    nlinarith [sq hx, sq hy, sq hz, sq_nonneg P])
  generalize rotX mx my mz (bx / g) (b_y / g) (bz / g) = R at *
  generalize rotX nx ny nz (bx / h) (b_y / h) (bz / h) = R' at *
  generalize cross rnd nx (cross rnd ny nz tx' nx tz') (rnd (cs' * tz')) (cross rnd nz nx ty' ny tx') (rnd (cs' * ty')) = X at *
  have d : |X + u' - (R + u)| ≤ 752 * (ε * P) := by
    have e : X + u' - (R + u) = (X - R') + (R' - R) + (u' - u) := by ring
    rw [e]
    refine (abs_add_three _ _ _).trans ?_
    nlinarith
  refine (hr.near h0 d (M := 3 * P) ((abs_add_le _ _).trans (by linarith))).trans ?_
  have : ε * (ε * P) ≤ 1 / 1000 * (ε * P) := mul_le_mul_of_nonneg_right h1 E0
  nlinarith

set_option maxHeartbeats 1000000 in
/-- The momentum push with rounding differs from the exact one by at most 800 units of rounding of the larger of the momentum and the momentum
given by the electric field, whatever the magnetic field. -/
theorem push_rounded (hr : Rounds ε rnd) (h0 : 0 ≤ ε) (h1 : ε ≤ 1 / 1000) (k : Const) (dt : ℝ) (f : EB ℝ) (p : Ph) {P : ℝ}
    (hx : |p.px| + |k.qmc * dt / 2 * f.ex| ≤ P) (hy : |p.py| + |k.qmc * dt / 2 * f.ey| ≤ P) (hz : |p.pz| + |k.qmc * dt / 2 * f.ez| ≤ P) :
    |(pushMomentum1 rnd k.c k.qmc dt f p).px - (Push.pushMomentum1 k dt f p).px| ≤ 800 * ε * P ∧
    |(pushMomentum1 rnd k.c k.qmc dt f p).py - (Push.pushMomentum1 k dt f p).py| ≤ 800 * ε * P ∧
    |(pushMomentum1 rnd k.c k.qmc dt f p).pz - (Push.pushMomentum1 k dt f p).pz| ≤ 800 * ε * P := by
  have K := half_near hr h0 h1 (k.qmc * dt)
  unfold pushMomentum1 Push.pushMomentum1
  dsimp only
  generalize rnd (rnd (k.qmc * dt) / 2) = κ' at *
  generalize k.qmc * dt / 2 = κ at *
  have ux := kick_near hr h0 h1 K f.ex
  have uy := kick_near hr h0 h1 K f.ey
  have uz := kick_near hr h0 h1 K f.ez
  generalize rnd (κ' * f.ex) = ux' at *
  generalize rnd (κ' * f.ey) = uy' at *
  generalize rnd (κ' * f.ez) = uz' at *
  generalize κ * f.ex = wx at *
  generalize κ * f.ey = wy at *
  generalize κ * f.ez = wz at *
  have P0 : 0 ≤ P := by linarith [abs_nonneg p.px, abs_nonneg wx]
  have dx := half_momentum hr h0 h1 ux hx
  have dy := half_momentum hr h0 h1 uy hy
  have dz := half_momentum hr h0 h1 uz hz
  have vx : |ux' - wx| ≤ 16 / 5 * (ε * P) := ux.2.trans (by nlinarith [mul_le_mul_of_nonneg_left (by linarith [abs_nonneg p.px] : |wx| ≤ P) h0])
  have vy : |uy' - wy| ≤ 16 / 5 * (ε * P) := uy.2.trans (by nlinarith [mul_le_mul_of_nonneg_left (by linarith [abs_nonneg p.py] : |wy| ≤ P) h0])
  have vz : |uz' - wz| ≤ 16 / 5 * (ε * P) := uz.2.trans (by nlinarith [mul_le_mul_of_nonneg_left (by linarith [abs_nonneg p.pz] : |wz| ≤ P) h0])
  have Wx : |wx| ≤ P := by linarith [abs_nonneg p.px]
  have Wy : |wy| ≤ P := by linarith [abs_nonneg p.py]
  have Wz : |wz| ≤ P := by linarith [abs_nonneg p.pz]
  have mX := (abs_add_le p.px wx).trans hx
  have mY := (abs_add_le p.py wy).trans hy
  have mZ := (abs_add_le p.pz wz).trans hz
  generalize rnd (p.px + ux') = nx at *
  generalize rnd (p.py + uy') = ny at *
  generalize rnd (p.pz + uz') = nz at *
  generalize p.px + wx = mx at *
  generalize p.py + wy = my at *
  generalize p.pz + wz = mz at *
  have tx := t_near hr h0 h1 (c := k.c) (mx := nx) (my := ny) (mz := nz) K f.bx
  have ty := t_near hr h0 h1 (c := k.c) (mx := nx) (my := ny) (mz := nz) K f.b_y
  have tz := t_near hr h0 h1 (c := k.c) (mx := nx) (my := ny) (mz := nz) K f.bz
  dsimp only at tx ty tz
  have cs := cs_near' hr h0 h1 tx ty tz
  generalize rnd (rnd (κ' * cOverGamma rnd k.c nx ny nz) * f.bx) = tx' at *
  generalize rnd (rnd (κ' * cOverGamma rnd k.c nx ny nz) * f.b_y) = ty' at *
  generalize rnd (rnd (κ' * cOverGamma rnd k.c nx ny nz) * f.bz) = tz' at *
  generalize rnd (2 / rnd (rnd (rnd (1 + rnd (tx' ^ 2)) + rnd (ty' ^ 2)) + rnd (tz' ^ 2))) = cs' at *
  have e : ∀ B g : ℝ, κ * (k.c / g) * B = κ * k.c * B / g := fun B g => by ring
  simp only [e]
  generalize κ * k.c * f.bx = bx at *
  generalize κ * k.c * f.b_y = b_y at *
  generalize κ * k.c * f.bz = bz at *
  obtain ⟨h, hh⟩ : ∃ h, h = √(1 + (nx ^ 2 + ny ^ 2 + nz ^ 2)) := ⟨_, rfl⟩
  obtain ⟨g, hg⟩ : ∃ g, g = √(1 + (mx ^ 2 + my ^ 2 + mz ^ 2)) := ⟨_, rfl⟩
  rw [← hh] at tx ty tz cs
  rw [← hg]
  have r1 : ∀ x y z : ℝ, 1 + (y ^ 2 + z ^ 2 + x ^ 2) = 1 + (x ^ 2 + y ^ 2 + z ^ 2) := fun x y z => by ring
  have r2 : ∀ x y z : ℝ, 1 + y ^ 2 + z ^ 2 + x ^ 2 = 1 + x ^ 2 + y ^ 2 + z ^ 2 := fun x y z => by ring
  refine ⟨component hr h0 h1 mX mY mZ dx dy dz Wx vx hg hh tx ty tz cs, ?_, ?_⟩
  · have q := component hr h0 h1 mY mZ mX dy dz dx Wy vy (bx := b_y) (b_y := bz) (bz := bx) (g := g) (h := h) (by rw [r1]; exact hg)
      (by rw [r1]; exact hh) ty tz tx (by rw [r2]; exact cs)
    unfold rotX at q
    rw [r2] at q
    exact q
  · have q := component hr h0 h1 mZ mX mY dz dx dy Wz vz (bx := bz) (b_y := bx) (bz := b_y) (g := g) (h := h) (by rw [r1, r1]; exact hg)
      (by rw [r1, r1]; exact hh) tz tx ty (by rw [r2, r2]; exact cs)
    unfold rotX at q
    rw [r2, r2] at q
    exact q

/-- The half position push with rounding: 12 units of rounding of the path of light, and the rounding of the position. -/
theorem halfPush_rounded (hr : Rounds ε rnd) (h0 : 0 ≤ ε) (h1 : ε ≤ 1 / 1000) (k : Const) (dt : ℝ) (p : Ph) :
    |(halfPush1 rnd k.c dt p).x - (Push.halfPush1 k dt p).x| ≤ ε * |p.x| + 12 * ε * |k.c * dt| ∧
    |(halfPush1 rnd k.c dt p).y - (Push.halfPush1 k dt p).y| ≤ ε * |p.y| + 12 * ε * |k.c * dt| ∧
    |(halfPush1 rnd k.c dt p).xi - (Push.halfPush1 k dt p).xi| ≤ ε * |p.xi| + 12 * ε * |k.c * dt| := by
  have G := cOverGamma_near hr h0 h1 k.c p.px p.py p.pz
  unfold halfPush1 Push.halfPush1
  dsimp only
  generalize cOverGamma rnd k.c p.px p.py p.pz = cg' at *
  set γ := √(1 + (p.px ^ 2 + p.py ^ 2 + p.pz ^ 2)) with hγ
  have γ0 : 0 < γ := Real.sqrt_pos.mpr (by positivity)
  have γ2 : γ ^ 2 = 1 + (p.px ^ 2 + p.py ^ 2 + p.pz ^ 2) := Real.sq_sqrt (by positivity)
  have slow : ∀ {q : ℝ}, q ^ 2 ≤ γ ^ 2 → |q| * |k.c / γ| ≤ |k.c| := by
    intro q hq
    have := abs_le_of_sq_le_sq hq γ0.le
    rw [abs_div, abs_of_pos γ0, ← mul_div_assoc, div_le_iff₀ γ0, mul_comm]
    exact mul_le_mul_of_nonneg_left this (abs_nonneg _)
  have sx := slow (q := p.px) (by rw [γ2]; nlinarith [sq_nonneg p.py, sq_nonneg p.pz])
  have sy := slow (q := p.py) (by rw [γ2]; nlinarith [sq_nonneg p.px, sq_nonneg p.pz])
  have sz := slow (q := p.pz) (by rw [γ2]; nlinarith [sq_nonneg p.py, sq_nonneg p.px])
  clear_value γ
  have L0 : 0 ≤ |k.c * dt| := abs_nonneg _
  have EL : 0 ≤ ε * |k.c * dt| := mul_nonneg h0 L0
  have fin : ∀ {x u u' : ℝ}, Near ε (21 / 2) |k.c * dt| u' u → |rnd (x + u') - (x + u)| ≤ ε * |x| + 12 * ε * |k.c * dt| := by
    intro x u u' h
    have d : |x + u' - (x + u)| ≤ 21 / 2 * (ε * |k.c * dt|) := by rw [add_sub_add_left_eq_sub]; exact h.2
    refine (hr.near h0 d ((abs_add_le _ _).trans (add_le_add le_rfl h.1))).trans ?_
    have : ε * (ε * |k.c * dt|) ≤ 1 / 1000 * (ε * |k.c * dt|) := mul_le_mul_of_nonneg_right h1 EL
    nlinarith
  have trans : ∀ {q : ℝ}, |q| * |k.c / γ| ≤ |k.c| →
      Near ε (21 / 2) |k.c * dt| (rnd (rnd (rnd (1 / 2 * q) * dt) * cg')) (1 / 2 * q * dt * (k.c / γ)) := by
    intro q hq
    have a := ((near_refl (ε := ε) (le_refl |1 / 2 * q|)).rnd' hr h0 h1 le_rfl)
    have b := (Near.mul h0 h1 (by norm_num) le_rfl a (near_refl (ε := ε) (le_refl |dt|))).rnd' hr h0 h1 (by norm_num)
    have c := ((Near.mul h0 h1 (by norm_num) (by norm_num) b G).rnd' hr h0 h1 (by norm_num)).mono h0 (show _ ≤ 21 / 2 by norm_num)
    refine c.mono' h0 (by norm_num) ?_
    rw [abs_mul (1 / 2) q, abs_mul k.c dt, abs_of_pos (by norm_num : (0 : ℝ) < 1 / 2)]
    have := mul_le_mul_of_nonneg_right hq (abs_nonneg dt)
    nlinarith [mul_nonneg (abs_nonneg k.c) (abs_nonneg dt)]
  refine ⟨fin (trans sx), fin (trans sy), fin ?_⟩
  have a : Near ε (81 / 10) |k.c| (rnd (p.pz * cg')) (p.pz * (k.c / γ)) :=
    (((Near.mul h0 h1 le_rfl (by norm_num) (near_refl (ε := ε) (le_refl |p.pz|)) G).rnd' hr h0 h1 (by norm_num)).mono h0 (by norm_num)).mono' h0
      (by norm_num) sz
  have b : Near ε (405 / 100) (2 * |k.c|) (rnd (p.pz * cg') - k.c) (p.pz * (k.c / γ) - k.c) := by
    refine ⟨(abs_sub _ _).trans (by linarith [a.1]), ?_⟩
    rw [sub_sub_sub_cancel_right]
    exact a.2.trans (by nlinarith)
  have c := (b.rnd' hr h0 h1 (by norm_num)).mono h0 (show _ ≤ (51 / 10 : ℝ) by norm_num)
  have d := (Near.mul h0 h1 le_rfl (by norm_num) (near_refl (ε := ε) (le_refl |(1 / 2 : ℝ)|)) c).rnd' hr h0 h1 (by norm_num)
  have e := (((Near.mul h0 h1 (by norm_num) le_rfl d (near_refl (ε := ε) (le_refl |dt|))).rnd' hr h0 h1 (by norm_num))).mono h0
    (show _ ≤ (21 / 2 : ℝ) by norm_num)
  refine e.mono' h0 (by norm_num) (le_of_eq ?_)
  rw [abs_mul k.c dt, abs_of_pos (by norm_num : (0 : ℝ) < 1 / 2)]
  ring

/-- Non-vacuity: an electron with `γ ≈ 1000` in a strong field, numbers of 64 bits. -/
example : let k : Const := ⟨1, 1, 1⟩
    let f : EB ℝ := ⟨3, -2, 1, 100, 200, -300⟩
    let p : Ph := ⟨1, 2, 3, 4, 5, 1000⟩
    let q := pushMomentum1 (fun x => (1 + 1 / 2 ^ 53) * x) k.c k.qmc 2 f p
    |q.pz - (Push.pushMomentum1 k 2 f p).pz| ≤ 1 / 10 ^ 10 := by
  intro k f p q
  have hr : Rounds (1 / 2 ^ 53) (fun x => (1 + 1 / 2 ^ 53) * x) := by
    intro x
    have e : (1 + 1 / 2 ^ 53) * x - x = 1 / 2 ^ 53 * x := by ring
    rw [e, abs_mul, abs_of_nonneg (by norm_num : (0 : ℝ) ≤ 1 / 2 ^ 53)]
  refine (push_rounded hr (by norm_num) (by norm_num) k 2 f p (P := 1001) ?_ ?_ ?_).2.2.trans (by norm_num) <;>
    norm_num [k, f, p, Const.qmc]

end WakeT.Push.Rounded
