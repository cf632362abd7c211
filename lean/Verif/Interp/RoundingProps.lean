import Verif.Interp.Rounding
import Verif.Interp.Spec
import Verif.Base.Rounding

/-! # Accuracy and memory safety of the gathering functions with rounding -/

set_option linter.unusedSectionVars false

namespace WakeT.Interp.Rounded

open WakeT.Base

variable {rnd : ℝ → ℝ} {ε : ℝ}

/-! ### Linear interpolation between integers -/

private noncomputable def J (f : ℤ → ℝ) (x : ℝ) : ℝ := (⌊x⌋ + 1 - x) * f ⌊x⌋ + (x - ⌊x⌋) * f (⌊x⌋ + 1)

private theorem J_abs {f : ℤ → ℝ} {M : ℝ} (hf : ∀ k, |f k| ≤ M) (x : ℝ) : |J f x| ≤ M := by
  have a := Int.floor_le x
  have b := Int.lt_floor_add_one x
  have h1 := abs_le.mp (hf ⌊x⌋)
  have h2 := abs_le.mp (hf (⌊x⌋ + 1))
  unfold J
  refine abs_le.mpr ⟨?_, ?_⟩ <;> nlinarith

private theorem J_diff (f g : ℤ → ℝ) (x : ℝ) : J f x - J g x = J (fun k => f k - g k) x := by unfold J; ring

private theorem J_lip' {f : ℤ → ℝ} {M : ℝ} (hf : ∀ k, |f k| ≤ M) {x y : ℝ} (h : x ≤ y) : |J f x - J f y| ≤ 2 * M * (y - x) := by
  have M0 : 0 ≤ M := (abs_nonneg _).trans (hf 0)
  rcases le_or_gt 1 (y - x) with h1 | h1
  · have a := abs_le.mp (J_abs hf x)
    have b := abs_le.mp (J_abs hf y)
    refine abs_le.mpr ⟨?_, ?_⟩ <;> nlinarith
  · have a := Int.floor_le x
    have b := Int.lt_floor_add_one x
    have c := Int.floor_le y
    have d := Int.lt_floor_add_one y
    have m : ⌊x⌋ ≤ ⌊y⌋ := Int.floor_le_floor h
    have m' : ⌊y⌋ ≤ ⌊x⌋ + 1 := by
      have : (⌊y⌋ : ℝ) < ⌊x⌋ + 2 := by linarith
      have : ⌊y⌋ < ⌊x⌋ + 2 := by exact_mod_cast this
      omega
    have h0 := abs_le.mp (hf ⌊x⌋)
    have h2 := abs_le.mp (hf (⌊x⌋ + 1))
    have h3 := abs_le.mp (hf (⌊x⌋ + 1 + 1))
    rcases (by omega : ⌊y⌋ = ⌊x⌋ ∨ ⌊y⌋ = ⌊x⌋ + 1) with e | e
    · unfold J
      rw [e]
      have e2 : (⌊x⌋ + 1 - x) * f ⌊x⌋ + (x - ⌊x⌋) * f (⌊x⌋ + 1) - ((⌊x⌋ + 1 - y) * f ⌊x⌋ + (y - ⌊x⌋) * f (⌊x⌋ + 1)) =
        (f ⌊x⌋ - f (⌊x⌋ + 1)) * (y - x) := by ring
      rw [e2]
      refine abs_le.mpr ⟨?_, ?_⟩ <;> nlinarith
    · have e' : (⌊y⌋ : ℝ) = ⌊x⌋ + 1 := by exact_mod_cast e
      rw [e'] at c d
      unfold J
      rw [e', e]
      have e2 : (⌊x⌋ + 1 - x) * f ⌊x⌋ + (x - ⌊x⌋) * f (⌊x⌋ + 1) -
          ((⌊x⌋ + 1 + 1 - y) * f (⌊x⌋ + 1) + (y - (⌊x⌋ + 1)) * f (⌊x⌋ + 1 + 1)) =
        (f ⌊x⌋ - f (⌊x⌋ + 1)) * (⌊x⌋ + 1 - x) + (f (⌊x⌋ + 1) - f (⌊x⌋ + 1 + 1)) * (y - (⌊x⌋ + 1)) := by ring
      rw [e2]
      refine abs_le.mpr ⟨?_, ?_⟩ <;> nlinarith

private theorem J_lip {f : ℤ → ℝ} {M : ℝ} (hf : ∀ k, |f k| ≤ M) (x y : ℝ) : |J f x - J f y| ≤ 2 * M * |x - y| := by
  rcases le_total x y with h | h
  · rw [abs_of_nonpos (sub_nonpos.mpr h), neg_sub]; exact J_lip' hf h
  · rw [abs_of_nonneg (sub_nonneg.mpr h), abs_sub_comm]; exact J_lip' hf h

/-- The values of the array; below the axis those of the first cell, with a sign. -/
private noncomputable def F (a : Arr ℝ) (sign : ℝ) (i j : ℤ) : ℝ :=
  if 0 ≤ i ∧ i < a.ni ∧ 0 ≤ j ∧ j < a.nj then (if j = 1 then a.val i 2 * sign else a.val i j) else 0

private noncomputable def G (a : Arr ℝ) (sign x y : ℝ) : ℝ := J (fun j => J (fun i => F a sign i j) x) y

/-- All entries of the array are at most `M`. -/
def Within (a : Arr ℝ) (M : ℝ) : Prop := ∀ i j : ℤ, 0 ≤ i → i < a.ni → 0 ≤ j → j < a.nj → |a.val i j| ≤ M

private theorem F_abs {a : Arr ℝ} {M : ℝ} (ha : Within a M) (M0 : 0 ≤ M) (hn : 2 < a.nj) {s : ℝ} (hs : |s| ≤ 1) (i j : ℤ) : |F a s i j| ≤ M := by
  unfold F
  split_ifs with h h'
  · rw [abs_mul]
    have := ha i 2 h.1 h.2.1 (by norm_num) (by exact_mod_cast hn)
    nlinarith [abs_nonneg (a.val i 2), abs_nonneg s]
  · exact ha i j h.1 h.2.1 h.2.2.1 h.2.2.2
  · simpa using M0

private theorem G_abs {a : Arr ℝ} {M : ℝ} (ha : Within a M) (M0 : 0 ≤ M) (hn : 2 < a.nj) {s : ℝ} (hs : |s| ≤ 1) (x y : ℝ) : |G a s x y| ≤ M :=
  J_abs (fun _ => J_abs (fun _ => F_abs ha M0 hn hs _ _) _) _

private theorem G_lip {a : Arr ℝ} {M : ℝ} (ha : Within a M) (M0 : 0 ≤ M) (hn : 2 < a.nj) {s : ℝ} (hs : |s| ≤ 1) (x y x' y' : ℝ) :
    |G a s x y - G a s x' y'| ≤ 2 * M * |x - x'| + 2 * M * |y - y'| := by
  have h1 : |G a s x y - G a s x' y| ≤ 2 * M * |x - x'| := by
    unfold G
    rw [J_diff]
    exact J_abs (fun j => J_lip (fun i => F_abs ha M0 hn hs i j) x x') y
  have h2 : |G a s x' y - G a s x' y'| ≤ 2 * M * |y - y'| :=
    J_lip (fun j => J_abs (fun i => F_abs ha M0 hn hs i j) x') y y'
  exact (abs_sub_le _ (G a s x' y) _).trans (add_le_add h1 h2)

/-! ### Weights -/

private theorem rnd_k (hr : Rounds ε rnd) (h0 : 0 ≤ ε) (h1 : ε ≤ 1 / 1000) {x y k c M : ℝ} (M0 : 0 ≤ M) (hk : 0 ≤ k)
    (h : |x - y| ≤ k * (ε * M)) (hM : |y| ≤ c * M) : |rnd x - y| ≤ (k + c + k / 1000) * (ε * M) := by
  have := hr.near h0 h hM
  have : ε * (k * (ε * M)) ≤ 1 / 1000 * (k * (ε * M)) := mul_le_mul_of_nonneg_right h1 (by positivity)
  nlinarith

private theorem mul_k (h0 : 0 ≤ ε) (h1 : ε ≤ 1 / 1000) {x y x' y' k k' M : ℝ} (M0 : 0 ≤ M) (hk : 0 ≤ k) (hk' : 0 ≤ k')
    (h : |x - y| ≤ k * ε) (h' : |x' - y'| ≤ k' * (ε * M)) (hy : |y| ≤ 1) (hy' : |y'| ≤ M) :
    |x * x' - y * y'| ≤ (k + k' + k * k' / 1000) * (ε * M) := by
  have := mul_near h h' hy hy'
  have h2 : ε * (k * k' * (ε * M)) ≤ 1 / 1000 * (k * k' * (ε * M)) := mul_le_mul_of_nonneg_right h1 (by positivity)
  nlinarith

private theorem add_k {x y x' y' k k' d : ℝ} (h : |x - y| ≤ k * d) (h' : |x' - y'| ≤ k' * d) : |x + x' - (y + y')| ≤ (k + k') * d := by
  have e : x + x' - (y + y') = (x - y) + (x' - y') := by ring
  rw [e, add_mul]
  exact (abs_add_le _ _).trans (add_le_add h h')

/-- Interpolation with rounded weights and values. -/
private theorem mix (hr : Rounds ε rnd) (h0 : 0 ≤ ε) (h1 : ε ≤ 1 / 1000) {u l u' l' p q p' q' k k' M : ℝ} (M0 : 0 ≤ M) (hk : 0 ≤ k) (hk' : 0 ≤ k')
    (hu : 0 ≤ u) (hl : 0 ≤ l) (hul : u + l = 1) (hu' : |u' - u| ≤ 1 * ε) (hl' : |l' - l| ≤ k * ε)
    (hp : |p| ≤ M) (hq : |q| ≤ M) (hp' : |p' - p| ≤ k' * (ε * M)) (hq' : |q' - q| ≤ k' * (ε * M)) :
    |rnd (rnd (u' * p') + rnd (l' * q')) - (u * p + l * q)| ≤ (41 / 10 + 3 / 2 * k + 5 / 2 * k' + k * k' / 500) * (ε * M) := by
  have E0 : 0 ≤ ε * M := mul_nonneg h0 M0
  have hu1 : |u| ≤ 1 := abs_le.mpr ⟨by linarith, by linarith⟩
  have hl1 : |l| ≤ 1 := abs_le.mpr ⟨by linarith, by linarith⟩
  have c1 : |u * p| ≤ 1 * M := by rw [abs_mul]; exact mul_le_mul hu1 hp (abs_nonneg _) zero_le_one
  have c2 : |l * q| ≤ 1 * M := by rw [abs_mul]; exact mul_le_mul hl1 hq (abs_nonneg _) zero_le_one
  have c3 : |u * p + l * q| ≤ 1 * M := by
    have := abs_le.mp hp
    have := abs_le.mp hq
    refine abs_le.mpr ⟨by nlinarith, by nlinarith⟩
  have a := rnd_k hr h0 h1 M0 (by positivity) (mul_k h0 h1 M0 zero_le_one hk' hu' hp' hu1 hp) c1
  have b := rnd_k hr h0 h1 M0 (by positivity) (mul_k h0 h1 M0 hk hk' hl' hq' hl1 hq) c2
  have c := rnd_k hr h0 h1 M0 (by positivity) (add_k a b) c3
  refine c.trans (mul_le_mul_of_nonneg_right ?_ E0)
  nlinarith [mul_nonneg hk hk']

/-- The value computed from the rounded position, against the interpolation at that position. -/
private theorem cellInterp_near (hr : Rounds ε rnd) (h0 : 0 ≤ ε) (h1 : ε ≤ 1 / 1000) {b : Box} {nz nr : ℕ} {a : Arr ℝ} (ha : OnGrid a nz nr) {M : ℝ}
    (hM : Within a M) (M0 : 0 ≤ M) {s : ℝ} (hs : |s| ≤ 1) {r z : ℝ} {X Y : ℝ} (hY : cell rnd r b.rMin b.dr = Y) (hX : cell rnd z b.zMin b.dz = X)
    (hx1 : 1 ≤ X) (hx2 : X < nz + 3) (hy1 : 1 ≤ Y) (hy2 : Y < nr + 3) :
    ∃ v, cellInterp rnd b s a r z = some v ∧ |v - G a s X Y| ≤ 30 * (ε * M) := by
  obtain ⟨ni, nj⟩ := ha
  have hj : 2 < a.nj := by omega
  have i1 : 1 ≤ ⌊X⌋ := Int.le_floor.mpr (by exact_mod_cast hx1)
  have i2 : ⌊X⌋ < nz + 3 := Int.floor_lt.mpr (by exact_mod_cast hx2)
  have j1 : 1 ≤ ⌊Y⌋ := Int.le_floor.mpr (by exact_mod_cast hy1)
  have j2 : ⌊Y⌋ < nr + 3 := Int.floor_lt.mpr (by exact_mod_cast hy2)
  have fx := Int.floor_le X
  have fx' := Int.lt_floor_add_one X
  have fy := Int.floor_le Y
  have fy' := Int.lt_floor_add_one Y
  have g : ∀ i j : ℤ, 0 ≤ i → i < nz + 4 → 0 ≤ j → j < nr + 4 → a.get i j = some (a.val i j) := by
    intro i j a1 a2 a3 a4
    exact a.get_some a1 (by omega) a3 (by omega)
  have Fe : ∀ i j : ℤ, 0 ≤ i → i < nz + 4 → 0 ≤ j → j < nr + 4 → F a s i j = if j = 1 then a.val i 2 * s else a.val i j := by
    intro i j a1 a2 a3 a4
    unfold F
    exact if_pos ⟨a1, by omega, a3, by omega⟩
  have key : ∃ jl corr, (if ⌊Y⌋ < 2 then ((2 : ℤ), s) else (⌊Y⌋, 1)) = (jl, corr) ∧ 0 ≤ jl ∧ jl < nr + 4 ∧
      ∀ i : ℤ, 0 ≤ i → i < nz + 4 → a.val i jl * corr = F a s i ⌊Y⌋ := by
    by_cases h : ⌊Y⌋ < 2
    · refine ⟨2, s, if_pos h, by omega, by omega, fun i a1 a2 => ?_⟩
      rw [Fe i _ a1 a2 (by omega) (by omega), if_pos (by omega)]
    · refine ⟨⌊Y⌋, 1, if_neg h, by omega, by omega, fun i a1 a2 => ?_⟩
      rw [Fe i _ a1 a2 (by omega) (by omega), if_neg (by omega), mul_one]
  obtain ⟨jl, corr, e, b1, b2, b3⟩ := key
  have b4 : ∀ i : ℤ, 0 ≤ i → i < nz + 4 → a.val i (⌊Y⌋ + 1) = F a s i (⌊Y⌋ + 1) := by
    intro i a1 a2
    rw [Fe i _ a1 a2 (by omega) (by omega), if_neg (by omega)]
  unfold cellInterp
  simp only [hX, hY, e]
  simp only [g ⌊X⌋ jl (by omega) (by omega) b1 b2, g ⌊X⌋ (⌊Y⌋ + 1) (by omega) (by omega) (by omega) (by omega),
    g (⌊X⌋ + 1) jl (by omega) (by omega) b1 b2, g (⌊X⌋ + 1) (⌊Y⌋ + 1) (by omega) (by omega) (by omega) (by omega), Option.bind_eq_bind,
    Option.bind_some, b3 ⌊X⌋ (by omega) (by omega), b3 (⌊X⌋ + 1) (by omega) (by omega), b4 ⌊X⌋ (by omega) (by omega),
    b4 (⌊X⌋ + 1) (by omega) (by omega)]
  refine ⟨_, rfl, ?_⟩
  have Fa := F_abs hM M0 hj hs
  push_cast
  have wu : |rnd ((⌊X⌋ : ℝ) + 1 - X) - (⌊X⌋ + 1 - X)| ≤ 1 * ε := by
    refine (hr _).trans ?_
    rw [abs_of_nonneg (by linarith)]
    nlinarith
  have wl : |rnd (X - ⌊X⌋) - (X - ⌊X⌋)| ≤ 1 * ε := by
    refine (hr _).trans ?_
    rw [abs_of_nonneg (by linarith)]
    nlinarith
  have vu : |rnd ((⌊Y⌋ : ℝ) + 1 - Y) - (⌊Y⌋ + 1 - Y)| ≤ 1 * ε := by
    refine (hr _).trans ?_
    rw [abs_of_nonneg (by linarith)]
    nlinarith
  have vl : |rnd (1 - rnd ((⌊Y⌋ : ℝ) + 1 - Y)) - (Y - ⌊Y⌋)| ≤ 21 / 10 * ε := by
    have h : |1 - rnd ((⌊Y⌋ : ℝ) + 1 - Y) - (Y - ⌊Y⌋)| ≤ ε := by
      have e : 1 - rnd ((⌊Y⌋ : ℝ) + 1 - Y) - (Y - ⌊Y⌋) = -(rnd ((⌊Y⌋ : ℝ) + 1 - Y) - (⌊Y⌋ + 1 - Y)) := by ring
      rw [e, abs_neg]
      linarith
    have := hr.near h0 h (M := 1) (abs_le.mpr ⟨by linarith, by linarith⟩)
    nlinarith
  have m : ∀ j, |rnd (rnd (rnd ((⌊X⌋ : ℝ) + 1 - X) * F a s ⌊X⌋ j) + rnd (rnd (X - ⌊X⌋) * F a s (⌊X⌋ + 1) j)) - J (fun i => F a s i j) X| ≤
      6 * (ε * M) := by
    intro j
    have := mix hr h0 h1 M0 zero_le_one le_rfl (by linarith : (0 : ℝ) ≤ ⌊X⌋ + 1 - X) (by linarith : (0 : ℝ) ≤ X - ⌊X⌋) (by ring) wu wl
      (Fa ⌊X⌋ j) (Fa (⌊X⌋ + 1) j) (p' := F a s ⌊X⌋ j) (q' := F a s (⌊X⌋ + 1) j) (by simp) (by simp)
    refine this.trans (mul_le_mul_of_nonneg_right (by norm_num) (mul_nonneg h0 M0))
  have Ja : ∀ j, |J (fun i => F a s i j) X| ≤ M := fun j => J_abs (fun i => Fa i j) X
  have := mix hr h0 h1 M0 (k := 21 / 10) (k' := 6) (by norm_num) (by norm_num) (by linarith : (0 : ℝ) ≤ ⌊Y⌋ + 1 - Y)
    (by linarith : (0 : ℝ) ≤ Y - ⌊Y⌋) (by ring) vu vl (Ja _) (Ja _) (m ⌊Y⌋) (m (⌊Y⌋ + 1))
  refine this.trans (mul_le_mul_of_nonneg_right (by norm_num) (mul_nonneg h0 M0))

/-! ### Positions -/

private theorem radius_near (hr : Rounds ε rnd) (h0 : 0 ≤ ε) (h1 : ε ≤ 1 / 1000) (x y : ℝ) :
    |radius rnd x y - √(x ^ 2 + y ^ 2)| ≤ 5 * ε * √(x ^ 2 + y ^ 2) := by
  set S := x ^ 2 + y ^ 2 with hS
  have S0 : 0 ≤ S := by positivity
  have a := hr (x ^ 2)
  have b := hr (y ^ 2)
  rw [abs_of_nonneg (sq_nonneg x)] at a
  rw [abs_of_nonneg (sq_nonneg y)] at b
  have c : |rnd (x ^ 2) + rnd (y ^ 2) - S| ≤ ε * S := by
    have e : rnd (x ^ 2) + rnd (y ^ 2) - S = (rnd (x ^ 2) - x ^ 2) + (rnd (y ^ 2) - y ^ 2) := by rw [hS]; ring
    rw [e]
    refine (abs_add_le _ _).trans ((add_le_add a b).trans (le_of_eq ?_))
    rw [hS]; ring
  have d := hr.near h0 c (M := S) (abs_of_nonneg S0).le
  have d' : |rnd (rnd (x ^ 2) + rnd (y ^ 2)) - S| ≤ 3 * ε * S := by
    refine d.trans ?_
    nlinarith [mul_nonneg h0 S0, mul_nonneg (mul_nonneg h0 S0) (by linarith : 0 ≤ 1 / 1000 - ε)]
  unfold radius
  set T := rnd (rnd (x ^ 2) + rnd (y ^ 2))
  obtain ⟨t1, t2⟩ := abs_le.mp d'
  have s0 := Real.sqrt_nonneg S
  have u : |√T - √S| ≤ 3 * ε * √S := by
    have T0 : 0 ≤ T := by nlinarith
    have tt := Real.sqrt_nonneg T
    have e1 := Real.sq_sqrt S0
    have e2 := Real.sq_sqrt T0
    refine abs_le.mpr ⟨?_, ?_⟩
    · by_contra hc
      push Not at hc
      nlinarith [mul_nonneg h0 s0]
    · by_contra hc
      push Not at hc
      nlinarith [mul_nonneg h0 s0]
  have v := hr.near h0 u (M := √S) (abs_of_nonneg s0).le
  refine v.trans ?_
  nlinarith [mul_nonneg h0 s0, mul_nonneg (mul_nonneg h0 s0) (by linarith : 0 ≤ 1 / 1000 - ε)]

/-- A position in cell units. -/
private theorem cell_near (hr : Rounds ε rnd) (h0 : 0 ≤ ε) (h1 : ε ≤ 1 / 1000) {x x' xMin dx δ N : ℝ} (hd : 0 < dx) (hx : |x' - x| ≤ δ * dx)
    (hN : |(x - xMin) / dx| ≤ N) : |cell rnd x' xMin dx - ((x - xMin) / dx + 2)| ≤ 2 * δ + 4 * ε * (N + 2) := by
  have δ0 : 0 ≤ δ := by
    have := (abs_nonneg _).trans hx
    exact nonneg_of_mul_nonneg_left this hd
  have N0 : 0 ≤ N := (abs_nonneg _).trans hN
  have a1 : |x' - xMin - (x - xMin)| ≤ δ * dx := by rw [sub_sub_sub_cancel_right]; exact hx
  have a2 : |x - xMin| ≤ N * dx := by
    rw [abs_div, abs_of_pos hd, div_le_iff₀ hd] at hN
    exact hN
  have a := hr.near h0 a1 a2
  have b1 : |rnd (x' - xMin) / dx - (x - xMin) / dx| ≤ δ + ε * (N + δ) := by
    rw [← sub_div, abs_div, abs_of_pos hd, div_le_iff₀ hd]
    linarith
  have b := hr.near h0 b1 hN
  have c1 : |rnd (rnd (x' - xMin) / dx) + 2 - ((x - xMin) / dx + 2)| ≤ δ + ε * (N + δ) + ε * (N + (δ + ε * (N + δ))) := by
    rw [add_sub_add_right_eq_sub]
    exact b
  have c2 : |(x - xMin) / dx + 2| ≤ N + 2 := by
    refine (abs_add_le _ _).trans ?_
    rw [abs_of_pos (by norm_num : (0 : ℝ) < 2)]
    linarith
  have c := hr.near h0 c1 c2
  unfold cell
  refine c.trans ?_
  have eN := mul_nonneg h0 N0
  have ed := mul_nonneg h0 δ0
  have q1 : ε * (ε * N) ≤ 1 / 1000 * (ε * N) := mul_le_mul_of_nonneg_right h1 eN
  have q2 : ε * (ε * δ) ≤ 1 / 1000 * (ε * δ) := mul_le_mul_of_nonneg_right h1 ed
  have q3 : ε * (ε * (ε * N)) ≤ 1 / 1000 * (ε * (ε * N)) := mul_le_mul_of_nonneg_right h1 (mul_nonneg h0 eN)
  have q4 : ε * (ε * (ε * δ)) ≤ 1 / 1000 * (ε * (ε * δ)) := mul_le_mul_of_nonneg_right h1 (mul_nonneg h0 ed)
  have q5 : ε * δ ≤ 1 / 1000 * δ := mul_le_mul_of_nonneg_right h1 δ0
  nlinarith

/-- The box belongs to a grid of `nz` by `nr` points: the first radial point is half a cell from the axis, and the last points are where
they should be to within half a cell.  The rounding error over the grid is at most a thousandth of a cell. -/
structure Fits (ε : ℝ) (b : Box) (nz nr : ℕ) : Prop where
  dz : 0 < b.dz
  dr : 0 < b.dr
  rMin : b.rMin = b.dr / 2
  zMax : b.zMax ≤ b.zMin + ((nz : ℝ) - 1 / 2) * b.dz
  rMax : b.rMax ≤ nr * b.dr
  size : 1000 * ε * (nz + nr + 3) ≤ 1

/-- The computed value against the interpolation at the exact position. -/
private theorem cellInterp_pos (hr : Rounds ε rnd) (h0 : 0 ≤ ε) (h1 : ε ≤ 1 / 1000) {b : Box} {nz nr : ℕ} (hb : Fits ε b nz nr) {a : Arr ℝ}
    (ha : OnGrid a nz nr) {M : ℝ} (hM : Within a M) (M0 : 0 ≤ M) {s : ℝ} (hs : |s| ≤ 1) {r r' z : ℝ} (r0 : 0 ≤ r) (h : b.Has r z)
    (hrr : |r' - r| ≤ 5 * ε * r) :
    ∃ v, cellInterp rnd b s a r' z = some v ∧
      |v - G a s ((z - b.zMin) / b.dz + 2) ((r - b.rMin) / b.dr + 2)| ≤ 30 * (nz + nr + 3) * (ε * M) := by
  obtain ⟨z1, z2, r2⟩ := h
  have dz := hb.dz
  have dr := hb.dr
  have nr0 : (0 : ℝ) ≤ nr := Nat.cast_nonneg _
  have nz0 : (0 : ℝ) ≤ nz := Nat.cast_nonneg _
  have sz := hb.size
  have X0 : 0 ≤ (z - b.zMin) / b.dz := div_nonneg (by linarith) dz.le
  have X1 : (z - b.zMin) / b.dz ≤ nz - 1 / 2 := by
    rw [div_le_iff₀ dz]
    have := hb.zMax
    linarith
  have Y0 : -(1 / 2) ≤ (r - b.rMin) / b.dr := by
    rw [hb.rMin, le_div_iff₀ dr]
    linarith
  have Y1 : (r - b.rMin) / b.dr ≤ nr - 1 / 2 := by
    rw [hb.rMin, div_le_iff₀ dr]
    have := hb.rMax
    linarith
  have cx := cell_near hr h0 h1 dz (x := z) (x' := z) (xMin := b.zMin) (δ := 0) (N := nz) (by simp) (abs_le.mpr ⟨by linarith, by linarith⟩)
  have hR : r ≤ nr * b.dr := r2.trans hb.rMax
  have cy := cell_near hr h0 h1 dr (x := r) (x' := r') (xMin := b.rMin) (δ := 5 * ε * nr) (N := nr + 1) (by
      refine hrr.trans ?_
      have := mul_le_mul_of_nonneg_left hR (by linarith : 0 ≤ 5 * ε)
      linarith) (abs_le.mpr ⟨by linarith, by linarith⟩)
  have ez : 0 ≤ ε * nz := mul_nonneg h0 nz0
  have er : 0 ≤ ε * nr := mul_nonneg h0 nr0
  have cx' := abs_le.mp cx
  have cy' := abs_le.mp cy
  have near := cellInterp_near hr h0 h1 (b := b) ha hM M0 hs (r := r') (z := z) rfl rfl (by linarith) (by linarith) (by linarith) (by linarith)
  obtain ⟨v, e, hv⟩ := near
  refine ⟨v, e, ?_⟩
  have hj : 2 < a.nj := by have := ha.2; omega
  have lip := G_lip hM M0 hj hs (cell rnd z b.zMin b.dz) (cell rnd r' b.rMin b.dr) ((z - b.zMin) / b.dz + 2) ((r - b.rMin) / b.dr + 2)
  have t := abs_sub_le v (G a s (cell rnd z b.zMin b.dz) (cell rnd r' b.rMin b.dr)) (G a s ((z - b.zMin) / b.dz + 2) ((r - b.rMin) / b.dr + 2))
  have l1 := mul_le_mul_of_nonneg_left cx (by linarith : 0 ≤ 2 * M)
  have l2 := mul_le_mul_of_nonneg_left cy (by linarith : 0 ≤ 2 * M)
  have k1 : 0 ≤ ε * M := mul_nonneg h0 M0
  have k2 : 0 ≤ ε * M * nz := mul_nonneg k1 nz0
  have k3 : 0 ≤ ε * M * nr := mul_nonneg k1 nr0
  nlinarith

/-- Without rounding: the model of `Verif.Interp.Model`. -/
theorem cellInterp_id (b : Box) (s : ℝ) (a : Arr ℝ) (r z : ℝ) : cellInterp id b s a r z = Interp.cellInterp b s a r z := rfl

private theorem cellInterp_exact {b : Box} {nz nr : ℕ} (hb : Fits ε b nz nr) {a : Arr ℝ}
    (ha : OnGrid a nz nr) {M : ℝ} (hM : Within a M) (M0 : 0 ≤ M) {s : ℝ} (hs : |s| ≤ 1) {r z : ℝ} (r0 : 0 ≤ r) (h : b.Has r z) :
    Interp.cellInterp b s a r z = some (G a s ((z - b.zMin) / b.dz + 2) ((r - b.rMin) / b.dr + 2)) := by
  obtain ⟨v, e, hv⟩ := cellInterp_pos (ε := 0) rounds_id le_rfl (by norm_num)
    ⟨hb.dz, hb.dr, hb.rMin, hb.zMax, hb.rMax, by norm_num⟩ ha hM M0 hs r0 h (r' := r) (by simp)
  rw [cellInterp_id] at e
  rw [e]
  simp only [zero_mul, mul_zero, abs_nonpos_iff, sub_eq_zero] at hv
  rw [hv]

/-- A gathered value is within rounding of the exactly interpolated one. -/
theorem cellInterp_rounded (hr : Rounds ε rnd) (h0 : 0 ≤ ε) (h1 : ε ≤ 1 / 1000) {b : Box} {nz nr : ℕ} (hb : Fits ε b nz nr) {a : Arr ℝ}
    (ha : OnGrid a nz nr) {M : ℝ} (hM : Within a M) {s : ℝ} (hs : |s| ≤ 1) {r r' z : ℝ} (r0 : 0 ≤ r) (h : b.Has r z)
    (hrr : |r' - r| ≤ 5 * ε * r) :
    ∃ v w, cellInterp rnd b s a r' z = some v ∧ Interp.cellInterp b s a r z = some w ∧ |v - w| ≤ 30 * (nz + nr + 3) * (ε * M) ∧ |w| ≤ M := by
  have M0 : 0 ≤ M := (abs_nonneg _).trans (hM 0 0 le_rfl (by have := ha.1; omega) le_rfl (by have := ha.2; omega))
  obtain ⟨v, e, hv⟩ := cellInterp_pos hr h0 h1 hb ha hM M0 hs r0 h hrr
  exact ⟨v, _, e, cellInterp_exact hb ha hM M0 hs r0 h, hv, G_abs hM M0 (by have := ha.2; omega) hs _ _⟩

/-! ### The gathering functions -/

/-- `gather_field_cyl_linear`. -/
theorem gatherField_rounded (hr : Rounds ε rnd) (h0 : 0 ≤ ε) (h1 : ε ≤ 1 / 1000) {b : Box} {nz nr : ℕ} (hb : Fits ε b nz nr) {a : Arr ℝ}
    (ha : OnGrid a nz nr) {M : ℝ} (hM : Within a M) (x y z : ℝ) (h : b.Has (radius rnd x y) z ↔ b.Has √(x ^ 2 + y ^ 2) z) :
    ∃ v w, gatherField1 rnd b a x y z = some v ∧ Interp.gatherField1 b a x y z = some w ∧ |v - w| ≤ 30 * (nz + nr + 3) * (ε * M) := by
  have M0 : 0 ≤ M := (abs_nonneg _).trans (hM 0 0 le_rfl (by have := ha.1; omega) le_rfl (by have := ha.2; omega))
  by_cases hh : b.Has √(x ^ 2 + y ^ 2) z
  · obtain ⟨v, w, e1, e2, e3, -⟩ := cellInterp_rounded hr h0 h1 hb ha hM (s := 1) (by simp) (Real.sqrt_nonneg _) hh (radius_near hr h0 h1 x y)
    refine ⟨v, w, ?_, ?_, e3⟩
    · unfold gatherField1
      simp only [if_pos (h.mpr hh)]
      exact e1
    · unfold Interp.gatherField1
      simp only [if_pos hh]
      exact e2
  · refine ⟨0, 0, ?_, ?_, ?_⟩
    · unfold gatherField1
      simp only [if_neg fun k => hh (h.mp k)]
    · unfold Interp.gatherField1
      simp only [if_neg hh]
    · rw [sub_zero, abs_zero]
      positivity

/-- `gather_sources_qs_baxevanis`. -/
theorem gatherSources_rounded (hr : Rounds ε rnd) (h0 : 0 ≤ ε) (h1 : ε ≤ 1 / 1000) {b : Box} {nz nr : ℕ} (hb : Fits ε b nz nr)
    {f1 f2 f3 : Arr ℝ} (a1 : OnGrid f1 nz nr) (a2 : OnGrid f2 nz nr) (a3 : OnGrid f3 nz nr) {M1 M2 M3 : ℝ} (m1 : Within f1 M1)
    (m2 : Within f2 M2) (m3 : Within f3 M3) {r : ℝ} (r0 : 0 ≤ r) (z : ℝ) (old : Src) :
    ∃ v w, gatherSources1 rnd b f1 f2 f3 r z old = some v ∧ Interp.gatherSources1 b f1 f2 f3 r z old = some w ∧
      |v.a2 - w.a2| ≤ 30 * (nz + nr + 3) * (ε * M1) ∧ |v.nablaA2 - w.nablaA2| ≤ 30 * (nz + nr + 3) * (ε * M2) ∧
      |v.bTheta0 - w.bTheta0| ≤ 30 * (nz + nr + 3) * (ε * M3) := by
  have M0 : ∀ {a : Arr ℝ} {M : ℝ}, OnGrid a nz nr → Within a M → 0 ≤ M := fun ha hM =>
    (abs_nonneg _).trans (hM 0 0 le_rfl (by have := ha.1; omega) le_rfl (by have := ha.2; omega))
  have e0 : |r - r| ≤ 5 * ε * r := by rw [sub_self, abs_zero]; positivity
  by_cases hh : b.Has r z
  · obtain ⟨v1, w1, c1, d1, p1, -⟩ := cellInterp_rounded hr h0 h1 hb a1 m1 (s := 1) (by simp) r0 hh e0
    obtain ⟨v2, w2, c2, d2, p2, -⟩ := cellInterp_rounded hr h0 h1 hb a2 m2 (s := -1) (by simp) r0 hh e0
    obtain ⟨v3, w3, c3, d3, p3, -⟩ := cellInterp_rounded hr h0 h1 hb a3 m3 (s := -1) (by simp) r0 hh e0
    refine ⟨⟨v1, v2, v3⟩, ⟨w1, w2, w3⟩, ?_, ?_, p1, p2, p3⟩
    · unfold gatherSources1
      simp only [if_pos hh, c1, c2, c3, Option.bind_eq_bind, Option.bind_some]
    · unfold Interp.gatherSources1
      simp only [if_pos hh, d1, d2, d3, Option.bind_eq_bind, Option.bind_some]
  · have n1 := M0 a1 m1
    have n2 := M0 a2 m2
    have n3 := M0 a3 m3
    refine ⟨old, old, ?_, ?_, ?_, ?_, ?_⟩
    · unfold gatherSources1; simp only [if_neg hh]
    · unfold Interp.gatherSources1; simp only [if_neg hh]
    all_goals rw [sub_self, abs_zero]; positivity

/-- One component of a transverse field. -/
private theorem component (hr : Rounds ε rnd) (h0 : 0 ≤ ε) (h1 : ε ≤ 1 / 1000) {r r' x e e' o M D : ℝ} (hr0 : 0 < r)
    (hrr : |r' - r| ≤ 5 * ε * r) (hx : |x| ≤ r) (he : |e| ≤ M) (hD0 : 0 ≤ D) (hD1 : D ≤ 1 / 10) (hee : |e' - e| ≤ D * M) :
    |rnd (o + rnd (rnd (e' * x) * rnd (1 / r'))) - (o + e * x * (1 / r))| ≤ (D + D / 50 + 12 * ε) * M + ε * |o| := by
  have M0 : 0 ≤ M := (abs_nonneg _).trans he
  have r1 : r * (995 / 1000) ≤ r' := by
    have := (abs_le.mp hrr).1
    nlinarith [mul_le_mul_of_nonneg_right h1 hr0.le]
  have r1' : 0 < r' := by linarith
  have i1 : |1 / r' - 1 / r| ≤ 51 / 10 * ε * (1 / r) := by
    have e : 1 / r' - 1 / r = -(r' - r) / (r' * r) := by field_simp; ring
    rw [e, abs_div, abs_neg, abs_of_pos (mul_pos r1' hr0), div_le_iff₀ (mul_pos r1' hr0)]
    have e2 : 51 / 10 * ε * (1 / r) * (r' * r) = 51 / 10 * ε * r' := by field_simp
    rw [e2]
    refine hrr.trans ?_
    nlinarith [mul_le_mul_of_nonneg_left r1 h0, mul_nonneg h0 hr0.le]
  have s0 : 0 < 1 / r := one_div_pos.mpr hr0
  have i2 : |rnd (1 / r') - 1 / r| ≤ 62 / 10 * ε * (1 / r) := by
    refine (hr.near h0 i1 (abs_of_pos s0).le).trans ?_
    have : ε * (ε * (1 / r)) ≤ 1 / 1000 * (ε * (1 / r)) := mul_le_mul_of_nonneg_right h1 (mul_nonneg h0 s0.le)
    nlinarith [mul_nonneg h0 s0.le]
  have E0 := mul_nonneg h0 M0
  have DM := mul_nonneg hD0 M0
  have p1 : |e' * x - e * x| ≤ D * M * r := by
    rw [← sub_mul, abs_mul]
    exact mul_le_mul hee hx (abs_nonneg _) DM
  have p2 : |e * x| ≤ M * r := by
    rw [abs_mul]
    exact mul_le_mul he hx (abs_nonneg _) M0
  have p3 : |rnd (e' * x) - e * x| ≤ (D + 11 / 10 * ε) * M * r := by
    refine (hr.near h0 p1 p2).trans ?_
    have : ε * (D * (M * r)) ≤ ε * (1 / 10 * (M * r)) := mul_le_mul_of_nonneg_left (mul_le_mul_of_nonneg_right hD1 (mul_nonneg M0 hr0.le)) h0
    nlinarith
  have p4 := mul_near p3 i2 p2 (abs_of_pos s0).le
  have e1 : (D + 11 / 10 * ε) * M * r * (1 / r) + M * r * (62 / 10 * ε * (1 / r)) + (D + 11 / 10 * ε) * M * r * (62 / 10 * ε * (1 / r)) =
      (D + 73 / 10 * ε + (D + 11 / 10 * ε) * (62 / 10 * ε)) * M := by field_simp; ring
  rw [e1] at p4
  have p5 : |rnd (e' * x) * rnd (1 / r') - e * x * (1 / r)| ≤ (D + D / 100 + 74 / 10 * ε) * M := by
    refine p4.trans (mul_le_mul_of_nonneg_right ?_ M0)
    nlinarith [mul_le_mul_of_nonneg_left h1 hD0, mul_le_mul_of_nonneg_left h1 h0]
  have p6 : |e * x * (1 / r)| ≤ M := by
    rw [abs_mul, abs_of_pos s0, mul_one_div, div_le_iff₀ hr0]
    exact p2
  have p7 : |rnd (rnd (e' * x) * rnd (1 / r')) - e * x * (1 / r)| ≤ (D + D / 70 + 9 * ε) * M := by
    refine (hr.near h0 p5 p6).trans ?_
    have : ε * ((D + D / 100 + 74 / 10 * ε) * M) ≤ 1 / 1000 * ((D + D / 100 + 74 / 10 * ε) * M) := mul_le_mul_of_nonneg_right h1 (by positivity)
    nlinarith
  have p8 : |o + rnd (rnd (e' * x) * rnd (1 / r')) - (o + e * x * (1 / r))| ≤ (D + D / 70 + 9 * ε) * M := by
    rw [add_sub_add_left_eq_sub]
    exact p7
  have p9 : |o + e * x * (1 / r)| ≤ |o| + M := (abs_add_le _ _).trans (by linarith)
  refine (hr.near h0 p8 p9).trans ?_
  have : ε * ((D + D / 70 + 9 * ε) * M) ≤ 1 / 1000 * ((D + D / 70 + 9 * ε) * M) := mul_le_mul_of_nonneg_right h1 (by positivity)
  nlinarith

/-- `gather_main_fields_cyl_linear`: the fields of a particle are within rounding of the exactly interpolated ones.  (The test whether the
particle is in the grid has to give the same with the rounded radius.) -/
theorem gatherMain_rounded (hr : Rounds ε rnd) (h0 : 0 ≤ ε) (h1 : ε ≤ 1 / 1000) {b : Box} {nz nr : ℕ} (hb : Fits ε b nz nr)
    {er ez bt : Arr ℝ} (a1 : OnGrid er nz nr) (a2 : OnGrid ez nz nr) (a3 : OnGrid bt nz nr) {Mr Mz Mt : ℝ} (m1 : Within er Mr)
    (m2 : Within ez Mz) (m3 : Within bt Mt) {x y : ℝ} (hxy : ¬ (x = 0 ∧ y = 0)) (z : ℝ) (o : Fields.EB ℝ)
    (h : b.Has (radius rnd x y) z ↔ b.Has √(x ^ 2 + y ^ 2) z) :
    ∃ v w, gatherMain1 rnd b er ez bt x y z o = .ok v ∧ Interp.gatherMain1 b er ez bt x y z o = .ok w ∧
      |v.ex - w.ex| ≤ 40 * (nz + nr + 3) * (ε * Mr) + ε * |o.ex| ∧ |v.ey - w.ey| ≤ 40 * (nz + nr + 3) * (ε * Mr) + ε * |o.ey| ∧
      |v.ez - w.ez| ≤ 40 * (nz + nr + 3) * (ε * Mz) + ε * |o.ez| ∧ |v.bx - w.bx| ≤ 40 * (nz + nr + 3) * (ε * Mt) + ε * |o.bx| ∧
      |v.b_y - w.b_y| ≤ 40 * (nz + nr + 3) * (ε * Mt) + ε * |o.b_y| ∧ v.bz = o.bz ∧ w.bz = o.bz := by
  have M0 : ∀ {a : Arr ℝ} {M : ℝ}, OnGrid a nz nr → Within a M → 0 ≤ M := fun ha hM =>
    (abs_nonneg _).trans (hM 0 0 le_rfl (by have := ha.1; omega) le_rfl (by have := ha.2; omega))
  have n1 := M0 a1 m1
  have n2 := M0 a2 m2
  have n3 := M0 a3 m3
  have near := radius_near hr h0 h1 x y
  have S0 : 0 < x ^ 2 + y ^ 2 := by
    rcases not_and_or.mp hxy with k | k
    · have := sq_nonneg y; positivity
    · have := sq_nonneg x; positivity
  have rp : 0 < √(x ^ 2 + y ^ 2) := Real.sqrt_pos.mpr S0
  have hx : |x| ≤ √(x ^ 2 + y ^ 2) := Real.abs_le_sqrt (by nlinarith [sq_nonneg y])
  have hy : |y| ≤ √(x ^ 2 + y ^ 2) := Real.abs_le_sqrt (by nlinarith [sq_nonneg x])
  have rne : radius rnd x y ≠ 0 := by
    intro e
    rw [e, zero_sub, abs_neg, abs_of_pos rp] at near
    nlinarith
  by_cases hh : b.Has √(x ^ 2 + y ^ 2) z
  · obtain ⟨v1, w1, c1, d1, p1, q1⟩ := cellInterp_rounded hr h0 h1 hb a1 m1 (s := -1) (by simp) rp.le hh near
    obtain ⟨v2, w2, c2, d2, p2, q2⟩ := cellInterp_rounded hr h0 h1 hb a2 m2 (s := 1) (by simp) rp.le hh near
    obtain ⟨v3, w3, c3, d3, p3, q3⟩ := cellInterp_rounded hr h0 h1 hb a3 m3 (s := -1) (by simp) rp.le hh near
    have nz0 : (0 : ℝ) ≤ nz := Nat.cast_nonneg _
    have nr0 : (0 : ℝ) ≤ nr := Nat.cast_nonneg _
    have sz := hb.size
    set D := 30 * ((nz : ℝ) + nr + 3) * ε with hD
    have D0 : 0 ≤ D := by positivity
    have D1 : D ≤ 1 / 10 := by rw [hD]; linarith
    have D2 : ∀ M : ℝ, 30 * ((nz : ℝ) + nr + 3) * (ε * M) = D * M := fun M => by rw [hD]; ring
    rw [D2] at p1 p2 p3
    have fin : ∀ M q : ℝ, 0 ≤ M → (D + D / 50 + 12 * ε) * M + q ≤ 40 * (nz + nr + 3) * (ε * M) + q := by
      intro M q hM
      have e : 40 * ((nz : ℝ) + nr + 3) * (ε * M) = (D + D / 3) * M := by rw [hD]; ring
      rw [e]
      have : D + D / 50 + 12 * ε ≤ D + D / 3 := by
        have : 90 * ε ≤ D := by rw [hD]; nlinarith [mul_nonneg nz0 h0, mul_nonneg nr0 h0]
        linarith
      have := mul_le_mul_of_nonneg_right this hM
      linarith
    have n3' : |-v3 - -w3| ≤ D * Mt := by rw [← neg_sub', abs_neg]; exact p3
    have e1 : gatherMain1 rnd b er ez bt x y z o = .ok
        { ex := rnd (o.ex + rnd (rnd (v1 * x) * rnd (1 / radius rnd x y))), ey := rnd (o.ey + rnd (rnd (v1 * y) * rnd (1 / radius rnd x y))),
          ez := rnd (o.ez + v2), bx := rnd (o.bx + rnd (rnd (-v3 * y) * rnd (1 / radius rnd x y))),
          b_y := rnd (o.b_y + rnd (rnd (v3 * x) * rnd (1 / radius rnd x y))), bz := o.bz } := by
      unfold gatherMain1
      simp only [if_neg rne, if_pos (h.mpr hh), c1, c2, c3]
    have e2 : Interp.gatherMain1 b er ez bt x y z o = .ok
        { ex := o.ex + w1 * x * (1 / √(x ^ 2 + y ^ 2)), ey := o.ey + w1 * y * (1 / √(x ^ 2 + y ^ 2)), ez := o.ez + w2,
          bx := o.bx + -w3 * y * (1 / √(x ^ 2 + y ^ 2)), b_y := o.b_y + w3 * x * (1 / √(x ^ 2 + y ^ 2)), bz := o.bz } := by
      unfold Interp.gatherMain1
      simp only [if_neg rp.ne', if_pos hh, d1, d2, d3]
    refine ⟨_, _, e1, e2, (component hr h0 h1 rp near hx q1 D0 D1 p1).trans (fin _ _ n1), (component hr h0 h1 rp near hy q1 D0 D1 p1).trans (fin _ _ n1),
      ?_, (component hr h0 h1 rp near hy (by rw [abs_neg]; exact q3) D0 D1 n3').trans (fin _ _ n3),
      (component hr h0 h1 rp near hx q3 D0 D1 p3).trans (fin _ _ n3), rfl, rfl⟩
    have z1 : |o.ez + v2 - (o.ez + w2)| ≤ D * Mz := by rw [add_sub_add_left_eq_sub]; exact p2
    have z2 := hr.near h0 z1 (M := |o.ez| + Mz) ((abs_add_le _ _).trans (by linarith))
    refine z2.trans (le_trans ?_ (fin Mz _ n2))
    have : ε * (D * Mz) ≤ 1 / 1000 * (D * Mz) := mul_le_mul_of_nonneg_right h1 (mul_nonneg D0 n2)
    nlinarith [mul_nonneg h0 n2, mul_nonneg D0 n2]
  · refine ⟨o, o, ?_, ?_, ?_, ?_, ?_, ?_, ?_, rfl, rfl⟩
    · unfold gatherMain1
      simp only [if_neg rne, if_neg fun k => hh (h.mp k)]
    · unfold Interp.gatherMain1
      simp only [if_neg rp.ne', if_neg hh]
    all_goals rw [sub_self, abs_zero]; positivity

/-- No particle, wherever it is, leads to an access outside of the arrays. -/
theorem gather_rounded_in_bounds (hr : Rounds ε rnd) (h0 : 0 ≤ ε) (h1 : ε ≤ 1 / 1000) {b : Box} {nz nr : ℕ} (hb : Fits ε b nz nr)
    {er ez bt : Arr ℝ} (a1 : OnGrid er nz nr) (a2 : OnGrid ez nz nr) (a3 : OnGrid bt nz nr) (x y z : ℝ) (o : Fields.EB ℝ) :
    gatherMain1 rnd b er ez bt x y z o ≠ .error .outOfBounds ∧ gatherField1 rnd b er x y z ≠ none := by
  have bound : ∀ a : Arr ℝ, ∃ M, Within a M := by
    intro a
    refine ⟨∑ i ∈ Finset.range a.ni, ∑ j ∈ Finset.range a.nj, |a.val i j|, fun i j i0 i1 j0 j1 => ?_⟩
    obtain ⟨i, rfl⟩ := Int.eq_ofNat_of_zero_le i0
    obtain ⟨j, rfl⟩ := Int.eq_ofNat_of_zero_le j0
    refine le_trans ?_ (Finset.single_le_sum (f := fun i : ℕ => ∑ j ∈ Finset.range a.nj, |a.val i j|)
      (fun _ _ => Finset.sum_nonneg fun _ _ => abs_nonneg _) (Finset.mem_range.mpr (by omega : i < a.ni)))
    exact Finset.single_le_sum (f := fun j : ℕ => |a.val i j|) (fun _ _ => abs_nonneg _) (Finset.mem_range.mpr (by omega : j < a.nj))
  have r0 : 0 ≤ radius rnd x y := hr.nonneg (by linarith) (Real.sqrt_nonneg _)
  have e0 : |radius rnd x y - radius rnd x y| ≤ 5 * ε * radius rnd x y := by rw [sub_self, abs_zero]; positivity
  obtain ⟨M1, m1⟩ := bound er
  obtain ⟨M2, m2⟩ := bound ez
  obtain ⟨M3, m3⟩ := bound bt
  by_cases hh : b.Has (radius rnd x y) z
  · obtain ⟨v1, w1, c1, -⟩ := cellInterp_rounded hr h0 h1 hb a1 m1 (s := -1) (by simp) r0 hh e0
    obtain ⟨v2, w2, c2, -⟩ := cellInterp_rounded hr h0 h1 hb a2 m2 (s := 1) (by simp) r0 hh e0
    obtain ⟨v3, w3, c3, -⟩ := cellInterp_rounded hr h0 h1 hb a3 m3 (s := -1) (by simp) r0 hh e0
    obtain ⟨v4, w4, c4, -⟩ := cellInterp_rounded hr h0 h1 hb a1 m1 (s := 1) (by simp) r0 hh e0
    constructor
    · unfold gatherMain1
      by_cases k : radius rnd x y = 0
      · simp [k]
      · simp [k, hh, c1, c2, c3]
    · unfold gatherField1
      simp [hh, c4]
  · constructor
    · unfold gatherMain1
      by_cases k : radius rnd x y = 0
      · simp [k]
      · simp [k, hh]
    · unfold gatherField1
      simp [hh]

/-- Numbers of 64 bits and a grid of a thousand by two hundred points: ten digits are right. -/
example {er ez bt : Arr ℝ} (a1 : OnGrid er 1000 200) (a2 : OnGrid ez 1000 200) (a3 : OnGrid bt 1000 200) (m1 : Within er 1) (m2 : Within ez 1)
    (m3 : Within bt 1) :
    let ε : ℝ := 1 / 2 ^ 53
    let rnd : ℝ → ℝ := fun x => (1 + ε) * x
    let b : Box := ⟨-100, -1 / 10, 1 / 20, 199 / 10, 1 / 10, 1 / 10⟩
    ∃ v w, gatherMain1 rnd b er ez bt 3 4 (-50) ⟨0, 0, 0, 0, 0, 0⟩ = .ok v ∧ Interp.gatherMain1 b er ez bt 3 4 (-50) ⟨0, 0, 0, 0, 0, 0⟩ = .ok w ∧
      |v.ex - w.ex| ≤ 1 / 10 ^ 10 := by
  intro ε rnd b
  have h0 : 0 ≤ ε := by positivity
  have hr : Rounds ε rnd := by
    intro x
    have e : (1 + ε) * x - x = ε * x := by ring
    simp only [rnd]
    rw [e, abs_mul, abs_of_nonneg h0]
  have hb : Fits ε b 1000 200 := ⟨by norm_num [b], by norm_num [b], by norm_num [b], by norm_num [b], by norm_num [b], by norm_num [ε]⟩
  have e5 : √((3 : ℝ) ^ 2 + 4 ^ 2) = 5 := by
    rw [show (3 : ℝ) ^ 2 + 4 ^ 2 = 5 ^ 2 by norm_num]
    exact Real.sqrt_sq (by norm_num)
  have near := radius_near hr h0 (by norm_num [ε]) 3 4
  rw [e5] at near
  have near' := (abs_le.mp near).2
  have small : 5 * ε * 5 ≤ 1 := by norm_num [ε]
  have hh : b.Has (radius rnd 3 4) (-50) ↔ b.Has √((3 : ℝ) ^ 2 + 4 ^ 2) (-50) := by
    rw [e5]
    refine ⟨fun _ => ⟨by norm_num [b], by norm_num [b], by norm_num [b]⟩, fun _ => ⟨by norm_num [b], by norm_num [b], ?_⟩⟩
    have : (6 : ℝ) ≤ b.rMax := by norm_num [b]
    linarith
  obtain ⟨v, w, e1, e2, e3, -⟩ := gatherMain_rounded hr h0 (by norm_num [ε]) hb a1 a2 a3 m1 m2 m3 (x := 3) (y := 4) (by norm_num) (-50)
    ⟨0, 0, 0, 0, 0, 0⟩ hh
  refine ⟨v, w, e1, e2, e3.trans ?_⟩
  norm_num [ε]

end WakeT.Interp.Rounded
