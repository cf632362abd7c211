import Verif.Deposition.RoundingProps

/-!
# The coefficients of the correction with rounding

The coefficients of the Ruyten correction (deposition.py 70-80, 157-168) with a rounding after each operation on floating point numbers.
-/

set_option linter.unusedSectionVars false

namespace WakeT.Deposition.Rounded

open WakeT.Base (Rounds)

/-! ### Model -/

section
variable (rnd : ℝ → ℝ)

/-- `r_grid[i]` (deposition.py 74, 161). -/
noncomputable def rGrid (g : Grid ℝ) (i : ℕ) : ℝ := rnd (rnd (i + 1 / 2) * g.dr)

/-- `(r_grid + 0.5 * dr) ** 2 - (r_grid - 0.5 * dr) ** 2` (deposition.py 76, 163). -/
noncomputable def annulus (g : Grid ℝ) (i : ℕ) : ℝ :=
  rnd (rnd (rnd (rGrid rnd g i + rnd (1 / 2 * g.dr)) ^ 2) - rnd (rnd (rGrid rnd g i - rnd (1 / 2 * g.dr)) ^ 2))

/-- `cell_volume_norm[i]` (deposition.py 75-77, 162-164); `pi` is `np.pi`. -/
noncomputable def volumeNorm (pi : ℝ) (g : Grid ℝ) (i : ℕ) : ℝ :=
  rnd (rnd (rnd (pi * g.dz) * annulus rnd g i) / rnd (rnd (rnd (2 * pi) * rnd (g.dr ^ 2)) * g.dz))

/-- `np.cumsum(cell_volume_norm)[i]` (deposition.py 80, 167). -/
noncomputable def cumsum (pi : ℝ) (g : Grid ℝ) : ℕ → ℝ
  | 0 => volumeNorm rnd pi g 0
  | i + 1 => rnd (cumsum pi g i + volumeNorm rnd pi g (i + 1))

/-- `6. / cell_number * (np.cumsum(cell_volume_norm) - 0.5 * cell_number ** 2 - s)` for the cell number `n` (deposition.py 78-80, 165-167). -/
noncomputable def coefAt (pi : ℝ) (g : Grid ℝ) (s : ℝ) (n : ℕ) : ℝ :=
  rnd (rnd (6 / n) * rnd (rnd (cumsum rnd pi g (n - 1) - rnd (1 / 2 * (n : ℝ) ^ 2)) - s))

/-- `ruyten_coef` (deposition.py 73-80, 160-168). -/
noncomputable def coefs (pi : ℝ) (sh : Shape) (g : Grid ℝ) (n : ℕ) : ℝ :=
  if n = 0 ∨ g.nr < n then 0
  else match sh with
  | .linear => coefAt rnd pi g (rnd (1 / 24)) n
  | .cubic =>
    if n = 1 then rnd (6 * rnd (rnd (volumeNorm rnd pi g 0 - 1 / 2) - rnd (239 / (15 * 2 ^ 7))))
    else coefAt rnd pi g (1 / 8) n

/-- The coefficients, if the correction is used (deposition.py 70, 157). -/
noncomputable def roundedCoef (pi : ℝ) (sh : Shape) (ruyten : Bool) (g : Grid ℝ) : Option (ℕ → ℝ) :=
  if ruyten then some (coefs rnd pi sh g) else none
end

variable {rnd : ℝ → ℝ} {ε pi : ℝ}

/-- The coefficients in exact arithmetic (see `exactCoef`). -/
noncomputable def exactAt (sh : Shape) (g : Grid ℝ) (n : ℕ) : ℝ :=
  match sh with
  | .linear => ruytenLinear g n
  | .cubic => ruytenCubic g n

/-! ### The volumes -/

private theorem rel (hr : Rounds ε rnd) (h0 : 0 ≤ ε) (x : ℝ) : ∃ δ, |δ| ≤ ε ∧ rnd x = x * (1 + δ) := by
  by_cases hx : x = 0
  · exact ⟨0, by simpa using h0, by rw [hx, hr.zero, zero_mul]⟩
  · refine ⟨(rnd x - x) / x, ?_, by field_simp; ring⟩
    rw [abs_div, div_le_iff₀ (abs_pos.mpr hx)]
    exact hr x

private theorem mulrel {x y d a b M : ℝ} (h0 : 0 ≤ ε) (h1 : ε ≤ 1 / 1000) (h : |x - y| ≤ a * ε * M) (hy : |y| ≤ M) (ha : 0 ≤ a) (ha' : a ≤ 100)
    (hd : |d| ≤ b * ε) (hb : 0 ≤ b) (hb' : b ≤ 10) : |x * (1 + d) - y| ≤ (a + 11 / 10 * b) * ε * M := by
  have M0 : 0 ≤ M := (abs_nonneg _).trans hy
  have e : x * (1 + d) - y = (x - y) + (x - y) * d + y * d := by ring
  rw [e]
  refine (abs_add_le _ _).trans ?_
  have t := abs_add_le (x - y) ((x - y) * d)
  rw [abs_mul] at t
  rw [abs_mul y d]
  have aM : 0 ≤ a * ε * M := by positivity
  have p1 : |x - y| * |d| ≤ a * ε * M * (b * ε) := mul_le_mul h hd (abs_nonneg _) aM
  have p2 : |y| * |d| ≤ M * (b * ε) := mul_le_mul hy hd (abs_nonneg _) M0
  have p3 : a * ε * M * (b * ε) ≤ 1 / 10 * b * ε * M := by
    have : a * ε ≤ 1 / 10 := by nlinarith
    have q : 0 ≤ b * ε * M := by positivity
    nlinarith
  linarith

private theorem ratio {d1 d2 d3 d4 d5 d6 d7 : ℝ} (h0 : 0 ≤ ε) (h1 : ε ≤ 1 / 1000) (g1 : |d1| ≤ ε) (g2 : |d2| ≤ ε) (g3 : |d3| ≤ ε) (g4 : |d4| ≤ ε)
    (g5 : |d5| ≤ ε) (g6 : |d6| ≤ ε) (g7 : |d7| ≤ ε) :
    |(1 + d1) * (1 + d2) / ((1 + d3) * (1 + d4) * (1 + d5) * (1 + d6)) * (1 + d7) - 1| ≤ 8 * ε := by
  rw [abs_le] at g1 g2 g3 g4 g5 g6 g7
  have two : ∀ {a b k l : ℝ}, 0 ≤ k → k ≤ 4 → 0 ≤ l → l ≤ 4 → |a - 1| ≤ k * ε → |b - 1| ≤ l * ε → |a * b - 1| ≤ (k + l + 1 / 50) * ε := by
    intro a b k l k0 k4 l0 l4 ha hb
    have e : a * b - 1 = (a - 1) + (b - 1) + (a - 1) * (b - 1) := by ring
    rw [e]
    refine (abs_add_le _ _).trans ?_
    have t := abs_add_le (a - 1) (b - 1)
    rw [abs_mul]
    have p : |a - 1| * |b - 1| ≤ k * ε * (l * ε) := mul_le_mul ha hb (abs_nonneg _) (by positivity)
    have kl : k * l ≤ 16 := by nlinarith
    have q : k * ε * (l * ε) ≤ 1 / 50 * ε := by
      have : k * l * ε ≤ 1 / 50 := by nlinarith
      nlinarith
    linarith
  have one : ∀ {d : ℝ}, -ε ≤ d ∧ d ≤ ε → |(1 + d) - 1| ≤ 1 * ε := by
    intro d hd
    rw [add_sub_cancel_left, one_mul, abs_le]
    exact hd
  have n12 := two (by norm_num) (by norm_num) (by norm_num) (by norm_num) (one g1) (one g2)
  have n34 := two (by norm_num) (by norm_num) (by norm_num) (by norm_num) (one g3) (one g4)
  have n345 := two (by norm_num) (by norm_num) (by norm_num) (by norm_num) n34 (one g5)
  have n3456 := two (by norm_num) (by norm_num) (by norm_num) (by norm_num) n345 (one g6)
  have n127 := two (by norm_num) (by norm_num) (by norm_num) (by norm_num) n12 (one g7)
  generalize (1 + d3) * (1 + d4) * (1 + d5) * (1 + d6) = D at *
  have e : (1 + d1) * (1 + d2) / D * (1 + d7) - 1 = ((1 + d1) * (1 + d2) * (1 + d7) - D) / D := by
    have : D ≠ 0 := by
      rw [abs_le] at n3456
      have : 0 < D := by linarith [n3456.1]
      exact this.ne'
    field_simp
  rw [e]
  generalize (1 + d1) * (1 + d2) * (1 + d7) = N at *
  rw [abs_le] at n3456 n127
  have D0 : 99 / 100 ≤ D := by linarith [n3456.1]
  rw [abs_div, abs_of_pos (by linarith : 0 < D), div_le_iff₀ (by linarith)]
  have : |N - D| ≤ (7 + 1 / 10) * ε := by
    rw [abs_le]
    constructor <;> linarith [n3456.1, n3456.2, n127.1, n127.2]
  nlinarith

private theorem square_near {x y n : ℝ} (h0 : 0 ≤ ε) (h1 : ε ≤ 1 / 1000) (n1 : 1 ≤ n) (y0 : 0 ≤ y) (yn : y ≤ n)
    (h : |x - y| ≤ (3 + 11 / 10 * 1) * ε * n) : |x ^ 2 - y ^ 2| ≤ 17 / 2 * ε * n ^ 2 := by
  have e : x ^ 2 - y ^ 2 = (x - y) * (2 * y + (x - y)) := by ring
  have en : ε * n ≤ 1 / 1000 * n := mul_le_mul_of_nonneg_right h1 (by linarith)
  have : |2 * y + (x - y)| ≤ (2 + 1 / 100) * n := by
    refine (abs_add_le _ _).trans ?_
    rw [abs_of_nonneg (by linarith : 0 ≤ 2 * y)]
    linarith
  rw [e, abs_mul]
  have e0 : 0 ≤ ε * n := by positivity
  refine (mul_le_mul h this (abs_nonneg _) (by positivity)).trans ?_
  have e1 : 0 ≤ ε * n ^ 2 := by positivity
  have e2 : (3 + 11 / 10 * 1) * ε * n * ((2 + 1 / 100) * n) = (3 + 11 / 10 * 1) * (2 + 1 / 100) * (ε * n ^ 2) := by ring
  rw [e2]
  linarith

set_option maxHeartbeats 1000000 in
/-- The volume of the ring between the nodes, in units of `2 π dr² dz`. -/
theorem volumeNorm_near (hr : Rounds ε rnd) (h0 : 0 ≤ ε) (h1 : ε ≤ 1 / 1000) (hpi : 0 < pi) {g : Grid ℝ} (hz : 0 < g.dz) (hd : 0 < g.dr) (i : ℕ) :
    |volumeNorm rnd pi g i - (i + 1 / 2)| ≤ 24 * ε * ((i : ℝ) + 1) ^ 2 := by
  have i0 : (0 : ℝ) ≤ i := Nat.cast_nonneg _
  unfold volumeNorm annulus rGrid
  obtain ⟨a1, b1, e1⟩ := rel hr h0 ((i : ℝ) + 1 / 2)
  rw [e1]
  obtain ⟨a2, b2, e2⟩ := rel hr h0 (((i : ℝ) + 1 / 2) * (1 + a1) * g.dr)
  rw [e2]
  obtain ⟨a3, b3, e3⟩ := rel hr h0 (1 / 2 * g.dr)
  rw [e3]
  obtain ⟨a4, b4, e4⟩ := rel hr h0 (((i : ℝ) + 1 / 2) * (1 + a1) * g.dr * (1 + a2) + 1 / 2 * g.dr * (1 + a3))
  obtain ⟨a5, b5, e5⟩ := rel hr h0 (((i : ℝ) + 1 / 2) * (1 + a1) * g.dr * (1 + a2) - 1 / 2 * g.dr * (1 + a3))
  rw [e4, e5]
  obtain ⟨n, hn⟩ : ∃ n : ℝ, n = i + 1 := ⟨_, rfl⟩
  have n1 : 1 ≤ n := by linarith
  -- the two radii in units of the cell size
  obtain ⟨u, hu⟩ : ∃ u, u = ((i : ℝ) + 1 / 2) * (1 + a1) * (1 + a2) := ⟨_, rfl⟩
  obtain ⟨v, hv⟩ : ∃ v, v = 1 / 2 * (1 + a3) := ⟨_, rfl⟩
  have f4 : (((i : ℝ) + 1 / 2) * (1 + a1) * g.dr * (1 + a2) + 1 / 2 * g.dr * (1 + a3)) * (1 + a4) = g.dr * ((u + v) * (1 + a4)) := by
    rw [hu, hv]; ring
  have f5 : (((i : ℝ) + 1 / 2) * (1 + a1) * g.dr * (1 + a2) - 1 / 2 * g.dr * (1 + a3)) * (1 + a5) = g.dr * ((u - v) * (1 + a5)) := by
    rw [hu, hv]; ring
  rw [f4, f5]
  have c1 : |((i : ℝ) + 1 / 2) - (i + 1 / 2)| ≤ 0 * ε * n := by simp
  have hin : |(i : ℝ) + 1 / 2| ≤ n := by rw [abs_of_nonneg (by linarith)]; linarith
  have c2 := mulrel h0 h1 c1 hin (by norm_num) (by norm_num) (b := 1) (by rw [one_mul]; exact b1) (by norm_num) (by norm_num)
  have c3 := mulrel h0 h1 c2 hin (by norm_num) (by norm_num) (b := 1) (by rw [one_mul]; exact b2) (by norm_num) (by norm_num)
  rw [← hu] at c3
  have c4 : |v - 1 / 2| ≤ 1 / 2 * ε * n := by
    have : v - 1 / 2 = 1 / 2 * a3 := by rw [hv]; ring
    rw [this, abs_mul, abs_of_pos (by norm_num : (0 : ℝ) < 1 / 2)]
    have : ε ≤ ε * n := le_mul_of_one_le_right h0 n1
    linarith
  have p1 : |u + v - n| ≤ 3 * ε * n := by
    have : u + v - n = (u - (i + 1 / 2)) + (v - 1 / 2) := by rw [hn]; ring
    rw [this]
    refine (abs_add_le _ _).trans ?_
    have : 0 ≤ ε * n := by positivity
    linarith
  have p2 : |u - v - i| ≤ 3 * ε * n := by
    have : u - v - i = (u - (i + 1 / 2)) - (v - 1 / 2) := by ring
    rw [this]
    refine (abs_sub _ _).trans ?_
    have : 0 ≤ ε * n := by positivity
    linarith
  have q1 := mulrel h0 h1 p1 (by rw [abs_of_nonneg (by linarith)]) (by norm_num) (by norm_num) (b := 1) (by rw [one_mul]; exact b4) (by norm_num)
    (by norm_num)
  have q2 := mulrel h0 h1 p2 (by rw [abs_of_nonneg i0]; linarith) (by norm_num) (by norm_num) (b := 1) (by rw [one_mul]; exact b5) (by norm_num)
    (by norm_num)
  generalize (u + v) * (1 + a4) = U at *
  generalize (u - v) * (1 + a5) = V at *
  -- the squares
  have s1 := square_near h0 h1 n1 (by linarith) le_rfl q1
  have s2 := square_near h0 h1 n1 i0 (by linarith) q2
  obtain ⟨a6, b6, e6⟩ := rel hr h0 ((g.dr * U) ^ 2)
  obtain ⟨a7, b7, e7⟩ := rel hr h0 ((g.dr * V) ^ 2)
  rw [e6, e7]
  have t1 := mulrel h0 h1 s1 (M := n ^ 2) (by rw [abs_of_nonneg (by positivity)]) (by norm_num) (by norm_num) (b := 1) (by rw [one_mul]; exact b6)
    (by norm_num) (by norm_num)
  have t2 := mulrel h0 h1 s2 (M := n ^ 2) (by rw [abs_of_nonneg (by positivity)]; exact pow_le_pow_left₀ i0 (by linarith) 2) (by norm_num) (by norm_num) (b := 1)
    (by rw [one_mul]; exact b7) (by norm_num) (by norm_num)
  have f6 : (g.dr * U) ^ 2 * (1 + a6) - (g.dr * V) ^ 2 * (1 + a7) = g.dr ^ 2 * (U ^ 2 * (1 + a6) - V ^ 2 * (1 + a7)) := by ring
  rw [f6]
  obtain ⟨W, hW⟩ : ∃ W, W = U ^ 2 * (1 + a6) - V ^ 2 * (1 + a7) := ⟨_, rfl⟩
  rw [← hW]
  have w1 : |W - 2 * (i + 1 / 2)| ≤ 20 * ε * n ^ 2 := by
    have : W - 2 * (i + 1 / 2) = (U ^ 2 * (1 + a6) - n ^ 2) - (V ^ 2 * (1 + a7) - (i : ℝ) ^ 2) := by rw [hW, hn]; ring
    rw [this]
    refine (abs_sub _ _).trans ?_
    have : 0 ≤ ε * n ^ 2 := by positivity
    linarith
  clear hW t1 t2 e6 e7 s1 s2 q1 q2 p1 p2
  -- the quotient
  obtain ⟨d1, g1, k1⟩ := rel hr h0 (g.dr ^ 2 * W)
  obtain ⟨d2, g2, k2⟩ := rel hr h0 (pi * g.dz)
  obtain ⟨d3, g3, k3⟩ := rel hr h0 (2 * pi)
  obtain ⟨d4, g4, k4⟩ := rel hr h0 (g.dr ^ 2)
  rw [k1, k2, k3, k4]
  obtain ⟨d5, g5, k5⟩ := rel hr h0 (pi * g.dz * (1 + d2) * (g.dr ^ 2 * W * (1 + d1)))
  obtain ⟨d6, g6, k6⟩ := rel hr h0 (2 * pi * (1 + d3) * (g.dr ^ 2 * (1 + d4)))
  rw [k5, k6]
  obtain ⟨d7, g7, k7⟩ := rel hr h0 (2 * pi * (1 + d3) * (g.dr ^ 2 * (1 + d4)) * (1 + d6) * g.dz)
  rw [k7]
  obtain ⟨d8, g8, k8⟩ := rel hr h0 (pi * g.dz * (1 + d2) * (g.dr ^ 2 * W * (1 + d1)) * (1 + d5) /
    (2 * pi * (1 + d3) * (g.dr ^ 2 * (1 + d4)) * (1 + d6) * g.dz * (1 + d7)))
  rw [k8]
  have pos : ∀ {d : ℝ}, |d| ≤ ε → (1 + d) ≠ 0 := by
    intro d hd
    rw [abs_le] at hd
    have : 0 < 1 + d := by linarith [hd.1]
    exact this.ne'
  have z3 := pos g3
  have z4 := pos g4
  have z6 := pos g6
  have z7 := pos g7
  have dz0 := hz.ne'
  have dr0 := hd.ne'
  have pi0 := hpi.ne'
  have fin : pi * g.dz * (1 + d2) * (g.dr ^ 2 * W * (1 + d1)) * (1 + d5) /
      (2 * pi * (1 + d3) * (g.dr ^ 2 * (1 + d4)) * (1 + d6) * g.dz * (1 + d7)) * (1 + d8) =
      W / 2 * (1 + d1) * (1 + ((1 + d2) * (1 + d5) / ((1 + d3) * (1 + d4) * (1 + d6) * (1 + d7)) * (1 + d8) - 1)) := by
    field_simp
    ring
  rw [fin]
  have rt := ratio h0 h1 g2 g5 g3 g4 g6 g7 g8
  have w2 : |W / 2 - (i + 1 / 2)| ≤ 10 * ε * n ^ 2 := by
    have : W / 2 - (i + 1 / 2) = (W - 2 * (i + 1 / 2)) / 2 := by ring
    rw [this, abs_div, abs_two]
    linarith
  have hM : |(i : ℝ) + 1 / 2| ≤ n ^ 2 := by
    rw [abs_of_nonneg (by linarith)]; nlinarith
  have r1 := mulrel h0 h1 w2 hM (by norm_num) (by norm_num) (b := 1) (by rw [one_mul]; exact g1) (by norm_num) (by norm_num)
  have r2 := mulrel h0 h1 r1 hM (by norm_num) (by norm_num) rt (by norm_num) (by norm_num)
  rw [← hn]
  refine r2.trans ?_
  have e1 : 0 ≤ ε * n ^ 2 := by positivity
  linarith

/-! ### The coefficients -/

private theorem cumsum_step {n c v q : ℝ} (h0 : 0 ≤ ε) (n2 : 2 ≤ n) (hn : ε * n ≤ 1 / 1000) (hc : |c - (n - 1) ^ 2 / 2| ≤ 30 * ε * (n - 1) ^ 3)
    (hv : |v - (n - 1 / 2)| ≤ 24 * ε * n ^ 2) (hq : |q - (c + v)| ≤ ε * |c + v|) : |q - n ^ 2 / 2| ≤ 30 * ε * n ^ 3 := by
  have e1 : c + v - n ^ 2 / 2 = (c - (n - 1) ^ 2 / 2) + (v - (n - 1 / 2)) := by ring
  obtain ⟨A, hA⟩ : ∃ A, A = 30 * ε * (n - 1) ^ 3 + 24 * ε * n ^ 2 := ⟨_, rfl⟩
  have a1 : |c + v - n ^ 2 / 2| ≤ A := by
    rw [e1, hA]
    exact (abs_add_le _ _).trans (add_le_add hc hv)
  have a2 : |c + v| ≤ n ^ 2 / 2 + A := by
    have := abs_sub_abs_le_abs_sub (c + v) (n ^ 2 / 2)
    rw [abs_of_nonneg (by positivity : 0 ≤ n ^ 2 / 2)] at this
    linarith
  have a3 := abs_sub_le q (c + v) (n ^ 2 / 2)
  have a4 := mul_le_mul_of_nonneg_left a2 h0
  have n0 : 0 ≤ n := by linarith
  have en2 : 0 ≤ ε * n ^ 2 := by positivity
  have hA' : A ≤ 54 * (ε * n) * n ^ 2 := by
    have p1 : (n - 1) ^ 3 ≤ n ^ 3 := pow_le_pow_left₀ (by linarith) (by linarith) 3
    have p2 : n ^ 2 ≤ n ^ 3 := pow_le_pow_right₀ (by linarith) (by norm_num)
    have p3 := mul_le_mul_of_nonneg_left p1 h0
    have p4 := mul_le_mul_of_nonneg_left p2 h0
    have : 54 * (ε * n) * n ^ 2 = 54 * (ε * n ^ 3) := by ring
    rw [this, hA]
    linarith
  have a5 : A ≤ 54 / 1000 * n ^ 2 := hA'.trans (by nlinarith [sq_nonneg n])
  have a6 := mul_le_mul_of_nonneg_left a5 h0
  have a7 : A + (ε * n ^ 2 / 2 + 54 / 1000 * (ε * n ^ 2)) ≤ 30 * ε * n ^ 3 := by
    have e : 30 * ε * n ^ 3 - A = ε * (30 * (3 * n ^ 2 - 3 * n + 1) - 24 * n ^ 2) := by rw [hA]; ring
    have : n ^ 2 ≤ 30 * (3 * n ^ 2 - 3 * n + 1) - 24 * n ^ 2 := by nlinarith
    have := mul_le_mul_of_nonneg_left this h0
    linarith
  linarith

theorem cumsum_near (hr : Rounds ε rnd) (h0 : 0 ≤ ε) (h1 : ε ≤ 1 / 1000) (hpi : 0 < pi) {g : Grid ℝ} (hz : 0 < g.dz) (hd : 0 < g.dr) :
    ∀ i : ℕ, ε * ((i : ℝ) + 1) ≤ 1 / 1000 → |cumsum rnd pi g i - ((i : ℝ) + 1) ^ 2 / 2| ≤ 30 * ε * ((i : ℝ) + 1) ^ 3
  | 0, _ => by
    have := volumeNorm_near hr h0 h1 hpi hz hd 0
    simp only [Nat.cast_zero, zero_add, one_pow, mul_one] at this ⊢
    unfold cumsum
    linarith
  | i + 1, hi => by
    have i0 : (0 : ℝ) ≤ i := Nat.cast_nonneg _
    have ih := cumsum_near hr h0 h1 hpi hz hd i (by push_cast at hi; nlinarith)
    have hv := volumeNorm_near hr h0 h1 hpi hz hd (i + 1)
    unfold cumsum
    push_cast at hi hv ⊢
    have e : (i : ℝ) + 1 = (i + 1 + 1) - 1 := by ring
    rw [e] at ih
    have e2 : (i : ℝ) + 1 + 1 / 2 = (i + 1 + 1) - 1 / 2 := by ring
    rw [e2] at hv
    exact cumsum_step h0 (by linarith) hi ih hv (hr _)

private theorem coef_step {n c s s' a b d q r : ℝ} (h0 : 0 ≤ ε) (h1 : ε ≤ 1 / 1000) (n1 : 1 ≤ n) (hn : ε * n ^ 2 ≤ 1 / 1000)
    (hc : |c - n ^ 2 / 2| ≤ 30 * ε * n ^ 3) (s0 : 0 ≤ s) (s1 : s ≤ 1 / 8) (hs : |s' - s| ≤ ε * s)
    (ha : |a - 1 / 2 * n ^ 2| ≤ ε * |1 / 2 * n ^ 2|) (hb : |b - (c - a)| ≤ ε * |c - a|) (hd : |d - (b - s')| ≤ ε * |b - s'|)
    (hq : |q - 6 / n| ≤ ε * |6 / n|) (hr : |r - q * d| ≤ ε * |q * d|) : |r - -(6 / n * s)| ≤ 200 * ε * n ^ 2 := by
  have n0 : 0 < n := by linarith
  have n2 : 0 ≤ ε * n ^ 2 := by positivity
  have n3 : 0 ≤ ε * n ^ 3 := by positivity
  have n23 : ε * n ^ 2 ≤ ε * n ^ 3 := mul_le_mul_of_nonneg_left (pow_le_pow_right₀ n1 (by norm_num)) h0
  have n03 : ε ≤ ε * n ^ 3 := le_mul_of_one_le_right h0 (one_le_pow₀ n1)
  have n3' : ε * n ^ 3 ≤ 1 / 1000 * n := by
    have := mul_le_mul_of_nonneg_right hn n0.le
    have e : ε * n ^ 2 * n = ε * n ^ 3 := by ring
    linarith
  have sml : ∀ {x : ℝ}, 0 ≤ x → ε * x ≤ 1 / 1000 * x := fun hx => mul_le_mul_of_nonneg_right h1 hx
  rw [abs_of_nonneg (by positivity : 0 ≤ 1 / 2 * n ^ 2)] at ha
  -- the difference of sums
  have k1 : |c - a| ≤ 61 / 2 * (ε * n ^ 3) := by
    have e : c - a = (c - n ^ 2 / 2) - (a - 1 / 2 * n ^ 2) := by ring
    rw [e]
    refine (abs_sub _ _).trans ?_
    linarith
  have k2 : |b| ≤ 31 * (ε * n ^ 3) := by
    have t := abs_sub_abs_le_abs_sub b (c - a)
    have := sml (abs_nonneg (c - a))
    linarith
  have k3 : |b - s' + s| ≤ 32 * (ε * n ^ 3) := by
    have e : b - s' + s = b - (s' - s) := by ring
    rw [e]
    refine (abs_sub _ _).trans ?_
    have := mul_le_mul_of_nonneg_left s1 h0
    linarith
  have k4 : |b - s'| ≤ 1 / 8 + 32 * (ε * n ^ 3) := by
    have e : b - s' = (b - s' + s) - s := by ring
    rw [e]
    refine (abs_sub _ _).trans ?_
    rw [abs_of_nonneg s0]
    linarith
  have k5 : |d - -s| ≤ 33 * (ε * n ^ 3) := by
    have e : d - -s = (d - (b - s')) + (b - s' + s) := by ring
    rw [e]
    refine (abs_add_le _ _).trans ?_
    have p := mul_le_mul_of_nonneg_left k4 h0
    have p2 := sml n3
    linarith
  have k6 : |d| ≤ 1 / 8 + 33 * (ε * n ^ 3) := by
    have t := abs_sub_abs_le_abs_sub d (-s)
    rw [abs_neg, abs_of_nonneg s0] at t
    linarith
  have q0 : 0 < 6 / n := by positivity
  rw [abs_of_pos q0] at hq
  have q6 : 6 / n ≤ 6 := by rw [div_le_iff₀ n0]; linarith
  have k7 : |q| ≤ 1001 / 1000 * (6 / n) := by
    have t := abs_sub_abs_le_abs_sub q (6 / n)
    rw [abs_of_pos q0] at t
    have := sml q0.le
    linarith
  have m1 : 6 / n * (ε * n ^ 3) = 6 * (ε * n ^ 2) := by field_simp
  have e12 : ε ≤ ε * n ^ 2 := le_mul_of_one_le_right h0 (one_le_pow₀ n1)
  have m2 : ε * (6 / n) ≤ 6 * (ε * n ^ 2) := by
    have := mul_le_mul_of_nonneg_left q6 h0
    linarith
  -- the product
  have k8 : |q * d| ≤ 1001 / 1000 * (6 / n * (1 / 8) + 33 * (6 * (ε * n ^ 2))) := by
    rw [abs_mul]
    refine (mul_le_mul k7 k6 (abs_nonneg _) (by positivity)).trans (le_of_eq ?_)
    rw [← m1]; ring
  have k9 : |q * d - -(6 / n * s)| ≤ 1001 / 1000 * (33 * (6 * (ε * n ^ 2))) + 1 / 8 * (ε * (6 / n)) := by
    have e : q * d - -(6 / n * s) = q * (d - -s) - (q - 6 / n) * s := by ring
    rw [e]
    refine (abs_sub _ _).trans ?_
    rw [abs_mul, abs_mul, abs_of_nonneg s0]
    have p1 := mul_le_mul k7 k5 (abs_nonneg _) (by positivity)
    have p2 := mul_le_mul hq s1 s0 (by positivity)
    have e2 : 1001 / 1000 * (6 / n) * (33 * (ε * n ^ 3)) = 1001 / 1000 * (33 * (6 / n * (ε * n ^ 3))) := by ring
    rw [e2, m1] at p1
    linarith
  have t := abs_sub_le r (q * d) (-(6 / n * s))
  have k10 := mul_le_mul_of_nonneg_left k8 h0
  have k11 : ε * (33 * (6 * (ε * n ^ 2))) ≤ 198 / 1000 * (ε * n ^ 2) := by
    have := sml n2
    linarith
  linarith

/-- The coefficients of the correction with rounding are accurate up to 200 units of rounding times the square of their index. -/
theorem coefs_near (hr : Rounds ε rnd) (h0 : 0 ≤ ε) (hpi : 0 < pi) (sh : Shape) {g : Grid ℝ} (hz : 0 < g.dz) (hd : 0 < g.dr)
    {n : ℕ} (hn : n ≤ g.nr) (hε : ε * (n : ℝ) ^ 2 ≤ 1 / 1000) :
    |coefs rnd pi sh g n - exactAt sh g n| ≤ 200 * ε * (n : ℝ) ^ 2 := by
  rcases Nat.eq_zero_or_pos n with rfl | hp
  · cases sh <;> simp [coefs, exactAt, ruytenLinear, ruytenCubic]
  have n1 : (1 : ℝ) ≤ n := by exact_mod_cast hp
  have h1 : ε ≤ 1 / 1000 := le_trans (le_mul_of_one_le_right h0 (one_le_pow₀ n1)) hε
  have hn1 : ε * n ≤ 1 / 1000 := le_trans (mul_le_mul_of_nonneg_left (by nlinarith) h0) hε
  have hnz : n ≠ 0 := hp.ne'
  have hif : ¬(n = 0 ∨ g.nr < n) := by omega
  have ec : ((n - 1 : ℕ) : ℝ) + 1 = n := by exact_mod_cast Nat.sub_add_cancel hp
  have hc := cumsum_near hr h0 h1 hpi hz hd (n - 1) (by rw [ec]; exact hn1)
  rw [ec] at hc
  have n0 : (n : ℝ) ≠ 0 := by linarith
  cases sh with
  | linear =>
    simp only [coefs, exactAt, if_neg hif]
    rw [ruytenLinear_eq g hd hnz]
    have := coef_step h0 h1 n1 hε hc (s := 1 / 24) (by norm_num) (by norm_num) (by
      have := hr (1 / 24); rwa [abs_of_pos (by norm_num : (0 : ℝ) < 1 / 24)] at this) (hr _) (hr _) (hr _) (hr _) (hr _)
    have e : 6 / (n : ℝ) * (1 / 24) = 1 / (4 * n) := by field_simp; norm_num
    rw [e] at this
    exact this
  | cubic =>
    simp only [coefs, exactAt, if_neg hif]
    by_cases h : n = 1
    · subst h
      rw [if_pos rfl, ruytenCubic_one g hd]
      have v := volumeNorm_near hr h0 h1 hpi hz hd 0
      generalize volumeNorm rnd pi g 0 = V at *
      simp only [Nat.cast_zero, zero_add, one_pow, mul_one, Nat.cast_one] at v ⊢
      have c1 := hr (239 / (15 * 2 ^ 7))
      have c2 := hr (V - 1 / 2)
      rw [abs_of_pos (by norm_num : (0 : ℝ) < 239 / (15 * 2 ^ 7))] at c1
      generalize rnd (239 / (15 * 2 ^ 7)) = A at *
      generalize rnd (V - 1 / 2) = B at *
      have c3 := hr (B - A)
      generalize rnd (B - A) = D at *
      have c4 := hr (6 * D)
      generalize rnd (6 * D) = R at *
      have d2 : |B| ≤ 25 * ε := by
        have t := abs_sub_abs_le_abs_sub B (V - 1 / 2)
        have := mul_le_mul_of_nonneg_right h1 (abs_nonneg (V - 1 / 2))
        linarith
      have d3 : |B - A - -(239 / 1920)| ≤ 26 * ε := by
        have e : B - A - -(239 / 1920) = B - (A - 239 / (15 * 2 ^ 7)) := by norm_num; ring
        rw [e]
        refine (abs_sub _ _).trans ?_
        norm_num at c1 ⊢
        linarith
      have d4 : |B - A| ≤ 1 := by
        rw [abs_le] at d3 ⊢
        constructor <;> linarith [d3.1, d3.2]
      have d5 : |D - -(239 / 1920)| ≤ 27 * ε := by
        have t := abs_sub_le D (B - A) (-(239 / 1920))
        have := mul_le_mul_of_nonneg_left d4 h0
        linarith
      have d6 : |6 * D| ≤ 2 := by
        rw [abs_le] at d5 ⊢
        constructor <;> linarith [d5.1, d5.2]
      have d7 := mul_le_mul_of_nonneg_left d6 h0
      rw [abs_le] at c4 d5 ⊢
      constructor <;> linarith [c4.1, c4.2, d5.1, d5.2]
    · rw [if_neg h, ruytenCubic_eq g hd (by omega)]
      have := coef_step h0 h1 n1 hε hc (s := 1 / 8) (s' := 1 / 8) (by norm_num) (by norm_num) (by rw [sub_self, abs_zero]; positivity)
        (hr _) (hr _) (hr _) (hr _) (hr _)
      have e : 6 / (n : ℝ) * (1 / 8) = 3 / (4 * n) := by field_simp; norm_num
      rw [e] at this
      exact this

/-- The coefficients are at most one, as is required for the charge to be right. -/
theorem roundedCoef_small (hr : Rounds ε rnd) (h0 : 0 ≤ ε) (hpi : 0 < pi) (sh : Shape) (ruyten : Bool) {g : Grid ℝ} (hz : 0 < g.dz) (hd : 0 < g.dr)
    (hε : ε * (g.nr : ℝ) ^ 2 ≤ 1 / 1000) : SmallCoef (roundedCoef rnd pi sh ruyten g) := by
  intro c hc k
  cases ruyten with
  | false => simp [roundedCoef] at hc
  | true =>
    simp only [roundedCoef, if_true, Option.some.injEq] at hc
    subst hc
    by_cases hk : k ≤ g.nr
    · have kn : (k : ℝ) ^ 2 ≤ (g.nr : ℝ) ^ 2 := pow_le_pow_left₀ (Nat.cast_nonneg _) (by exact_mod_cast hk) 2
      have he := (mul_le_mul_of_nonneg_left kn h0).trans hε
      have near := coefs_near hr h0 hpi sh hz hd hk he
      have ex : |exactAt sh g k| ≤ 3 / 4 := by
        rcases Nat.eq_zero_or_pos k with rfl | hp
        · cases sh <;> norm_num [exactAt, ruytenLinear, ruytenCubic]
        have k1 : (1 : ℝ) ≤ k := by exact_mod_cast hp
        cases sh with
        | linear =>
          simp only [exactAt]
          rw [ruytenLinear_eq g hd hp.ne', abs_neg, abs_of_nonneg (by positivity), div_le_iff₀ (by linarith)]
          linarith
        | cubic =>
          simp only [exactAt]
          by_cases h : k = 1
          · subst h
            rw [ruytenCubic_one g hd]
            norm_num [abs_le]
          · rw [ruytenCubic_eq g hd (by omega), abs_neg, abs_of_nonneg (by positivity), div_le_iff₀ (by linarith)]
            linarith
      have t := abs_sub_abs_le_abs_sub (coefs rnd pi sh g k) (exactAt sh g k)
      linarith
    · have : g.nr < k := by omega
      simp [coefs, this]

/-- The charge on the grid, when the coefficients are computed with rounding too. -/
theorem rounded_charge_error_coef (hr : Rounds ε rnd) (h0 : 0 ≤ ε) (h1 : ε ≤ 1 / 1000) (hpi : 0 < pi) (sh : Shape) (ruyten : Bool) {g : Grid ℝ}
    (hg : Resolved ε g) (hε : ε * (g.nr : ℝ) ^ 2 ≤ 1 / 1000) (ps : List Part) (hN : ps.length * ε ≤ 1) :
    |(∑ c ∈ cells g, deposit rnd sh (roundedCoef rnd pi sh ruyten g) g ps (fun _ _ => 0) c.1 c.2) - charge rnd g ps| ≤
      (200 + 10 * ps.length) * ε * (ps.map fun p => |p.w|).sum :=
  rounded_charge_error hr h0 h1 sh (roundedCoef_small hr h0 hpi sh ruyten hg.dz hg.dr hε) hg ps hN

/-- Without rounding these are the coefficients of `Verif.Deposition.Model`. -/
theorem exact_coefs (hpi : 0 < pi) (sh : Shape) {g : Grid ℝ} (hz : 0 < g.dz) (hd : 0 < g.dr) {n : ℕ} (hn : n ≤ g.nr) :
    coefs id pi sh g n = exactAt sh g n := by
  have := coefs_near Base.rounds_id le_rfl hpi sh hz hd hn (by norm_num)
  rw [mul_zero, zero_mul] at this
  exact sub_eq_zero.mp (abs_eq_zero.mp (le_antisymm this (abs_nonneg _)))

/-- Numbers of 64 bits and a thousand radial cells: the coefficients are right to seven digits after the point. -/
example (sh : Shape) (n : ℕ) (hn : n ≤ 1000) :
    let ε : ℝ := 1 / 2 ^ 53
    let g : Grid ℝ := ⟨-100, 1 / 20, 1000, 1000, 1 / 10, 1 / 10⟩
    |coefs (fun x => (1 + ε) * x) 3 sh g n - exactAt sh g n| ≤ 1 / 10 ^ 7 := by
  intro ε g
  have h0 : 0 ≤ ε := by positivity
  have hr : Rounds ε (fun x => (1 + ε) * x) := by
    intro x
    have e : (1 + ε) * x - x = ε * x := by ring
    rw [e, abs_mul, abs_of_nonneg h0]
  have n2 : (n : ℝ) ^ 2 ≤ 1000 ^ 2 := pow_le_pow_left₀ (Nat.cast_nonneg _) (by exact_mod_cast hn) 2
  have e2 := mul_le_mul_of_nonneg_left n2 h0
  refine (coefs_near hr h0 (by norm_num) sh (by norm_num [g]) (by norm_num [g]) hn (e2.trans (by norm_num [ε]))).trans ?_
  have : 200 * ε * (n : ℝ) ^ 2 = 200 * (ε * (n : ℝ) ^ 2) := by ring
  rw [this]
  refine (mul_le_mul_of_nonneg_left e2 (by norm_num)).trans ?_
  norm_num [ε]

end WakeT.Deposition.Rounded
