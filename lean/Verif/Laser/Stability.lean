import Verif.Laser.EnvelopeEq
import Mathlib.Algebra.BigOperators.Field

/-! # Stability of the laser solver (C176) -/

set_option linter.unusedSectionVars false

namespace WakeT.Laser

open Complex (I)

/-! ### Specification -/

/-- The values of a row at the points of the grid, zero from `n` on. -/
def cut (n : ℕ) (f : RowC) (k : ℕ) : ℂ := if k < n then f k else 0

/-- `∫ |∂a/∂r|² r dr` for one slice (in units of the grid: the sum over the cell boundaries at the radii `(k + 1) dr`, of which the outermost lies next to the zero outside). -/
noncomputable def gradE (n : ℕ) (dr : ℝ) (f : RowC) : ℝ :=
  ∑ k ∈ Finset.range n, ((k : ℝ) + 1) * ‖cut n f (k + 1) - cut n f k‖ ^ 2 / dr ^ 2

/-- `∫ χ |a|² r dr` for one slice. -/
noncomputable def chiE (n : ℕ) (chi : ℕ → ℝ) (f : RowC) : ℝ := ∑ k ∈ Finset.range n, ((k : ℝ) + 1 / 2) * (chi k * ‖f k‖ ^ 2)

/-- `∫∫ (|∂a/∂r|² + χ |a|²) r dr dz` over the box. -/
noncomputable def fieldE (p : EnvParams) (chi : ℕ → ℕ → ℝ) (a : GridC) : ℝ :=
  ∑ j ∈ Finset.range p.nz, (gradE p.nr p.dr (a j) + chiE p.nr (chi j) (a j))

/-- `∫∫ |a - b|² r dr dz` over the box. -/
noncomputable def distE (p : EnvParams) (a b : GridC) : ℝ :=
  ∑ j ∈ Finset.range p.nz, ∑ k ∈ Finset.range p.nr, ((k : ℝ) + 1 / 2) * ‖a j k - b j k‖ ^ 2

/-- The energy of two successive levels: `|∂a/∂r|² + χ |a|²` on average, and `|∂a/∂t|²` between them. -/
noncomputable def levelE (p : EnvParams) (chi : ℕ → ℕ → ℝ) (old new : GridC) : ℝ :=
  (fieldE p chi new + fieldE p chi old) / 2 + distE p new old / p.dtn ^ 2

/-- By how much three levels fail to satisfy the discretised envelope equation of C87, with the phases `ph`. -/
noncomputable def defect (p : EnvParams) (chi : ℕ → ℕ → ℝ) (ph : ℕ → ℝ) (old mid new : GridC) (j k : ℕ) : ℂ :=
  let u := fun i => (new i k - old i k) / (2 * p.dtn : ℂ)
  lapl p.nr p.dr (fun k => (new j k + old j k) / 2) k + 2 * I * (p.k0 / p.kp) * u j +
      2 * diffZ p.dz (p.theta ph j) (u j) (u (j + 1)) (u (j + 2)) -
      (new j k - 2 * mid j k + old j k) / (p.dtn : ℂ) ^ 2 -
    chi j k * ((new j k + old j k) / 2)

/-! ### Radial part -/

theorem sum_parts (α g : ℕ → ℂ) (h0 : α 0 = 0) (n : ℕ) :
    ∑ k ∈ Finset.range n, (α (k + 1) - α k) * g k = α n * g n - ∑ k ∈ Finset.range n, α (k + 1) * (g (k + 1) - g k) := by
  induction n with
  | zero => simp [h0]
  | succ n ih => rw [Finset.sum_range_succ, ih, Finset.sum_range_succ]; ring

theorem lapl_flux (n : ℕ) (dr : ℝ) (hdr : dr ≠ 0) (f : RowC) {k : ℕ} (hk : k < n) :
    ((k : ℂ) + 1 / 2) * lapl n dr f k =
      ((((k + 1 : ℕ) : ℂ) * (cut n f (k + 1) - cut n f k)) - (k : ℂ) * (cut n f k - cut n f (k - 1))) / dr ^ 2 := by
  have hc : (dr : ℂ) ≠ 0 := by exact_mod_cast hdr
  have hk' : (2 * (k : ℂ) + 1) ≠ 0 := by exact_mod_cast (by omega : 2 * k + 1 ≠ 0)
  have e : ((k : ℂ) + 1 / 2) = (2 * (k : ℂ) + 1) / 2 := by ring
  have hcut : cut n f k = f k := if_pos hk
  have hup : cut n f (k + 1) = if k + 1 < n then f (k + 1) else 0 := rfl
  have hdown : (k : ℂ) * cut n f (k - 1) = k * (if 0 < k then f (k - 1) else 0) := by
    rcases Nat.eq_zero_or_pos k with rfl | h
    · simp
    · rw [if_pos h, cut, if_pos (by omega)]
  rw [mul_sub (k : ℂ), hdown, hcut, hup]
  unfold lapl
  dsimp only
  generalize (if k + 1 < n then f (k + 1) else 0) = up
  generalize (if 0 < k then f (k - 1) else 0) = down
  push_cast
  rw [e]
  field_simp
  ring

theorem re_polar (a b : ℂ) : ((a + b) * star (a - b)).re = ‖a‖ ^ 2 - ‖b‖ ^ 2 := by
  rw [← Complex.normSq_eq_norm_sq, ← Complex.normSq_eq_norm_sq, Complex.normSq_apply, Complex.normSq_apply]
  simp [Complex.mul_re]
  ring

/-- Green's identity. -/
theorem lapl_energy (n : ℕ) (dr : ℝ) (hdr : dr ≠ 0) (x y : RowC) :
    ∑ k ∈ Finset.range n, ((k : ℝ) + 1 / 2) * (lapl n dr (fun k => (x k + y k) / 2) k * star (x k - y k)).re =
      -(gradE n dr x - gradE n dr y) / 2 := by
  set F := cut n (fun k => (x k + y k) / 2) with hF
  set G : ℕ → ℂ := fun k => star (cut n x k - cut n y k) with hG
  have hc : (dr : ℂ) ≠ 0 := by exact_mod_cast hdr
  have h1 : ∀ k ∈ Finset.range n, ((k : ℝ) + 1 / 2) * (lapl n dr (fun k => (x k + y k) / 2) k * star (x k - y k)).re =
      (((((k + 1 : ℕ) : ℂ) * (F (k + 1) - F k)) - (k : ℂ) * (F k - F (k - 1))) * G k).re / dr ^ 2 := by
    intro k hk
    have hk' := Finset.mem_range.mp hk
    have h2 := lapl_flux n dr hdr (fun k => (x k + y k) / 2) hk'
    have h3 : G k = star (x k - y k) := by
      show star (cut n x k - cut n y k) = _
      rw [cut, cut, if_pos hk', if_pos hk']
    rw [h3]
    have h4 : (((k : ℝ) + 1 / 2 : ℝ) : ℂ) = (k : ℂ) + 1 / 2 := by push_cast; ring
    rw [← Complex.re_ofReal_mul, h4, ← mul_assoc, h2, div_mul_eq_mul_div]
    have h5 : ((dr : ℂ) ^ 2) = ((dr ^ 2 : ℝ) : ℂ) := by push_cast; ring
    rw [h5, Complex.div_ofReal_re]
  rw [Finset.sum_congr rfl h1, ← Finset.sum_div, ← Complex.re_sum]
  have h6 := sum_parts (fun k => (k : ℂ) * (F k - F (k - 1))) G (by simp) n
  simp only [Nat.add_sub_cancel] at h6
  rw [h6]
  have h7 : G n = 0 := by
    show star (cut n x n - cut n y n) = 0
    rw [cut, cut, if_neg (by omega), if_neg (by omega)]
    simp
  rw [h7, mul_zero, zero_sub, Complex.neg_re, Complex.re_sum]
  unfold gradE
  rw [← Finset.sum_sub_distrib, neg_div, neg_div, Finset.sum_div, Finset.sum_div]
  congr 1
  refine Finset.sum_congr rfl fun k _ => ?_
  have h8 : F (k + 1) - F k = ((cut n x (k + 1) - cut n x k) + (cut n y (k + 1) - cut n y k)) / 2 := by
    have : ∀ i, F i = (cut n x i + cut n y i) / 2 := by
      intro i
      show cut n _ i = _
      unfold cut
      split_ifs
      · rfl
      · simp
    rw [this, this]; ring
  have h9 : G (k + 1) - G k = star ((cut n x (k + 1) - cut n x k) - (cut n y (k + 1) - cut n y k)) := by
    show star _ - star _ = _
    rw [← star_sub]; congr 1; ring
  rw [h8, h9]
  set A := cut n x (k + 1) - cut n x k
  set B := cut n y (k + 1) - cut n y k
  have h10 : ((k + 1 : ℕ) : ℂ) * ((A + B) / 2) * star (A - B) = (((k : ℝ) + 1) / 2 : ℝ) * ((A + B) * star (A - B)) := by
    push_cast; ring
  rw [h10, Complex.re_ofReal_mul, re_polar]
  ring

/-! ### Longitudinal part -/

/-- The two-step difference is G-stable (Dahlquist). -/
theorem bdf2 (x y z : ℂ) :
    ((3 / 2 * x - 2 * y + 1 / 2 * z) * star x).re =
      (‖x‖ ^ 2 + ‖2 * x - y‖ ^ 2) / 4 - (‖y‖ ^ 2 + ‖2 * y - z‖ ^ 2) / 4 + ‖x - 2 * y + z‖ ^ 2 / 4 := by
  simp only [← Complex.normSq_eq_norm_sq, Complex.normSq_apply]
  simp [Complex.mul_re, Complex.mul_im]
  ring

/-- What the upstream end of a slice contributes. -/
noncomputable def frontE (p : EnvParams) (ph : ℕ → ℝ) (d : ℕ → ℂ) (j : ℕ) : ℝ :=
  (‖d j‖ ^ 2 + ‖2 * d j - Complex.exp (-I * (p.theta ph j).1) * d (j + 1)‖ ^ 2) / 4

theorem norm_phase (t : ℝ) : ‖Complex.exp (-I * t)‖ = 1 := by
  rw [show -I * (t : ℂ) = ((-t : ℝ) : ℂ) * I by push_cast; ring]
  exact Complex.norm_exp_ofReal_mul_I _

theorem theta_next (p : EnvParams) (ph : ℕ → ℝ) (j : ℕ) : (p.theta ph (j + 1)).1 = (p.theta ph j).2 := by
  unfold EnvParams.theta
  split_ifs <;> rfl

theorem diffZ_energy (p : EnvParams) (hz : 0 < p.dz) (ph : ℕ → ℝ) (d : ℕ → ℂ) (j : ℕ) :
    (diffZ p.dz (p.theta ph j) (d j) (d (j + 1)) (d (j + 2)) * star (d j)).re ≤
      (frontE p ph d (j + 1) - frontE p ph d j) / p.dz := by
  set th := p.theta ph j with hth
  set y := Complex.exp (-I * th.1) * d (j + 1) with hy
  set z := Complex.exp (-I * (th.1 + th.2)) * d (j + 2) with hzz
  have e1 : diffZ p.dz th (d j) (d (j + 1)) (d (j + 2)) * star (d j) =
      ((-(1 / p.dz) : ℝ) : ℂ) * ((3 / 2 * d j - 2 * y + 1 / 2 * z) * star (d j)) +
        I * (((3 / 2 * th.1 - 1 / 2 * th.2) / p.dz * ‖d j‖ ^ 2 : ℝ) : ℂ) := by
    have hn : d j * star (d j) = ((‖d j‖ ^ 2 : ℝ) : ℂ) := by
      have := Complex.mul_conj (d j)
      rw [Complex.normSq_eq_norm_sq] at this
      exact this
    have hc : (p.dz : ℂ) ≠ 0 := by exact_mod_cast hz.ne'
    have hn' : ((‖d j‖ : ℂ)) ^ 2 = d j * star (d j) := by rw [hn]; push_cast; ring
    unfold diffZ
    rw [← hy, ← hzz]
    push_cast
    rw [hn']
    field_simp
    ring
  have e2 : (I * (((3 / 2 * th.1 - 1 / 2 * th.2) / p.dz * ‖d j‖ ^ 2 : ℝ) : ℂ)).re = 0 := by
    rw [mul_comm, Complex.re_ofReal_mul, Complex.I_re, mul_zero]
  rw [e1, Complex.add_re, e2, add_zero, Complex.re_ofReal_mul, bdf2]
  have n1 : ‖y‖ = ‖d (j + 1)‖ := by rw [hy, norm_mul, norm_phase, one_mul]
  have n2 : ‖2 * y - z‖ = ‖2 * d (j + 1) - Complex.exp (-I * (p.theta ph (j + 1)).1) * d (j + 2)‖ := by
    have : 2 * y - z = Complex.exp (-I * th.1) * (2 * d (j + 1) - Complex.exp (-I * (p.theta ph (j + 1)).1) * d (j + 2)) := by
      rw [theta_next, ← hth, hy, hzz, mul_add, Complex.exp_add]; ring
    rw [this, norm_mul, norm_phase, one_mul]
  have f1 : frontE p ph d (j + 1) = (‖y‖ ^ 2 + ‖2 * y - z‖ ^ 2) / 4 := by rw [n1, n2]; rfl
  have f0 : frontE p ph d j = (‖d j‖ ^ 2 + ‖2 * d j - y‖ ^ 2) / 4 := rfl
  rw [f1, f0]
  have h4 : 0 ≤ ‖d j - 2 * y + z‖ ^ 2 / 4 := by positivity
  have h5 : 0 < 1 / p.dz := by positivity
  generalize (‖d j‖ ^ 2 + ‖2 * d j - y‖ ^ 2) / 4 = A at *
  generalize (‖y‖ ^ 2 + ‖2 * y - z‖ ^ 2) / 4 = B at *
  generalize ‖d j - 2 * y + z‖ ^ 2 / 4 = C at *
  have h6 : (B - A) / p.dz = (B - A) * (1 / p.dz) := by ring
  rw [h6]
  nlinarith only [h4, h5, mul_nonneg h4 h5.le]

/-! ### Balance of energy -/

theorem defect_point (p : EnvParams) (hz : 0 < p.dz) (ht : 0 < p.dtn) (chi : ℕ → ℕ → ℝ) (ph : ℕ → ℝ) (old mid new : GridC) (j k : ℕ) :
    (defect p chi ph old mid new j k * star (new j k - old j k)).re ≤
      (lapl p.nr p.dr (fun k => (new j k + old j k) / 2) k * star (new j k - old j k)).re +
        4 * p.dtn / p.dz * (frontE p ph (fun i => (new i k - old i k) / (2 * p.dtn : ℂ)) (j + 1) - frontE p ph (fun i => (new i k - old i k) / (2 * p.dtn : ℂ)) j) -
        (‖new j k - mid j k‖ ^ 2 - ‖mid j k - old j k‖ ^ 2) / p.dtn ^ 2 - chi j k * (‖new j k‖ ^ 2 - ‖old j k‖ ^ 2) / 2 := by
  have htc : (p.dtn : ℂ) ≠ 0 := by exact_mod_cast ht.ne'
  set u : ℕ → ℂ := fun i => (new i k - old i k) / (2 * p.dtn : ℂ) with hu
  have hD : new j k - old j k = ((2 * p.dtn : ℝ) : ℂ) * u j := by
    show _ = _ * ((new j k - old j k) / (2 * p.dtn : ℂ))
    push_cast
    field_simp
  have hS : star (new j k - old j k) = ((2 * p.dtn : ℝ) : ℂ) * star (u j) := by
    rw [hD, star_mul', ← starRingEnd_apply, Complex.conj_ofReal]
  have h1 : (2 * I * (p.k0 / p.kp) * u j * star (new j k - old j k)).re = 0 := by
    have hn : u j * star (u j) = ((‖u j‖ ^ 2 : ℝ) : ℂ) := by
      have := Complex.mul_conj (u j)
      rw [Complex.normSq_eq_norm_sq] at this
      exact this
    have e : 2 * I * (p.k0 / p.kp) * u j * star (new j k - old j k) = ((4 * p.dtn * (p.k0 / p.kp) * ‖u j‖ ^ 2 : ℝ) : ℂ) * I := by
      rw [hS]
      have : 2 * I * (p.k0 / p.kp) * u j * (((2 * p.dtn : ℝ) : ℂ) * star (u j)) = 2 * I * (p.k0 / p.kp) * ((2 * p.dtn : ℝ) : ℂ) * (u j * star (u j)) := by ring
      rw [this, hn]
      push_cast
      ring
    rw [e, Complex.re_ofReal_mul, Complex.I_re, mul_zero]
  have h2 : (2 * diffZ p.dz (p.theta ph j) (u j) (u (j + 1)) (u (j + 2)) * star (new j k - old j k)).re ≤
      4 * p.dtn / p.dz * (frontE p ph u (j + 1) - frontE p ph u j) := by
    have e : 2 * diffZ p.dz (p.theta ph j) (u j) (u (j + 1)) (u (j + 2)) * star (new j k - old j k) =
        ((4 * p.dtn : ℝ) : ℂ) * (diffZ p.dz (p.theta ph j) (u j) (u (j + 1)) (u (j + 2)) * star (u j)) := by
      rw [hS]; push_cast; ring
    rw [e, Complex.re_ofReal_mul]
    have h3 := mul_le_mul_of_nonneg_left (diffZ_energy p hz ph u j) (by positivity : (0 : ℝ) ≤ 4 * p.dtn)
    refine h3.trans (le_of_eq ?_)
    ring
  have h3 : ((new j k - 2 * mid j k + old j k) / (p.dtn : ℂ) ^ 2 * star (new j k - old j k)).re =
      (‖new j k - mid j k‖ ^ 2 - ‖mid j k - old j k‖ ^ 2) / p.dtn ^ 2 := by
    have e : (new j k - 2 * mid j k + old j k) / (p.dtn : ℂ) ^ 2 * star (new j k - old j k) =
        (((new j k - mid j k) + -(mid j k - old j k)) * star ((new j k - mid j k) - -(mid j k - old j k))) / ((p.dtn ^ 2 : ℝ) : ℂ) := by
      have e1 : (new j k - mid j k) - -(mid j k - old j k) = new j k - old j k := by ring
      have e2 : (new j k - mid j k) + -(mid j k - old j k) = new j k - 2 * mid j k + old j k := by ring
      rw [e1, e2]; push_cast; ring
    rw [e, Complex.div_ofReal_re, re_polar, norm_neg]
  have h4 : (chi j k * ((new j k + old j k) / 2) * star (new j k - old j k)).re = chi j k * (‖new j k‖ ^ 2 - ‖old j k‖ ^ 2) / 2 := by
    have e : chi j k * ((new j k + old j k) / 2) * star (new j k - old j k) = ((chi j k / 2 : ℝ) : ℂ) * ((new j k + old j k) * star (new j k - old j k)) := by
      push_cast; ring
    rw [e, Complex.re_ofReal_mul, re_polar]
    ring
  have h5 : defect p chi ph old mid new j k * star (new j k - old j k) =
      lapl p.nr p.dr (fun k => (new j k + old j k) / 2) k * star (new j k - old j k) + 2 * I * (p.k0 / p.kp) * u j * star (new j k - old j k) +
        2 * diffZ p.dz (p.theta ph j) (u j) (u (j + 1)) (u (j + 2)) * star (new j k - old j k) -
        (new j k - 2 * mid j k + old j k) / (p.dtn : ℂ) ^ 2 * star (new j k - old j k) -
      chi j k * ((new j k + old j k) / 2) * star (new j k - old j k) := by
    unfold defect
    dsimp only
    ring
  rw [h5, Complex.sub_re, Complex.sub_re, Complex.add_re, Complex.add_re, h1, h3, h4]
  linarith

theorem frontE_sum (p : EnvParams) (ph : ℕ → ℝ) (d : ℕ → ℂ) (h1 : d p.nz = 0) (h2 : d (p.nz + 1) = 0) :
    ∑ j ∈ Finset.range p.nz, (frontE p ph d (j + 1) - frontE p ph d j) ≤ 0 := by
  rw [Finset.sum_range_sub]
  have h3 : frontE p ph d p.nz = 0 := by
    unfold frontE
    rw [h1, h2]; simp
  have h4 : 0 ≤ frontE p ph d 0 := by unfold frontE; positivity
  linarith

/-- The energy balance of three levels that need not satisfy any equation: what the energy gains comes from the defect. -/
theorem balance (p : EnvParams) (hz : 0 < p.dz) (hr : 0 < p.dr) (ht : 0 < p.dtn) (chi : ℕ → ℕ → ℝ) (ph : ℕ → ℝ) (old mid new : GridC)
    (h1 : new p.nz = old p.nz) (h2 : new (p.nz + 1) = old (p.nz + 1)) :
    (fieldE p chi new - fieldE p chi old) / 2 + (distE p new mid - distE p mid old) / p.dtn ^ 2 ≤
      -∑ j ∈ Finset.range p.nz, ∑ k ∈ Finset.range p.nr, ((k : ℝ) + 1 / 2) * (defect p chi ph old mid new j k * star (new j k - old j k)).re := by
  set L : ℕ → ℕ → ℝ := fun j k => (lapl p.nr p.dr (fun k => (new j k + old j k) / 2) k * star (new j k - old j k)).re with hL
  set Fr : ℕ → ℕ → ℝ := fun k j => frontE p ph (fun i => (new i k - old i k) / (2 * p.dtn : ℂ)) j with hFr
  set T : ℕ → ℕ → ℝ := fun j k => ‖new j k - mid j k‖ ^ 2 - ‖mid j k - old j k‖ ^ 2 with hT
  set X : ℕ → ℕ → ℝ := fun j k => chi j k * (‖new j k‖ ^ 2 - ‖old j k‖ ^ 2) with hX
  have hpt : ∀ j k : ℕ, ((k : ℝ) + 1 / 2) * (defect p chi ph old mid new j k * star (new j k - old j k)).re ≤
      ((k : ℝ) + 1 / 2) * L j k + 4 * p.dtn / p.dz * (((k : ℝ) + 1 / 2) * (Fr k (j + 1) - Fr k j)) - ((k : ℝ) + 1 / 2) * T j k / p.dtn ^ 2 -
        ((k : ℝ) + 1 / 2) * X j k / 2 := by
    intro j k
    have h := mul_le_mul_of_nonneg_left (defect_point p hz ht chi ph old mid new j k) (by positivity : (0 : ℝ) ≤ (k : ℝ) + 1 / 2)
    refine h.trans (le_of_eq ?_)
    show ((k : ℝ) + 1 / 2) * (L j k + 4 * p.dtn / p.dz * (Fr k (j + 1) - Fr k j) - T j k / p.dtn ^ 2 - X j k / 2) = _
    ring
  have hsum := Finset.sum_le_sum fun j (_ : j ∈ Finset.range p.nz) => Finset.sum_le_sum fun k (_ : k ∈ Finset.range p.nr) => hpt j k
  simp only [Finset.sum_sub_distrib, Finset.sum_add_distrib] at hsum
  have e1 : ∀ j, ∑ k ∈ Finset.range p.nr, ((k : ℝ) + 1 / 2) * L j k = -(gradE p.nr p.dr (new j) - gradE p.nr p.dr (old j)) / 2 :=
    fun j => lapl_energy p.nr p.dr hr.ne' (new j) (old j)
  have e2 : ∑ j ∈ Finset.range p.nz, ∑ k ∈ Finset.range p.nr, 4 * p.dtn / p.dz * (((k : ℝ) + 1 / 2) * (Fr k (j + 1) - Fr k j)) ≤ 0 := by
    rw [Finset.sum_comm]
    refine Finset.sum_nonpos fun k _ => ?_
    rw [← Finset.mul_sum, ← Finset.mul_sum]
    have h3 := frontE_sum p ph (fun i => (new i k - old i k) / (2 * p.dtn : ℂ)) (by simp [h1]) (by simp [h2])
    have h4 : (0 : ℝ) ≤ 4 * p.dtn / p.dz := by positivity
    exact mul_nonpos_of_nonneg_of_nonpos h4 (mul_nonpos_of_nonneg_of_nonpos (by positivity) h3)
  have e3 : ∑ j ∈ Finset.range p.nz, ∑ k ∈ Finset.range p.nr, ((k : ℝ) + 1 / 2) * T j k / p.dtn ^ 2 = (distE p new mid - distE p mid old) / p.dtn ^ 2 := by
    unfold distE
    rw [← Finset.sum_sub_distrib, Finset.sum_div]
    refine Finset.sum_congr rfl fun j _ => ?_
    rw [← Finset.sum_sub_distrib, Finset.sum_div]
    refine Finset.sum_congr rfl fun k _ => ?_
    show ((k : ℝ) + 1 / 2) * (‖new j k - mid j k‖ ^ 2 - ‖mid j k - old j k‖ ^ 2) / p.dtn ^ 2 = _
    ring
  have e4 : ∀ j, ∑ k ∈ Finset.range p.nr, ((k : ℝ) + 1 / 2) * X j k / 2 = (chiE p.nr (chi j) (new j) - chiE p.nr (chi j) (old j)) / 2 := by
    intro j
    unfold chiE
    rw [← Finset.sum_sub_distrib, Finset.sum_div]
    refine Finset.sum_congr rfl fun k _ => ?_
    show ((k : ℝ) + 1 / 2) * (chi j k * (‖new j k‖ ^ 2 - ‖old j k‖ ^ 2)) / 2 = _
    ring
  have e5 : (fieldE p chi new - fieldE p chi old) / 2 =
      -(∑ j ∈ Finset.range p.nz, -(gradE p.nr p.dr (new j) - gradE p.nr p.dr (old j)) / 2) +
        ∑ j ∈ Finset.range p.nz, (chiE p.nr (chi j) (new j) - chiE p.nr (chi j) (old j)) / 2 := by
    unfold fieldE
    rw [← Finset.sum_neg_distrib, ← Finset.sum_add_distrib, ← Finset.sum_sub_distrib, Finset.sum_div]
    refine Finset.sum_congr rfl fun j _ => ?_
    ring
  simp only [e1, e4] at hsum
  rw [e3] at hsum
  rw [e5]
  linarith

/-- **C176.** Levels that satisfy the discretised envelope equation at all points of the grid never gain energy, whatever the step, the phases and the susceptibility. -/
theorem scheme_stable (p : EnvParams) (hz : 0 < p.dz) (hr : 0 < p.dr) (ht : 0 < p.dtn) (chi : ℕ → ℕ → ℝ) (ph : ℕ → ℝ) (old mid new : GridC)
    (h1 : new p.nz = old p.nz) (h2 : new (p.nz + 1) = old (p.nz + 1))
    (heq : ∀ j < p.nz, ∀ k < p.nr, defect p chi ph old mid new j k = 0) : levelE p chi mid new ≤ levelE p chi old mid := by
  have h := balance p hz hr ht chi ph old mid new h1 h2
  have h0 : ∑ j ∈ Finset.range p.nz, ∑ k ∈ Finset.range p.nr, ((k : ℝ) + 1 / 2) * (defect p chi ph old mid new j k * star (new j k - old j k)).re = 0 := by
    refine Finset.sum_eq_zero fun j hj => Finset.sum_eq_zero fun k hk => ?_
    rw [heq j (Finset.mem_range.mp hj) k (Finset.mem_range.mp hk), zero_mul, Complex.zero_re, mul_zero]
  rw [h0] at h
  unfold levelE
  have e : (distE p new mid - distE p mid old) / p.dtn ^ 2 = distE p new mid / p.dtn ^ 2 - distE p mid old / p.dtn ^ 2 := by ring
  rw [e] at h
  linarith

/-- Three levels on two slices with one radial point that satisfy the equation. -/
example : ∃ p : EnvParams, ∃ old mid new : GridC, 0 < p.dz ∧ 0 < p.dr ∧ 0 < p.dtn ∧ new p.nz = old p.nz ∧ new (p.nz + 1) = old (p.nz + 1) ∧
    (∀ j < p.nz, ∀ k < p.nr, defect p (fun _ _ => 0) (fun _ => 0) old mid new j k = 0) ∧ new 0 0 = 1 ∧ mid 0 0 = 7 / 4 - I / 2 := by
  refine ⟨⟨1, 1, 1, 0, 1, 2, 1, 1, 1, 1, false⟩, fun _ _ => 0, fun j _ => if j = 0 then 7 / 4 - I / 2 else 0, fun j _ => if j = 0 then 1 else 0,
    by norm_num [EnvParams.dz], by norm_num [EnvParams.dr], by norm_num [EnvParams.dtn], rfl, rfl, fun j hj k hk => ?_, rfl, rfl⟩
  have hj' : j = 0 ∨ j = 1 := by change j < 2 at hj; omega
  have hk' : k = 0 := by change k < 1 at hk; omega
  subst hk'
  rcases hj' with rfl | rfl
  · norm_num [defect, lapl, diffZ, EnvParams.theta, EnvParams.dr, EnvParams.dz, EnvParams.dtn]
    ring
  · norm_num [defect, lapl, diffZ, EnvParams.theta, EnvParams.dr, EnvParams.dz, EnvParams.dtn]

/-! ### The solver -/

/-- What the last line of the tridiagonal solver makes of the last equation. -/
theorem tdma_edge {n : ℕ} (hn : 3 ≤ n) {a b c : ℕ → ℂ} (d : ℕ → ℂ) (h : Pivots n a b c) :
    let x := tdma n a b c d
    a (n - 2) * x (n - 2) + b (n - 1) * x (n - 1) - d (n - 1) =
      (a (n - 2) - a (n - 3)) * x (n - 2) - a (n - 3) * (tdmaW a b c (n - 2) - tdmaW a b c (n - 3)) * x (n - 1) := by
  intro x
  have h1 : x (n - 1) * (b (n - 1) - a (n - 3) * tdmaW a b c (n - 3)) = d (n - 1) - a (n - 3) * tdmaG a b c d (n - 2) := by
    have : x (n - 1) = tdmaLast n a b c d := by
      show tdma n a b c d (n - 1) = _
      unfold tdma
      rw [show n - 1 - (n - 1) = 0 by omega, tdmaBack]
    rw [this]
    exact div_mul_cancel₀ _ h.last
  have h2 : x (n - 2) = tdmaG a b c d (n - 2) - tdmaW a b c (n - 2) * x (n - 1) := by
    have := tdma_step a b c d (n := n) (i := n - 2) (by omega)
    rwa [show n - 2 + 1 = n - 1 by omega] at this
  have h3 : tdmaG a b c d (n - 2) = x (n - 2) + tdmaW a b c (n - 2) * x (n - 1) := by rw [h2]; ring
  rw [h3] at h1
  linear_combination h1

theorem defect_inside {p : EnvParams} (hp : p.Ok) {chi : ℕ → ℕ → ℝ} (hchi : ∀ j k, 0 ≤ chi j k) {a aOld new : GridC} {ph : ℕ → ℝ}
    (h : NewLevel (p.row true chi ph) p.nz a aOld new) {j k : ℕ} (hj : j < p.nz) (hk : k + 1 < p.nr) :
    defect p chi ph aOld a new j k = 0 := by
  have h1 := centered_equation_partial hp hchi h hj hk
  unfold defect
  dsimp only at h1 ⊢
  rw [h1, sub_self]

theorem defect_edge {p : EnvParams} (hp : p.Ok) {chi : ℕ → ℕ → ℝ} (hchi : ∀ j k, 0 ≤ chi j k) {a aOld new : GridC} {ph : ℕ → ℝ}
    (h : NewLevel (p.row true chi ph) p.nz a aOld new) {j : ℕ} (hj : j < p.nz) :
    let W := tdmaW p.dLower (p.dMain chi (p.theta ph j) j) p.dUpper
    defect p chi ph aOld a new j (p.nr - 1) =
      (p.dLower (p.nr - 2) - p.dLower (p.nr - 3)) * new j (p.nr - 2) - p.dLower (p.nr - 3) * (W (p.nr - 2) - W (p.nr - 3)) * new j (p.nr - 1) := by
  intro W
  obtain ⟨hz, hr, ht⟩ := hp.pos
  have hnr := hp.nr
  have hzc : (p.dz : ℂ) ≠ 0 := by exact_mod_cast hz.ne'
  have htc : (p.dtn : ℂ) ≠ 0 := by exact_mod_cast ht.ne'
  have hrow := tdma_edge hp.nr (p.rhs chi (p.theta ph j) a aOld (new (j + 1)) (new (j + 2)) j) (envelope_pivots hp hchi (p.theta ph j) j).1
  have hnew := h.inside j hj
  unfold EnvParams.row at hnew
  dsimp only at hnew hrow
  rw [if_pos rfl] at hnew
  rw [← hnew] at hrow
  rw [← hrow]
  unfold defect
  rw [lapl_eq p hr.ne']
  obtain ⟨k, hk⟩ : ∃ k, p.nr = k + 2 := ⟨p.nr - 2, by omega⟩
  have k1 : p.nr - 1 = k + 1 := by omega
  have k2 : p.nr - 2 = k := by omega
  rw [k1, k2, if_pos (by omega), if_neg (by omega)]
  unfold EnvParams.rhs EnvParams.dMain EnvParams.dLower EnvParams.cPlus EnvParams.cMinus EnvParams.bigD EnvParams.invDzdt EnvParams.invDt EnvParams.invDz
  rw [if_pos (by omega), if_neg (by omega), Nat.add_sub_cancel]
  unfold diffZ
  dsimp only
  generalize p.theta ph j = th at *
  rw [add_comm ((th.1 : ℂ)) (th.2 : ℂ)]
  generalize Complex.exp (-I * (th.2 + th.1)) = E2 at *
  generalize Complex.exp (-I * th.1) = E1 at *
  push_cast
  have n1 : (1.5 : ℂ) = 3 / 2 := by norm_num
  have n2 : (0.5 : ℂ) = 1 / 2 := by norm_num
  rw [n1, n2]
  field_simp
  ring

/-- The bound of the defect at the edge of the grid. -/
noncomputable def edgeBound (p : EnvParams) (new : GridC) (j : ℕ) : ℝ :=
  (‖new j (p.nr - 2)‖ / ((2 * p.nr - 1) * (2 * p.nr - 3)) + ‖new j (p.nr - 1)‖) / p.dr ^ 2

theorem defect_edge_le {p : EnvParams} (hp : p.Ok) {chi : ℕ → ℕ → ℝ} (hchi : ∀ j k, 0 ≤ chi j k) {a aOld new : GridC} {ph : ℕ → ℝ}
    (h : NewLevel (p.row true chi ph) p.nz a aOld new) {j : ℕ} (hj : j < p.nz) :
    ‖defect p chi ph aOld a new j (p.nr - 1)‖ ≤ edgeBound p new j := by
  obtain ⟨hz, hr, ht⟩ := hp.pos
  have hnr := hp.nr
  have hR : (3 : ℝ) ≤ p.nr := by exact_mod_cast hnr
  have hdom : Dominant p.nr p.dLower (p.dMain chi (p.theta ph j) j) p.dUpper := by
    have h4 : 0 < p.invDzdt := by unfold EnvParams.invDzdt EnvParams.invDt EnvParams.invDz; positivity
    apply dominant_of_re hp.nr
    intro k
    rw [dMain_re]
    have := hchi j k
    have := sq_nonneg p.invDt
    norm_num at *
    linarith
  have hW : ∀ i, i < p.nr → ‖tdmaW p.dLower (p.dMain chi (p.theta ph j) j) p.dUpper i‖ ≤ 1 := fun i hi => (tdmaW_le hdom (by omega) i hi).1
  rw [defect_edge hp hchi h hj]
  set W := tdmaW p.dLower (p.dMain chi (p.theta ph j) j) p.dUpper
  have c2 : ((p.nr - 2 : ℕ) : ℝ) = p.nr - 2 := by rw [Nat.cast_sub (by omega)]; norm_num
  have c3 : ((p.nr - 3 : ℕ) : ℝ) = p.nr - 3 := by rw [Nat.cast_sub (by omega)]; norm_num
  have hl : ∀ k : ℕ, p.dLower k = (((1 - 1 / (2 * k + 3)) / (2 * p.dr ^ 2) : ℝ) : ℂ) := by
    intro k
    unfold EnvParams.dLower EnvParams.lMinus EnvParams.invDr
    congr 1
    have : (2 * (((k + 1 : ℕ) : ℝ) + 0.5)) = 2 * k + 3 := by push_cast; ring
    rw [this]
    field_simp
    norm_num
    ring
  have h1 : ‖p.dLower (p.nr - 2) - p.dLower (p.nr - 3)‖ = 1 / ((2 * p.nr - 1) * (2 * p.nr - 3)) / p.dr ^ 2 := by
    rw [hl, hl, ← Complex.ofReal_sub, Complex.norm_real, Real.norm_eq_abs, c2, c3]
    have e : (1 - 1 / (2 * ((p.nr : ℝ) - 2) + 3)) / (2 * p.dr ^ 2) - (1 - 1 / (2 * ((p.nr : ℝ) - 3) + 3)) / (2 * p.dr ^ 2) =
        1 / ((2 * p.nr - 1) * (2 * p.nr - 3)) / p.dr ^ 2 := by
      have d1 : (2 * (p.nr : ℝ) - 1) ≠ 0 := by linarith
      have d2 : (2 * (p.nr : ℝ) - 3) ≠ 0 := by linarith
      rw [show 2 * ((p.nr : ℝ) - 2) + 3 = 2 * p.nr - 1 by ring, show 2 * ((p.nr : ℝ) - 3) + 3 = 2 * p.nr - 3 by ring]
      field_simp
      ring
    rw [e, abs_of_nonneg]
    have d1 : 0 < (2 * (p.nr : ℝ) - 1) := by linarith
    have d2 : 0 < (2 * (p.nr : ℝ) - 3) := by linarith
    positivity
  have h2 : ‖p.dLower (p.nr - 3)‖ ≤ 1 / (2 * p.dr ^ 2) := by
    rw [hl, Complex.norm_real, Real.norm_eq_abs, c3]
    have d2 : 0 < (2 * (p.nr : ℝ) - 3) := by linarith
    have e1 : 1 / (2 * ((p.nr : ℝ) - 3) + 3) ≤ 1 := by
      rw [show 2 * ((p.nr : ℝ) - 3) + 3 = 2 * p.nr - 3 by ring, div_le_one d2]; linarith
    have e2 : 0 ≤ 1 / (2 * ((p.nr : ℝ) - 3) + 3) := by
      rw [show 2 * ((p.nr : ℝ) - 3) + 3 = 2 * p.nr - 3 by ring]; positivity
    rw [abs_of_nonneg (by apply div_nonneg; linarith; positivity)]
    exact div_le_div_of_nonneg_right (by linarith) (by positivity)
  have h3 : ‖W (p.nr - 2) - W (p.nr - 3)‖ ≤ 2 := by
    have := norm_sub_le (W (p.nr - 2)) (W (p.nr - 3))
    have := hW (p.nr - 2) (by omega)
    have := hW (p.nr - 3) (by omega)
    linarith
  refine (norm_sub_le _ _).trans ?_
  rw [norm_mul, norm_mul, norm_mul, h1]
  have h4 : ‖p.dLower (p.nr - 3)‖ * ‖W (p.nr - 2) - W (p.nr - 3)‖ ≤ 1 / p.dr ^ 2 := by
    calc ‖p.dLower (p.nr - 3)‖ * ‖W (p.nr - 2) - W (p.nr - 3)‖ ≤ 1 / (2 * p.dr ^ 2) * 2 :=
          mul_le_mul h2 h3 (norm_nonneg _) (by positivity)
      _ = 1 / p.dr ^ 2 := by field_simp
  have h5 := mul_le_mul_of_nonneg_right h4 (norm_nonneg (new j (p.nr - 1)))
  refine (add_le_add_right h5 _).trans (le_of_eq ?_)
  unfold edgeBound
  ring

/-- One step of the centred solver. -/
theorem step_energy {p : EnvParams} (hp : p.Ok) {chi : ℕ → ℕ → ℝ} (hchi : ∀ j k, 0 ≤ chi j k) {a aOld new : GridC} {ph : ℕ → ℝ}
    (h : NewLevel (p.row true chi ph) p.nz a aOld new) (h1 : aOld p.nz = 0) (h2 : aOld (p.nz + 1) = 0) :
    levelE p chi a new ≤ levelE p chi aOld a +
      ∑ j ∈ Finset.range p.nz, ((p.nr : ℝ) - 1 / 2) * (edgeBound p new j * ‖new j (p.nr - 1) - aOld j (p.nr - 1)‖) := by
  obtain ⟨hz, hr, ht⟩ := hp.pos
  have hnr := hp.nr
  have hb := balance p hz hr ht chi ph aOld a new (by rw [h.outside _ le_rfl, h1]) (by rw [h.outside _ (by omega), h2])
  have hs : ∀ j ∈ Finset.range p.nz, ∑ k ∈ Finset.range p.nr, ((k : ℝ) + 1 / 2) * (defect p chi ph aOld a new j k * star (new j k - aOld j k)).re =
      ((p.nr : ℝ) - 1 / 2) * (defect p chi ph aOld a new j (p.nr - 1) * star (new j (p.nr - 1) - aOld j (p.nr - 1))).re := by
    intro j hj
    rw [Finset.sum_eq_single (p.nr - 1)]
    · rw [Nat.cast_sub (by omega)]; push_cast; ring
    · intro k hk hne
      rw [defect_inside hp hchi h (Finset.mem_range.mp hj) (by have := Finset.mem_range.mp hk; omega), zero_mul, Complex.zero_re, mul_zero]
    · intro hk
      exact absurd (Finset.mem_range.mpr (by omega)) hk
  rw [Finset.sum_congr rfl hs, ← Finset.sum_neg_distrib] at hb
  have hle : ∑ j ∈ Finset.range p.nz, -(((p.nr : ℝ) - 1 / 2) * (defect p chi ph aOld a new j (p.nr - 1) * star (new j (p.nr - 1) - aOld j (p.nr - 1))).re) ≤
      ∑ j ∈ Finset.range p.nz, ((p.nr : ℝ) - 1 / 2) * (edgeBound p new j * ‖new j (p.nr - 1) - aOld j (p.nr - 1)‖) := by
    refine Finset.sum_le_sum fun j hj => ?_
    have e1 := defect_edge_le hp hchi h (Finset.mem_range.mp hj)
    have e2 := Complex.abs_re_le_norm (defect p chi ph aOld a new j (p.nr - 1) * star (new j (p.nr - 1) - aOld j (p.nr - 1)))
    rw [norm_mul, norm_star] at e2
    have e3 := mul_le_mul_of_nonneg_right e1 (norm_nonneg (new j (p.nr - 1) - aOld j (p.nr - 1)))
    have e4 := neg_abs_le (defect p chi ph aOld a new j (p.nr - 1) * star (new j (p.nr - 1) - aOld j (p.nr - 1))).re
    have hR : (0 : ℝ) ≤ (p.nr : ℝ) - 1 / 2 := by
      have : (3 : ℝ) ≤ p.nr := by exact_mod_cast hnr
      linarith
    rw [← mul_neg]
    exact mul_le_mul_of_nonneg_left (by linarith) hR
  have e : (distE p new a - distE p a aOld) / p.dtn ^ 2 = distE p new a / p.dtn ^ 2 - distE p a aOld / p.dtn ^ 2 := by ring
  rw [e] at hb
  unfold levelE
  linarith

/-- **C176, partial.** The centred solver returns the last two of a sequence of levels whose energy grows from level to level at most by what happens at the two outermost points of the grid, whatever the
step, the grid and the phases.  Missing: without this term (which comes from the last equation of the tridiagonal system, see C48) the energy would never grow, as in `scheme_stable`;
with it, it can (`laser_unstable_violated`). -/
theorem laser_energy_partial {p : EnvParams} (hp : p.Ok) {chi : ℕ → ℕ → ℝ} (hchi : ∀ j k, 0 ≤ chi j k) (a aOld : GridC)
    (h0 : ∀ i, p.nz ≤ i → a i = 0 ∧ aOld i = 0) :
    ∃ lev : ℕ → GridC, lev 0 = aOld ∧ lev 1 = a ∧
      (∀ i < p.nz, (p.evolve true chi (a, aOld)).1 i = lev (p.nt + 1) i ∧ (p.evolve true chi (a, aOld)).2 i = lev p.nt i) ∧
      ∀ n, levelE p chi (lev (n + 1)) (lev (n + 2)) ≤ levelE p chi (lev n) (lev (n + 1)) +
        ∑ j ∈ Finset.range p.nz, ((p.nr : ℝ) - 1 / 2) * (edgeBound p (lev (n + 2)) j * ‖lev (n + 2) j (p.nr - 1) - lev n j (p.nr - 1)‖) := by
  obtain ⟨lev, h, -⟩ := levels_exist p true chi a aOld
  obtain ⟨h1, h2⟩ := evolve_two_level p true chi a aOld lev h
  have hz : ∀ n i, p.nz ≤ i → lev n i = 0 := by
    intro n i hi
    match n with
    | 0 => rw [h.zero]; exact (h0 i hi).2
    | 1 => rw [h.one]; exact (h0 i hi).1
    | n + 2 => exact (h.next n).outside i hi
  refine ⟨lev, h.zero, h.one, fun i hi => ⟨h1 i (by omega), h2 i (by omega)⟩, fun n => ?_⟩
  exact step_energy hp hchi (h.next n) (hz n _ le_rfl) (hz n _ (by omega))

/-- **C176.** The energy bounds the amplitude at every point. -/
theorem amplitude_le {p : EnvParams} (hr : 0 < p.dr) {chi : ℕ → ℕ → ℝ} (hchi : ∀ j k, 0 ≤ chi j k) (old a : GridC) {j k : ℕ} (hj : j < p.nz) (hk : k < p.nr) :
    ‖a j k‖ ^ 2 ≤ 2 * p.dr ^ 2 * (∑ m ∈ Finset.range p.nr, 1 / ((m : ℝ) + 1)) * levelE p chi old a := by
  have hg0 : ∀ f : RowC, 0 ≤ gradE p.nr p.dr f := fun f => Finset.sum_nonneg fun m _ => by positivity
  have hc0 : ∀ i (f : RowC), 0 ≤ chiE p.nr (chi i) f := fun i f => Finset.sum_nonneg fun m _ => by have := hchi i m; positivity
  have hf0 : ∀ b : GridC, 0 ≤ fieldE p chi b := fun b => Finset.sum_nonneg fun i _ => add_nonneg (hg0 _) (hc0 i _)
  have hd0 : 0 ≤ distE p a old := Finset.sum_nonneg fun i _ => Finset.sum_nonneg fun m _ => by positivity
  have h1 : gradE p.nr p.dr (a j) ≤ fieldE p chi a := by
    have h2 := Finset.single_le_sum (f := fun i => gradE p.nr p.dr (a i) + chiE p.nr (chi i) (a i)) (fun i _ => add_nonneg (hg0 _) (hc0 i _))
      (Finset.mem_range.mpr hj)
    have h3 := hc0 j (a j)
    unfold fieldE
    linarith
  have h2 : fieldE p chi a ≤ 2 * levelE p chi old a := by
    have : 0 ≤ distE p a old / p.dtn ^ 2 := by positivity
    have := hf0 old
    unfold levelE
    linarith
  set F := cut p.nr (a j) with hF
  have h3 : ∀ n, k ≤ n → ‖F k‖ ≤ ‖F n‖ + ∑ m ∈ Finset.Ico k n, ‖F (m + 1) - F m‖ := by
    intro n hn
    induction n, hn using Nat.le_induction with
    | base => simp
    | succ n hn ih =>
      rw [Finset.sum_Ico_succ_top hn]
      have h4 := norm_sub_norm_le (F n) (F (n + 1))
      rw [norm_sub_rev] at h4
      linarith
  have h4 : ‖a j k‖ ≤ ∑ m ∈ Finset.range p.nr, ‖F (m + 1) - F m‖ := by
    have h5 := h3 p.nr hk.le
    have h6 : F p.nr = 0 := if_neg (lt_irrefl _)
    have h7 : F k = a j k := if_pos hk
    rw [h6, norm_zero, zero_add, h7] at h5
    refine h5.trans (Finset.sum_le_sum_of_subset_of_nonneg ?_ fun _ _ _ => norm_nonneg _)
    intro m hm
    exact Finset.mem_range.mpr (Finset.mem_Ico.mp hm).2
  have h5 : (∑ m ∈ Finset.range p.nr, ‖F (m + 1) - F m‖) ^ 2 ≤
      (∑ m ∈ Finset.range p.nr, ((m : ℝ) + 1) * ‖F (m + 1) - F m‖ ^ 2) * ∑ m ∈ Finset.range p.nr, 1 / ((m : ℝ) + 1) := by
    refine Finset.sum_sq_le_sum_mul_sum_of_sq_eq_mul _ (fun m _ => by positivity) (fun m _ => by positivity) fun m _ => ?_
    field_simp
  have h6 : ∑ m ∈ Finset.range p.nr, ((m : ℝ) + 1) * ‖F (m + 1) - F m‖ ^ 2 = p.dr ^ 2 * gradE p.nr p.dr (a j) := by
    unfold gradE
    rw [Finset.mul_sum]
    refine Finset.sum_congr rfl fun m _ => ?_
    rw [← hF]
    field_simp
  have h7 : 0 ≤ ∑ m ∈ Finset.range p.nr, 1 / ((m : ℝ) + 1) := Finset.sum_nonneg fun m _ => by positivity
  calc ‖a j k‖ ^ 2 ≤ (∑ m ∈ Finset.range p.nr, ‖F (m + 1) - F m‖) ^ 2 := pow_le_pow_left₀ (norm_nonneg _) h4 2
    _ ≤ p.dr ^ 2 * gradE p.nr p.dr (a j) * ∑ m ∈ Finset.range p.nr, 1 / ((m : ℝ) + 1) := by rw [← h6]; exact h5
    _ ≤ p.dr ^ 2 * (2 * levelE p chi old a) * ∑ m ∈ Finset.range p.nr, 1 / ((m : ℝ) + 1) :=
      mul_le_mul_of_nonneg_right (mul_le_mul_of_nonneg_left (h1.trans h2) (by positivity)) h7
    _ = _ := by ring

end WakeT.Laser
