import Verif.Laser.EnvelopeEq
import Verif.Base.Order
import Mathlib.Analysis.Calculus.ContDiff.Operations
import Mathlib.Analysis.Calculus.Deriv.Prod
import Mathlib.Analysis.Calculus.Deriv.Shift

/-! # Truncation error of the envelope solver (C164)

Smooth solutions of the envelope equation satisfy the equations of the solver up to terms of second order in the steps. -/

set_option linter.unusedSectionVars false

namespace WakeT.Laser

open Complex (I)
open Set
open scoped ContDiff

/-! ### Differences of functions of one variable -/

section One
variable {f : ℕ → ℝ → ℂ}

theorem taylor_fwd (n : ℕ) (hf : ∀ k ≤ n, ∀ x, HasDerivAt (f k) (f (k + 1) x) x) {x h M : ℝ} (hh : 0 ≤ h)
    (hM : ∀ y ∈ Icc x (x + h), ‖f (n + 1) y‖ ≤ M) :
    ‖f 0 (x + h) - ∑ k ∈ Finset.range (n + 1), (h ^ k / k.factorial : ℝ) • f k x‖ ≤ M * h ^ (n + 1) := by
  have key := Order.taylor (n := n) (g := fun k s => f k (x + s)) (T := h) (N := M)
    (fun k hk t _ => (HasDerivAt.comp_const_add x t (hf k hk.le (x + t))).hasDerivWithinAt)
    (fun s hs t ht => by
      have := (convex_Icc 0 h).norm_image_sub_le_of_norm_hasDerivWithin_le (f := fun s => f n (x + s)) (f' := fun s => f (n + 1) (x + s)) (C := M)
        (fun u _ => (HasDerivAt.comp_const_add x u (hf n le_rfl (x + u))).hasDerivWithinAt)
        (fun u hu => hM _ ⟨by linarith [hu.1], by linarith [hu.2]⟩) hs ht
      simpa [Real.norm_eq_abs] using this) (t := 0) (h := h) le_rfl hh (by linarith)
  simpa using key

theorem taylor_bwd (n : ℕ) (hf : ∀ k ≤ n, ∀ x, HasDerivAt (f k) (f (k + 1) x) x) {x h M : ℝ} (hh : 0 ≤ h)
    (hM : ∀ y ∈ Icc (x - h) x, ‖f (n + 1) y‖ ≤ M) :
    ‖f 0 (x - h) - ∑ k ∈ Finset.range (n + 1), ((-h) ^ k / k.factorial : ℝ) • f k x‖ ≤ M * h ^ (n + 1) := by
  have key := taylor_fwd (f := fun k s => (-1 : ℝ) ^ k • f k (-s)) n (fun k hk y => by
      have h1 := ((hf k hk (-y)).scomp y (hasDerivAt_neg y)).const_smul ((-1 : ℝ) ^ k)
      refine h1.congr_deriv ?_
      rw [smul_smul, pow_succ]) (x := -x) (M := M) hh (fun y hy => by
      rw [norm_smul, norm_pow, norm_neg, norm_one, one_pow, one_mul]
      exact hM _ ⟨by linarith [hy.2], by linarith [hy.1]⟩)
  rw [pow_zero, one_smul, neg_neg, neg_add, neg_neg, ← sub_eq_add_neg] at key
  refine le_of_eq_of_le ?_ key
  congr 2
  refine Finset.sum_congr rfl fun k _ => ?_
  rw [smul_smul, neg_pow h]
  congr 1
  ring

variable {x h M : ℝ} (hh : 0 < h)
include hh

/-- Mean of the neighbours. -/
theorem mean_err (hf : ∀ k ≤ 1, ∀ x, HasDerivAt (f k) (f (k + 1) x) x) (hM : ∀ y ∈ Icc (x - h) (x + h), ‖f 2 y‖ ≤ M) : ‖(f 0 (x + h) + f 0 (x - h)) / 2 - f 0 x‖ ≤ M * h ^ 2 := by
  have h1 := taylor_fwd 1 hf hh.le (fun y hy => hM y ⟨by linarith [hy.1], hy.2⟩)
  have h2 := taylor_bwd 1 hf hh.le (fun y hy => hM y ⟨hy.1, by linarith [hy.2]⟩)
  simp only [Finset.sum_range_succ, Finset.sum_range_zero, Nat.factorial, Complex.real_smul] at h1 h2
  push_cast at h1 h2
  have e : (f 0 (x + h) + f 0 (x - h)) / 2 - f 0 x = (f 0 (x + h) - (0 + (h : ℂ) ^ 0 / 1 * f 0 x + (h : ℂ) ^ 1 / ((0 + 1) * 1) * f 1 x)) / 2 +
      (f 0 (x - h) - (0 + (-(h : ℂ)) ^ 0 / 1 * f 0 x + (-(h : ℂ)) ^ 1 / ((0 + 1) * 1) * f 1 x)) / 2 := by ring
  rw [e]
  refine (norm_add_le _ _).trans ?_
  rw [norm_div, norm_div, Complex.norm_ofNat]
  linarith

/-- Central first difference. -/
theorem central_err (hf : ∀ k ≤ 2, ∀ x, HasDerivAt (f k) (f (k + 1) x) x) (hM : ∀ y ∈ Icc (x - h) (x + h), ‖f 3 y‖ ≤ M) : ‖(f 0 (x + h) - f 0 (x - h)) / (2 * h) - f 1 x‖ ≤ M * h ^ 2 := by
  have h1 := taylor_fwd 2 hf hh.le (fun y hy => hM y ⟨by linarith [hy.1], hy.2⟩)
  have h2 := taylor_bwd 2 hf hh.le (fun y hy => hM y ⟨hy.1, by linarith [hy.2]⟩)
  simp only [Finset.sum_range_succ, Finset.sum_range_zero, Nat.factorial, Complex.real_smul] at h1 h2
  push_cast at h1 h2
  have hc : (h : ℂ) ≠ 0 := by exact_mod_cast hh.ne'
  generalize ha : f 0 (x + h) - (_ + _) = a at h1
  generalize hb : f 0 (x - h) - (_ + _) = b at h2
  have e : (f 0 (x + h) - f 0 (x - h)) / (2 * h) - f 1 x = (a - b) / (2 * h) := by
    rw [← ha, ← hb]
    field_simp
    ring
  rw [e, norm_div, norm_mul, Complex.norm_ofNat, Complex.norm_real, Real.norm_eq_abs, abs_of_pos hh, div_le_iff₀ (by positivity)]
  refine (norm_sub_le _ _).trans ?_
  linarith

/-- Central second difference. -/
theorem second_err (hf : ∀ k ≤ 3, ∀ x, HasDerivAt (f k) (f (k + 1) x) x) (hM : ∀ y ∈ Icc (x - h) (x + h), ‖f 4 y‖ ≤ M) :
    ‖(f 0 (x + h) - 2 * f 0 x + f 0 (x - h)) / h ^ 2 - f 2 x‖ ≤ 2 * M * h ^ 2 := by
  have h1 := taylor_fwd 3 hf hh.le (fun y hy => hM y ⟨by linarith [hy.1], hy.2⟩)
  have h2 := taylor_bwd 3 hf hh.le (fun y hy => hM y ⟨hy.1, by linarith [hy.2]⟩)
  simp only [Finset.sum_range_succ, Finset.sum_range_zero, Nat.factorial, Complex.real_smul] at h1 h2
  push_cast at h1 h2
  have hc : (h : ℂ) ≠ 0 := by exact_mod_cast hh.ne'
  generalize ha : f 0 (x + h) - (_ + _) = a at h1
  generalize hb : f 0 (x - h) - (_ + _) = b at h2
  have e : (f 0 (x + h) - 2 * f 0 x + f 0 (x - h)) / h ^ 2 - f 2 x = (a + b) / h ^ 2 := by
    rw [← ha, ← hb]
    field_simp
    ring
  rw [e, norm_div, norm_pow, Complex.norm_real, Real.norm_eq_abs, abs_of_pos hh, div_le_iff₀ (by positivity)]
  refine (norm_add_le _ _).trans ?_
  linarith

/-- One-sided first difference. -/
theorem forward_err (hf : ∀ k ≤ 2, ∀ x, HasDerivAt (f k) (f (k + 1) x) x) (hM : ∀ y ∈ Icc x (x + 2 * h), ‖f 3 y‖ ≤ M) :
    ‖(-3 / 2 * f 0 x + 2 * f 0 (x + h) - 1 / 2 * f 0 (x + 2 * h)) / h - f 1 x‖ ≤ 6 * M * h ^ 2 := by
  have h1 := taylor_fwd 2 hf hh.le (fun y hy => hM y ⟨hy.1, by linarith [hy.2]⟩)
  have h2 := taylor_fwd 2 hf (h := 2 * h) (by linarith) hM
  simp only [Finset.sum_range_succ, Finset.sum_range_zero, Nat.factorial, Complex.real_smul] at h1 h2
  push_cast at h1 h2
  have hc : (h : ℂ) ≠ 0 := by exact_mod_cast hh.ne'
  generalize ha : f 0 (x + h) - (_ + _) = a at h1
  generalize hb : f 0 (x + 2 * h) - (_ + _) = b at h2
  have e : (-3 / 2 * f 0 x + 2 * f 0 (x + h) - 1 / 2 * f 0 (x + 2 * h)) / h - f 1 x = (2 * a - 1 / 2 * b) / h := by
    rw [← ha, ← hb]
    field_simp
    ring
  rw [e, norm_div, Complex.norm_real, Real.norm_eq_abs, abs_of_pos hh, div_le_iff₀ (by positivity)]
  refine (norm_sub_le _ _).trans ?_
  rw [norm_mul, norm_mul, Complex.norm_ofNat, show ‖(1 / 2 : ℂ)‖ = 1 / 2 by norm_num]
  linarith

end One

/-! ### Specification: smooth fields and their derivatives -/

/-- A field, as a function of time, longitudinal and radial position, that has derivatives of any order. -/
def Smooth {E : Type*} [NormedAddCommGroup E] [NormedSpace ℝ E] (F : ℝ → ℝ → ℝ → E) : Prop :=
  ContDiff ℝ ∞ fun p : ℝ × ℝ × ℝ => F p.1 p.2.1 p.2.2

/-- Partial derivatives. -/
noncomputable def dT (F : ℝ → ℝ → ℝ → ℂ) (t z r : ℝ) : ℂ := deriv (fun t => F t z r) t
noncomputable def dZ (F : ℝ → ℝ → ℝ → ℂ) (t z r : ℝ) : ℂ := deriv (fun z => F t z r) z
noncomputable def dR (F : ℝ → ℝ → ℝ → ℂ) (t z r : ℝ) : ℂ := deriv (fun r => F t z r) r

/-- The field satisfies the envelope equation with the ratio `κ = k0 / kp` of wave numbers and the susceptibility `χ` at a point off axis. -/
def Envelope (κ χ : ℝ) (A : ℝ → ℝ → ℝ → ℂ) (t z r : ℝ) : Prop :=
  (dR (dR A) t z r + dR A t z r / r) + 2 * I * κ * dT A t z r + 2 * dT (dZ A) t z r - dT (dT A) t z r = χ * A t z r

namespace Smooth
variable {F : ℝ → ℝ → ℝ → ℂ}

theorem hasT (h : Smooth F) (t z r : ℝ) : HasDerivAt (fun t => F t z r) (fderiv ℝ (fun p : ℝ × ℝ × ℝ => F p.1 p.2.1 p.2.2) (t, z, r) (1, 0, 0)) t :=
  HasFDerivAt.comp_hasDerivAt (f := fun t : ℝ => (t, z, r)) t (h.differentiable (by simp) (t, z, r)).hasFDerivAt
    ((hasDerivAt_id t).prodMk ((hasDerivAt_const t z).prodMk (hasDerivAt_const t r)))

theorem hasZ (h : Smooth F) (t z r : ℝ) : HasDerivAt (fun z => F t z r) (fderiv ℝ (fun p : ℝ × ℝ × ℝ => F p.1 p.2.1 p.2.2) (t, z, r) (0, 1, 0)) z :=
  HasFDerivAt.comp_hasDerivAt (f := fun z : ℝ => (t, z, r)) z (h.differentiable (by simp) (t, z, r)).hasFDerivAt
    ((hasDerivAt_const z t).prodMk ((hasDerivAt_id z).prodMk (hasDerivAt_const z r)))

theorem hasR (h : Smooth F) (t z r : ℝ) : HasDerivAt (fun r => F t z r) (fderiv ℝ (fun p : ℝ × ℝ × ℝ => F p.1 p.2.1 p.2.2) (t, z, r) (0, 0, 1)) r :=
  HasFDerivAt.comp_hasDerivAt (f := fun r : ℝ => (t, z, r)) r (h.differentiable (by simp) (t, z, r)).hasFDerivAt
    ((hasDerivAt_const r t).prodMk ((hasDerivAt_const r z).prodMk (hasDerivAt_id r)))

theorem along (h : Smooth F) (v : ℝ × ℝ × ℝ) : ContDiff ℝ ∞ fun p => fderiv ℝ (fun p : ℝ × ℝ × ℝ => F p.1 p.2.1 p.2.2) p v :=
  (h.fderiv_right (m := ∞) (by simp)).clm_apply contDiff_const

theorem dT (h : Smooth F) : Smooth (dT F) := by
  have e : (fun p : ℝ × ℝ × ℝ => Laser.dT F p.1 p.2.1 p.2.2) = fun p => fderiv ℝ (fun p : ℝ × ℝ × ℝ => F p.1 p.2.1 p.2.2) p (1, 0, 0) :=
    funext fun p => (h.hasT p.1 p.2.1 p.2.2).deriv
  unfold Smooth
  rw [e]
  exact h.along _

theorem dZ (h : Smooth F) : Smooth (dZ F) := by
  have e : (fun p : ℝ × ℝ × ℝ => Laser.dZ F p.1 p.2.1 p.2.2) = fun p => fderiv ℝ (fun p : ℝ × ℝ × ℝ => F p.1 p.2.1 p.2.2) p (0, 1, 0) :=
    funext fun p => (h.hasZ p.1 p.2.1 p.2.2).deriv
  unfold Smooth
  rw [e]
  exact h.along _

theorem dR (h : Smooth F) : Smooth (dR F) := by
  have e : (fun p : ℝ × ℝ × ℝ => Laser.dR F p.1 p.2.1 p.2.2) = fun p => fderiv ℝ (fun p : ℝ × ℝ × ℝ => F p.1 p.2.1 p.2.2) p (0, 0, 1) :=
    funext fun p => (h.hasR p.1 p.2.1 p.2.2).deriv
  unfold Smooth
  rw [e]
  exact h.along _

theorem isT (h : Smooth F) (t z r : ℝ) : HasDerivAt (fun t => F t z r) (Laser.dT F t z r) t := (h.hasT t z r).differentiableAt.hasDerivAt

theorem isZ (h : Smooth F) (t z r : ℝ) : HasDerivAt (fun z => F t z r) (Laser.dZ F t z r) z := (h.hasZ t z r).differentiableAt.hasDerivAt

theorem isR (h : Smooth F) (t z r : ℝ) : HasDerivAt (fun r => F t z r) (Laser.dR F t z r) r := (h.hasR t z r).differentiableAt.hasDerivAt

theorem iter (D : (ℝ → ℝ → ℝ → ℂ) → ℝ → ℝ → ℝ → ℂ) (hD : ∀ F, Smooth F → Smooth (D F)) (h : Smooth F) (k : ℕ) : Smooth (D^[k] F) := by
  induction k with
  | zero => exact h
  | succ k ih =>
    rw [Function.iterate_succ_apply']
    exact hD _ ih

theorem bound (h : Smooth F) (t0 t1 z0 z1 R : ℝ) :
    ∃ M, 0 ≤ M ∧ ∀ t ∈ Icc t0 t1, ∀ z ∈ Icc z0 z1, ∀ r ∈ Icc (-R) R, ‖F t z r‖ ≤ M := by
  obtain ⟨M, hM⟩ := (isCompact_Icc.prod (isCompact_Icc.prod isCompact_Icc) : IsCompact (Icc t0 t1 ×ˢ Icc z0 z1 ×ˢ Icc (-R) R)).exists_bound_of_continuousOn
    (ContDiff.continuous h).continuousOn
  exact ⟨|M|, abs_nonneg M, fun t ht z hz r hr => (hM (t, z, r) ⟨ht, hz, hr⟩).trans (le_abs_self M)⟩

end Smooth

/-! ### Radial differences -/

section Radial
variable {f : ℕ → ℝ → ℂ} (hf : ∀ k x, HasDerivAt (f k) (f (k + 1) x) x) (heven : ∀ r, f 0 (-r) = f 0 r)
include hf heven

theorem even_slope : f 1 0 = 0 := by
  have h1 : HasDerivAt (fun r => f 0 (-r)) (-f 1 0) 0 := by
    have := (hf 0 (-0)).scomp (0 : ℝ) (hasDerivAt_neg (0 : ℝ))
    simpa [Function.comp_def] using this
  have h2 : (fun r => f 0 (-r)) = f 0 := funext heven
  rw [h2] at h1
  have h3 := h1.unique (hf 0 0)
  exact self_eq_neg.mp h3.symm

theorem radial_err {r d R M : ℝ} (hr : 0 < r) (hd : 0 < d) (hR : r + d ≤ R) (hM : ∀ y ∈ Icc (-R) R, ‖f 4 y‖ ≤ M) :
    ‖((f 0 (r + d) - 2 * f 0 r + f 0 (r - d)) / d ^ 2 + 1 / r * ((f 0 (r + d) - f 0 (r - d)) / (2 * d))) - (f 2 r + f 1 r / r)‖ ≤ 3 * M * d ^ 2 := by
  have h1 := second_err (f := f) hd (fun k _ => hf k) (x := r) (M := M) (fun y hy => hM y ⟨by linarith [hy.1], by linarith [hy.2]⟩)
  have h2 : ∀ s ∈ Icc 0 r, ‖(f 1 (s + d) - f 1 (s - d)) / (2 * d) - f 2 s‖ ≤ M * d ^ 2 := fun s hs =>
    central_err (f := fun k => f (k + 1)) hd (fun k _ => hf (k + 1)) (fun y hy => hM y ⟨by linarith [hy.1, hs.1], by linarith [hy.2, hs.2]⟩)
  have h3 := (convex_Icc 0 r).norm_image_sub_le_of_norm_hasDerivWithin_le
    (f := fun s => (f 0 (s + d) - f 0 (s - d)) / (2 * d) - f 1 s) (f' := fun s => (f 1 (s + d) - f 1 (s - d)) / (2 * d) - f 2 s)
    (fun s _ => ((((HasDerivAt.comp_add_const s d (hf 0 _)).sub (HasDerivAt.comp_sub_const s d (hf 0 _))).div_const (2 * (d : ℂ))).sub (hf 1 s)).hasDerivWithinAt)
    h2 (left_mem_Icc.mpr hr.le) (right_mem_Icc.mpr hr.le)
  rw [zero_add, zero_sub, heven, even_slope hf heven, sub_self, zero_div, sub_self, sub_zero, sub_zero, Real.norm_eq_abs, abs_of_pos hr] at h3
  have hrc : (r : ℂ) ≠ 0 := by exact_mod_cast hr.ne'
  have hdc : (d : ℂ) ≠ 0 := by exact_mod_cast hd.ne'
  have e : ((f 0 (r + d) - 2 * f 0 r + f 0 (r - d)) / d ^ 2 + 1 / r * ((f 0 (r + d) - f 0 (r - d)) / (2 * d))) - (f 2 r + f 1 r / r) =
      ((f 0 (r + d) - 2 * f 0 r + f 0 (r - d)) / d ^ 2 - f 2 r) + ((f 0 (r + d) - f 0 (r - d)) / (2 * d) - f 1 r) / r := by
    field_simp
    ring
  rw [e]
  refine (norm_add_le _ _).trans ?_
  rw [norm_div, Complex.norm_real, Real.norm_eq_abs, abs_of_pos hr]
  have h4 : ‖(f 0 (r + d) - f 0 (r - d)) / (2 * d) - f 1 r‖ / r ≤ M * d ^ 2 := by
    rw [div_le_iff₀ hr]
    exact h3
  linarith

/-- The difference Laplacian of the solver. -/
theorem lapl_err {nr k : ℕ} {d R M : ℝ} (hk : k + 1 < nr) (hd : 0 < d) (hR : (k + 3 / 2) * d ≤ R) (hM : ∀ y ∈ Icc (-R) R, ‖f 4 y‖ ≤ M) :
    ‖lapl nr d (fun k => f 0 ((k + 1 / 2) * d)) k - (f 2 ((k + 1 / 2) * d) + f 1 ((k + 1 / 2) * d) / (((k + 1 / 2) * d : ℝ) : ℂ))‖ ≤ 3 * M * d ^ 2 := by
  have hr : 0 < ((k : ℝ) + 1 / 2) * d := by positivity
  refine le_of_eq_of_le ?_ (radial_err hf heven hr hd (by linarith) hM)
  congr 2
  unfold lapl
  dsimp only
  rw [if_pos hk]
  have u : f 0 ((((k + 1 : ℕ) : ℝ) + 1 / 2) * d) = f 0 ((k + 1 / 2) * d + d) := by
    congr 1
    push_cast
    ring
  rw [u]
  rcases k with _ | k
  · rw [if_neg (by omega)]
    have v : f 0 ((((0 : ℕ) : ℝ) + 1 / 2) * d - d) = f 0 ((((0 : ℕ) : ℝ) + 1 / 2) * d) := by
      rw [← heven]
      congr 1
      push_cast
      ring
    rw [v]
    have hc : (d : ℂ) ≠ 0 := by exact_mod_cast hd.ne'
    push_cast
    field_simp
    ring
  · rw [if_pos (by omega)]
    have v : f 0 ((((k + 1 - 1 : ℕ) : ℝ) + 1 / 2) * d) = f 0 ((((k + 1 : ℕ) : ℝ) + 1 / 2) * d - d) := by
      congr 1
      push_cast
      ring
    rw [v]

end Radial

/-! ### Longitudinal differences -/

/-- The longitudinal difference of the solver, for a field `w` and a phase `φ`, given with their derivatives. -/
theorem diffZ_err {w φ : ℕ → ℝ → ℂ} {θ : ℝ → ℝ} (hw : ∀ k x, HasDerivAt (w k) (w (k + 1) x) x) (hφ : ∀ k x, HasDerivAt (φ k) (φ (k + 1) x) x)
    (hθ : ∀ x, φ 0 x = θ x) {z dz W P : ℝ} (hz : 0 < dz) (hP0 : 0 ≤ P)
    (hW : ∀ k ≤ 3, ∀ y ∈ Icc z (z + 2 * dz), ‖w k y‖ ≤ W) (hP : ∀ k ≤ 3, ∀ y ∈ Icc z (z + 2 * dz), ‖φ k y‖ ≤ P) :
    ‖diffZ dz (θ (z + dz) - θ z, θ (z + 2 * dz) - θ (z + dz)) (w 0 z) (w 0 (z + dz)) (w 0 (z + 2 * dz)) - w 1 z‖ ≤
      6 * (W * (1 + 13 * P + 6 * P ^ 2 + P ^ 3)) * dz ^ 2 := by
  have hE : ∀ x, HasDerivAt (fun x => Complex.exp (-I * φ 0 x)) (Complex.exp (-I * φ 0 x) * (-I * φ 1 x)) x := fun x => ((hφ 0 x).const_mul (-I)).cexp
  have hEn : ∀ x, ‖Complex.exp (-I * φ 0 x)‖ = 1 := fun x => by
    rw [hθ, show -I * (θ x : ℂ) = ((-θ x : ℝ) : ℂ) * I by push_cast; ring, Complex.norm_exp_ofReal_mul_I]
  have hI : I * I = -1 := Complex.I_mul_I
  let v : ℕ → ℝ → ℂ
    | 0 => fun x => Complex.exp (-I * φ 0 x) * w 0 x
    | 1 => fun x => Complex.exp (-I * φ 0 x) * (w 1 x - I * φ 1 x * w 0 x)
    | 2 => fun x => Complex.exp (-I * φ 0 x) * (w 2 x - 2 * I * φ 1 x * w 1 x - (I * φ 2 x + φ 1 x * φ 1 x) * w 0 x)
    | _ => fun x => Complex.exp (-I * φ 0 x) * (w 3 x - 3 * I * φ 1 x * w 2 x - 3 * (I * φ 2 x + φ 1 x * φ 1 x) * w 1 x -
        (I * φ 3 x + 3 * φ 1 x * φ 2 x - I * φ 1 x * φ 1 x * φ 1 x) * w 0 x)
  have hv : ∀ k ≤ 2, ∀ x, HasDerivAt (v k) (v (k + 1) x) x := by
    intro k hk x
    interval_cases k
    · refine ((hE x).mul (hw 0 x)).congr_deriv ?_
      simp only [v]
      ring
    · refine ((hE x).mul ((hw 1 x).sub (((hφ 1 x).const_mul I).mul (hw 0 x)))).congr_deriv ?_
      simp only [v, Pi.sub_apply, Pi.mul_apply, Pi.add_apply, Nat.reduceAdd]
      linear_combination (-Complex.exp (-I * φ 0 x) * -(φ 1 x * φ 1 x * w 0 x)) * hI
    · refine ((hE x).mul (((hw 2 x).sub (((hφ 1 x).const_mul (2 * I)).mul (hw 1 x))).sub
        ((((hφ 2 x).const_mul I).add ((hφ 1 x).mul (hφ 1 x))).mul (hw 0 x)))).congr_deriv ?_
      simp only [v, Pi.sub_apply, Pi.mul_apply, Pi.add_apply, Nat.reduceAdd]
      linear_combination (Complex.exp (-I * φ 0 x) * (2 * φ 1 x * φ 1 x * w 1 x + φ 1 x * φ 2 x * w 0 x)) * hI
  have hW0 : 0 ≤ W := (norm_nonneg _).trans (hW 0 (by omega) z ⟨le_rfl, by linarith⟩)
  have hb : ∀ y ∈ Icc z (z + 2 * dz), ‖v 3 y‖ ≤ W * (1 + 7 * P + 6 * P ^ 2 + P ^ 3) := by
    intro y hy
    simp only [v]
    rw [norm_mul, hEn, one_mul]
    have a0 := hW 0 (by omega) y hy
    have a1 := hW 1 (by omega) y hy
    have a2 := hW 2 (by omega) y hy
    have a3 := hW 3 (by omega) y hy
    have b1 := hP 1 (by omega) y hy
    have b2 := hP 2 (by omega) y hy
    have b3 := hP 3 (by omega) y hy
    have c1 : ‖3 * I * φ 1 y * w 2 y‖ ≤ 3 * P * W := by
      rw [norm_mul, norm_mul, norm_mul, Complex.norm_I, Complex.norm_ofNat, mul_one]
      gcongr
    have d2 : ‖I * φ 2 y + φ 1 y * φ 1 y‖ ≤ P + P * P := by
      refine (norm_add_le _ _).trans ?_
      rw [norm_mul, norm_mul, Complex.norm_I, one_mul]
      gcongr
    have c2 : ‖3 * (I * φ 2 y + φ 1 y * φ 1 y) * w 1 y‖ ≤ 3 * (P + P * P) * W := by
      rw [norm_mul, norm_mul, Complex.norm_ofNat]
      gcongr
    have d3 : ‖I * φ 3 y + 3 * φ 1 y * φ 2 y - I * φ 1 y * φ 1 y * φ 1 y‖ ≤ P + 3 * P * P + P * P * P := by
      refine (norm_sub_le _ _).trans (add_le_add ((norm_add_le _ _).trans ?_) ?_)
      · rw [norm_mul, norm_mul, norm_mul, Complex.norm_I, Complex.norm_ofNat, one_mul]
        gcongr
      · rw [norm_mul, norm_mul, norm_mul, Complex.norm_I, one_mul]
        gcongr
    have c3 : ‖(I * φ 3 y + 3 * φ 1 y * φ 2 y - I * φ 1 y * φ 1 y * φ 1 y) * w 0 y‖ ≤ (P + 3 * P * P + P * P * P) * W := by
      rw [norm_mul]
      gcongr
    have e1 := norm_sub_le (w 3 y - 3 * I * φ 1 y * w 2 y - 3 * (I * φ 2 y + φ 1 y * φ 1 y) * w 1 y)
      ((I * φ 3 y + 3 * φ 1 y * φ 2 y - I * φ 1 y * φ 1 y * φ 1 y) * w 0 y)
    have e2 := norm_sub_le (w 3 y - 3 * I * φ 1 y * w 2 y) (3 * (I * φ 2 y + φ 1 y * φ 1 y) * w 1 y)
    have e3 := norm_sub_le (w 3 y) (3 * I * φ 1 y * w 2 y)
    linarith only [e1, e2, e3, c1, c2, c3, a3]
  have h1 := forward_err hz hv hb
  have h2 := forward_err (f := φ) hz (fun k _ => hφ k) (hP 3 le_rfl)
  have hx : ∀ x, Complex.exp (I * φ 0 x) * Complex.exp (-I * φ 0 x) = 1 := fun x => by
    rw [← Complex.exp_add, show I * φ 0 x + -I * φ 0 x = 0 by ring, Complex.exp_zero]
  have s1 : Complex.exp (-I * ((θ (z + dz) - θ z : ℝ) : ℂ)) = Complex.exp (I * φ 0 z) * Complex.exp (-I * φ 0 (z + dz)) := by
    rw [← Complex.exp_add, hθ, hθ]
    congr 1
    push_cast
    ring
  have s2 : Complex.exp (-I * (((θ (z + dz) - θ z : ℝ) : ℂ) + ((θ (z + 2 * dz) - θ (z + dz) : ℝ) : ℂ))) =
      Complex.exp (I * φ 0 z) * Complex.exp (-I * φ 0 (z + 2 * dz)) := by
    rw [← Complex.exp_add, hθ, hθ]
    congr 1
    push_cast
    ring
  have e : diffZ dz (θ (z + dz) - θ z, θ (z + 2 * dz) - θ (z + dz)) (w 0 z) (w 0 (z + dz)) (w 0 (z + 2 * dz)) - w 1 z =
      Complex.exp (I * φ 0 z) * ((-3 / 2 * v 0 z + 2 * v 0 (z + dz) - 1 / 2 * v 0 (z + 2 * dz)) / dz - v 1 z) +
      I * ((-3 / 2 * φ 0 z + 2 * φ 0 (z + dz) - 1 / 2 * φ 0 (z + 2 * dz)) / dz - φ 1 z) * w 0 z := by
    have hxz := hx z
    unfold diffZ
    simp only [v]
    rw [s1, s2]
    simp only [hθ] at hxz ⊢
    generalize Complex.exp (I * θ z) = E at *
    generalize Complex.exp (-I * θ z) = E' at *
    generalize Complex.exp (-I * θ (z + dz)) = E1 at *
    generalize Complex.exp (-I * θ (z + 2 * dz)) = E2 at *
    push_cast
    linear_combination (3 / 2 * w 0 z / dz + w 1 z - I * φ 1 z * w 0 z) * hxz
  rw [e]
  have hEp : ‖Complex.exp (I * φ 0 z)‖ = 1 := by
    rw [hθ, mul_comm, Complex.norm_exp_ofReal_mul_I]
  refine (norm_add_le _ _).trans ?_
  rw [norm_mul, hEp, one_mul, norm_mul, norm_mul, Complex.norm_I, one_mul]
  have h3 : ‖(-3 / 2 * φ 0 z + 2 * φ 0 (z + dz) - 1 / 2 * φ 0 (z + 2 * dz)) / dz - φ 1 z‖ * ‖w 0 z‖ ≤ 6 * P * dz ^ 2 * W :=
    mul_le_mul h2 (hW 0 (by omega) z ⟨le_rfl, by linarith⟩) (norm_nonneg _) (by positivity)
  have h4 : 0 ≤ P * W * dz ^ 2 := by positivity
  nlinarith only [h1, h3, h4]

/-! ### Fields -/

namespace Smooth
variable {F : ℝ → ℝ → ℝ → ℂ}

theorem chainT (h : Smooth F) (z r : ℝ) (k : ℕ) (t : ℝ) : HasDerivAt (fun t => (Laser.dT^[k] F) t z r) ((Laser.dT^[k + 1] F) t z r) t := by
  rw [Function.iterate_succ_apply']
  exact (iter Laser.dT (fun _ h => h.dT) h k).isT t z r

theorem chainZ (h : Smooth F) (t r : ℝ) (k : ℕ) (z : ℝ) : HasDerivAt (fun z => (Laser.dZ^[k] F) t z r) ((Laser.dZ^[k + 1] F) t z r) z := by
  rw [Function.iterate_succ_apply']
  exact (iter Laser.dZ (fun _ h => h.dZ) h k).isZ t z r

theorem chainR (h : Smooth F) (t z : ℝ) (k : ℕ) (r : ℝ) : HasDerivAt (fun r => (Laser.dR^[k] F) t z r) ((Laser.dR^[k + 1] F) t z r) r := by
  rw [Function.iterate_succ_apply']
  exact (iter Laser.dR (fun _ h => h.dR) h k).isR t z r

variable (t0 t1 z0 z1 R : ℝ)

theorem meanT (hF : Smooth F) : ∃ K, 0 ≤ K ∧ ∀ t h z r, 0 < h → t0 ≤ t - h → t + h ≤ t1 → z ∈ Icc z0 z1 → r ∈ Icc (-R) R →
    ‖(F (t + h) z r + F (t - h) z r) / 2 - F t z r‖ ≤ K * h ^ 2 := by
  obtain ⟨K, k0, hK⟩ := (iter Laser.dT (fun _ h => h.dT) hF 2).bound t0 t1 z0 z1 R
  exact ⟨K, k0, fun t h z r hh h1 h2 hz hr => mean_err (f := fun k t => (Laser.dT^[k] F) t z r) hh (fun k _ => hF.chainT z r k)
    fun y hy => hK y ⟨h1.trans hy.1, hy.2.trans h2⟩ z hz r hr⟩

theorem centralT (hF : Smooth F) : ∃ K, 0 ≤ K ∧ ∀ t h z r, 0 < h → t0 ≤ t - h → t + h ≤ t1 → z ∈ Icc z0 z1 → r ∈ Icc (-R) R →
    ‖(F (t + h) z r - F (t - h) z r) / (2 * h) - Laser.dT F t z r‖ ≤ K * h ^ 2 := by
  obtain ⟨K, k0, hK⟩ := (iter Laser.dT (fun _ h => h.dT) hF 3).bound t0 t1 z0 z1 R
  exact ⟨K, k0, fun t h z r hh h1 h2 hz hr => central_err (f := fun k t => (Laser.dT^[k] F) t z r) hh (fun k _ => hF.chainT z r k)
    fun y hy => hK y ⟨h1.trans hy.1, hy.2.trans h2⟩ z hz r hr⟩

theorem secondT (hF : Smooth F) : ∃ K, 0 ≤ K ∧ ∀ t h z r, 0 < h → t0 ≤ t - h → t + h ≤ t1 → z ∈ Icc z0 z1 → r ∈ Icc (-R) R →
    ‖(F (t + h) z r - 2 * F t z r + F (t - h) z r) / h ^ 2 - Laser.dT (Laser.dT F) t z r‖ ≤ K * h ^ 2 := by
  obtain ⟨K, k0, hK⟩ := (iter Laser.dT (fun _ h => h.dT) hF 4).bound t0 t1 z0 z1 R
  exact ⟨2 * K, by positivity, fun t h z r hh h1 h2 hz hr => second_err (f := fun k t => (Laser.dT^[k] F) t z r) hh (fun k _ => hF.chainT z r k)
    fun y hy => hK y ⟨h1.trans hy.1, hy.2.trans h2⟩ z hz r hr⟩

/-- Difference quotients in time are bounded by the derivative. -/
theorem quotientT (hF : Smooth F) : ∃ K, 0 ≤ K ∧ ∀ t h z r, 0 < h → t0 ≤ t - h → t + h ≤ t1 → z ∈ Icc z0 z1 → r ∈ Icc (-R) R →
    ‖(F (t + h) z r - F (t - h) z r) / (2 * h)‖ ≤ K := by
  obtain ⟨K, k0, hK⟩ := hF.dT.bound t0 t1 z0 z1 R
  refine ⟨K, k0, fun t h z r hh h1 h2 hz hr => ?_⟩
  have := (convex_Icc (t - h) (t + h)).norm_image_sub_le_of_norm_hasDerivWithin_le (f := fun t => F t z r) (f' := fun t => Laser.dT F t z r) (C := K)
    (fun s _ => (hF.isT s z r).hasDerivWithinAt) (fun s hs => hK s ⟨h1.trans hs.1, hs.2.trans h2⟩ z hz r hr)
    (left_mem_Icc.mpr (by linarith)) (right_mem_Icc.mpr (by linarith))
  rw [show t + h - (t - h) = 2 * h by ring, Real.norm_eq_abs, abs_of_pos (by linarith)] at this
  rw [norm_div, norm_mul, Complex.norm_ofNat, Complex.norm_real, Real.norm_eq_abs, abs_of_pos hh, div_le_iff₀ (by linarith)]
  exact this

/-- The Laplacian of the mean of two levels. -/
theorem laplT (hF : Smooth F) (heven : ∀ t z r, F t z (-r) = F t z r) :
    ∃ K, 0 ≤ K ∧ ∀ (t h z d : ℝ) (k nr : ℕ), 0 < h → t0 ≤ t - h → t + h ≤ t1 → z ∈ Icc z0 z1 → 0 < d → k + 1 < nr → (k + 3 / 2) * d ≤ R →
    ‖lapl nr d (fun k => (F (t + h) z ((k + 1 / 2) * d) + F (t - h) z ((k + 1 / 2) * d)) / 2) k -
      (Laser.dR (Laser.dR F) t z ((k + 1 / 2) * d) + Laser.dR F t z ((k + 1 / 2) * d) / (((k + 1 / 2) * d : ℝ) : ℂ))‖ ≤ K * (h ^ 2 + d ^ 2) := by
  obtain ⟨K1, k1, h1⟩ := (iter Laser.dR (fun _ h => h.dR) hF 4).bound t0 t1 z0 z1 R
  obtain ⟨K2, k2, h2⟩ := (iter Laser.dT (fun _ h => h.dT) hF.dR.dR 2).bound t0 t1 z0 z1 R
  obtain ⟨K3, k3, h3⟩ := (iter Laser.dT (fun _ h => h.dT) hF.dR 2).dR.bound t0 t1 z0 z1 R
  refine ⟨3 * K1 + (K2 + K3), by positivity, ?_⟩
  intro t h z d k nr hh ht0 ht1 hz hd hk hR
  set r : ℝ := (k + 1 / 2) * d with hrd
  have hr : 0 < r := by positivity
  have hrR : r ∈ Icc (-R) R := ⟨by nlinarith, by nlinarith⟩
  have lap : ∀ s ∈ Icc t0 t1, ‖lapl nr d (fun k => F s z ((k + 1 / 2) * d)) k - (Laser.dR (Laser.dR F) s z r + Laser.dR F s z r / (r : ℂ))‖ ≤ 3 * K1 * d ^ 2 :=
    fun s hs => lapl_err (f := fun k r => (Laser.dR^[k] F) s z r) (hF.chainR s z) (heven s z) hk hd hR (fun y hy => h1 s hs z hz y hy)
  have hz0 : ∀ s z, Laser.dR F s z 0 = 0 := fun s z => even_slope (f := fun k r => (Laser.dR^[k] F) s z r) (hF.chainR s z) (heven s z)
  have hz2 : ∀ s z, (Laser.dT^[2] (Laser.dR F)) s z 0 = 0 := by
    intro s z
    show deriv (fun t => deriv (fun t => Laser.dR F t z 0) t) s = 0
    simp [hz0]
  have hsm := iter Laser.dT (fun _ h => h.dT) hF.dR 2
  have hG : ∀ s ∈ Icc t0 t1, ‖(Laser.dT^[2] (Laser.dR F)) s z r / (r : ℂ)‖ ≤ K3 := by
    intro s hs
    have := (convex_Icc 0 r).norm_image_sub_le_of_norm_hasDerivWithin_le (f := fun r => (Laser.dT^[2] (Laser.dR F)) s z r)
      (f' := fun r => Laser.dR (Laser.dT^[2] (Laser.dR F)) s z r) (C := K3) (fun x _ => (hsm.isR s z x).hasDerivWithinAt)
      (fun x hx => h3 s hs z hz x ⟨by linarith [hx.1, hrR.2], hx.2.trans hrR.2⟩) (left_mem_Icc.mpr hr.le) (right_mem_Icc.mpr hr.le)
    rw [hz2, sub_zero, sub_zero, Real.norm_eq_abs, abs_of_pos hr] at this
    rw [norm_div, Complex.norm_real, Real.norm_eq_abs, abs_of_pos hr, div_le_iff₀ hr]
    exact this
  have mean := mean_err (f := fun k s => (Laser.dT^[k] (Laser.dR (Laser.dR F))) s z r + (Laser.dT^[k] (Laser.dR F)) s z r / (r : ℂ)) (x := t) (M := K2 + K3) hh
    (fun k _ s => (hF.dR.dR.chainT z r k s).add ((hF.dR.chainT z r k s).div_const (r : ℂ)))
    (fun y hy => (norm_add_le _ _).trans (add_le_add (h2 y ⟨ht0.trans hy.1, hy.2.trans ht1⟩ z hz r hrR) (hG y ⟨ht0.trans hy.1, hy.2.trans ht1⟩)))
  have e1 := lap (t + h) ⟨by linarith, ht1⟩
  have e2 := lap (t - h) ⟨ht0, by linarith⟩
  have lin : lapl nr d (fun k => (F (t + h) z ((k + 1 / 2) * d) + F (t - h) z ((k + 1 / 2) * d)) / 2) k =
      (lapl nr d (fun k => F (t + h) z ((k + 1 / 2) * d)) k + lapl nr d (fun k => F (t - h) z ((k + 1 / 2) * d)) k) / 2 := by
    unfold lapl
    dsimp only
    split_ifs <;> ring
  rw [lin]
  generalize lapl nr d (fun k => F (t + h) z ((k + 1 / 2) * d)) k = a at *
  generalize lapl nr d (fun k => F (t - h) z ((k + 1 / 2) * d)) k = b at *
  dsimp only [Function.iterate_zero, id] at mean
  generalize Laser.dR (Laser.dR F) (t + h) z r + Laser.dR F (t + h) z r / (r : ℂ) = a' at *
  generalize Laser.dR (Laser.dR F) (t - h) z r + Laser.dR F (t - h) z r / (r : ℂ) = b' at *
  generalize Laser.dR (Laser.dR F) t z r + Laser.dR F t z r / (r : ℂ) = c at *
  have e3 : (a + b) / 2 - c = (a - a') / 2 + (b - b') / 2 + ((a' + b') / 2 - c) := by ring
  rw [e3]
  refine (norm_add_le _ _).trans ((add_le_add_left (norm_add_le _ _) _).trans ?_)
  rw [norm_div, norm_div, Complex.norm_ofNat]
  have p1 : 0 ≤ K1 * h ^ 2 := by positivity
  have p2 : 0 ≤ (K2 + K3) * d ^ 2 := by positivity
  linarith

/-- The mixed derivative. -/
theorem mixedT (hF : Smooth F) {Φ : ℝ → ℝ → ℝ → ℝ} (hΦ : Smooth Φ) :
    ∃ K, 0 ≤ K ∧ ∀ t h s z dz r r' : ℝ, 0 < h → t0 ≤ t - h → t + h ≤ t1 → s ∈ Icc t0 t1 → 0 < dz → z0 ≤ z → z + 2 * dz ≤ z1 → r ∈ Icc (-R) R → r' ∈ Icc (-R) R →
    let w := fun z => (F (t + h) z r - F (t - h) z r) / (2 * h)
    ‖diffZ dz (Φ s (z + dz) r' - Φ s z r', Φ s (z + 2 * dz) r' - Φ s (z + dz) r') (w z) (w (z + dz)) (w (z + 2 * dz)) - Laser.dT (Laser.dZ F) t z r‖ ≤
      K * (h ^ 2 + dz ^ 2) := by
  have hΦc : Smooth fun t z r => (Φ t z r : ℂ) := Complex.ofRealCLM.contDiff.comp hΦ
  choose W w0 hW using fun k => (iter Laser.dZ (fun _ h => h.dZ) hF k).quotientT t0 t1 z0 z1 R
  choose P p0 hP using fun k => (iter Laser.dZ (fun _ h => h.dZ) hΦc k).bound t0 t1 z0 z1 R
  obtain ⟨K, k0, hK⟩ := hF.dZ.centralT t0 t1 z0 z1 R
  have hle : ∀ {a : ℕ → ℝ}, (∀ k, 0 ≤ a k) → ∀ k ≤ 3, a k ≤ a 0 + a 1 + a 2 + a 3 := by
    intro a ha k hk
    have := ha 0
    have := ha 1
    have := ha 2
    have := ha 3
    interval_cases k <;> linarith
  set W' := W 0 + W 1 + W 2 + W 3 with hW'
  set P' := P 0 + P 1 + P 2 + P 3 with hP'
  have hW0 : 0 ≤ W' := (w0 0).trans (hle w0 0 (by omega))
  have hP0 : 0 ≤ P' := (p0 0).trans (hle p0 0 (by omega))
  refine ⟨6 * (W' * (1 + 13 * P' + 6 * P' ^ 2 + P' ^ 3)) + K, by positivity, ?_⟩
  intro t h s z dz r r' hh ht0 ht1 hs hz hz0 hz1 hr hr' w
  have h1 := diffZ_err (w := fun k y => ((Laser.dZ^[k] F) (t + h) y r - (Laser.dZ^[k] F) (t - h) y r) / (2 * h))
    (φ := fun k y => (Laser.dZ^[k] fun t z r => (Φ t z r : ℂ)) s y r') (θ := fun y => Φ s y r')
    (fun k y => ((hF.chainZ (t + h) r k y).sub (hF.chainZ (t - h) r k y)).div_const _) (hΦc.chainZ s r') (fun _ => rfl) (z := z) (W := W') (P := P') hz hP0
    (fun k hk y hy => (hW k t h y r hh ht0 ht1 ⟨hz0.trans hy.1, hy.2.trans hz1⟩ hr).trans (hle w0 k hk))
    (fun k hk y hy => (hP k s hs y ⟨hz0.trans hy.1, hy.2.trans hz1⟩ r' hr').trans (hle p0 k hk))
  have h2 := hK t h z r hh ht0 ht1 ⟨hz0, by linarith⟩ hr
  have e : ∀ D : ℂ, D - Laser.dT (Laser.dZ F) t z r = (D - (Laser.dZ F (t + h) z r - Laser.dZ F (t - h) z r) / (2 * h)) +
      ((Laser.dZ F (t + h) z r - Laser.dZ F (t - h) z r) / (2 * h) - Laser.dT (Laser.dZ F) t z r) := fun D => by ring
  rw [e]
  refine (norm_add_le _ _).trans ((add_le_add h1 h2).trans ?_)
  have q1 : 0 ≤ 6 * (W' * (1 + 13 * P' + 6 * P' ^ 2 + P' ^ 3)) * h ^ 2 := by positivity
  have q2 : 0 ≤ K * dz ^ 2 := by positivity
  nlinarith only [q1, q2]

end Smooth

/-! ### Specification: the equations of the solver -/

/-- The values of a field at the points of the grid at one time. -/
noncomputable def onGrid (A : ℝ → ℝ → ℝ → ℂ) (t zmin dz dr : ℝ) : GridC := fun i k => A t (zmin + i * dz) ((k + 1 / 2) * dr)

/-- What is left of the equation between three levels (zero for the levels of the solver, C87). -/
noncomputable def residual (nr : ℕ) (κ dt dz dr χ : ℝ) (th : ℝ × ℝ) (new cur old : GridC) (j k : ℕ) : ℂ :=
  let u := fun i => (new i k - old i k) / (2 * dt : ℂ)
  lapl nr dr (fun k => (new j k + old j k) / 2) k + 2 * I * κ * u j + 2 * diffZ dz th (u j) (u (j + 1)) (u (j + 2)) -
    (new j k - 2 * cur j k + old j k) / (dt : ℂ) ^ 2 - χ * ((new j k + old j k) / 2)

/-- What is left of the equation of the first step, between two levels. -/
noncomputable def residualFirst (nr : ℕ) (κ dt dz dr χ : ℝ) (th : ℝ × ℝ) (new cur : GridC) (j k : ℕ) : ℂ :=
  let u := fun i => (new i k - cur i k) / (dt : ℂ)
  lapl nr dr (fun k => (new j k + cur j k) / 2) k + 2 * I * κ * u j + 2 * diffZ dz th (u j) (u (j + 1)) (u (j + 2)) -
    χ * ((new j k + cur j k) / 2)

/-- Steps such that the neighbours of the point `j`, `k` lie within the region. -/
structure Inside (t0 t1 z0 z1 R t dt zmin dz dr : ℝ) (nr j k : ℕ) : Prop where
  pos_t : 0 < dt
  pos_z : 0 < dz
  pos_r : 0 < dr
  first : t0 ≤ t - dt
  last : t + dt ≤ t1
  left : z0 ≤ zmin + j * dz
  right : zmin + (j + 2) * dz ≤ z1
  inner : k + 1 < nr
  radius : (k + 3 / 2) * dr ≤ R

/-! ### The phase advance -/

/-- The phase advance on axis that the solver finds is that of the smooth phase. -/
theorem advance_eq {a b : ℂ} {α β th : ℝ} (ha : a = ‖a‖ * Complex.exp (I * α)) (hb : b = ‖b‖ * Complex.exp (I * β)) (ha0 : a ≠ 0) (hb0 : b ≠ 0)
    (h : ‖a‖ * b = Complex.exp (I * th) * (‖b‖ * a)) (hth : |th| ≤ Real.pi) (hlt : |β - α| < Real.pi) : th = β - α := by
  have na : (‖a‖ : ℂ) ≠ 0 := by exact_mod_cast norm_ne_zero_iff.mpr ha0
  have nb : (‖b‖ : ℂ) ≠ 0 := by exact_mod_cast norm_ne_zero_iff.mpr hb0
  have e : Complex.exp (I * β) = Complex.exp (I * th + I * α) := by
    rw [Complex.exp_add]
    have h1 : (‖a‖ : ℂ) * (‖b‖ * Complex.exp (I * β)) = Complex.exp (I * th) * (‖b‖ * (‖a‖ * Complex.exp (I * α))) := by
      rw [← ha, ← hb]
      exact h
    exact mul_left_cancel₀ (mul_ne_zero na nb) (by linear_combination h1)
  obtain ⟨n, hn⟩ := Complex.exp_eq_exp_iff_exists_int.mp e
  have hn' : β = th + α + n * (2 * Real.pi) := by
    have : (β : ℂ) = (th : ℂ) + α + n * (2 * Real.pi) := by
      have hI : I ≠ 0 := Complex.I_ne_zero
      refine mul_left_cancel₀ hI ?_
      linear_combination hn
    exact_mod_cast this
  have hn0 : n = 0 := by
    have h1 := abs_le.mp hth
    have h2 := abs_lt.mp hlt
    have hpi := Real.pi_pos
    have u : (n : ℝ) < 1 := by nlinarith
    have l : (-1 : ℝ) < n := by nlinarith
    have u' : n < 1 := by exact_mod_cast u
    have l' : -1 < n := by exact_mod_cast l
    omega
  rw [hn0] at hn'
  push_cast at hn'
  linarith

theorem phase_step {Φ : ℝ → ℝ → ℝ → ℝ} (hΦ : Smooth Φ) (t0 t1 z0 z1 R : ℝ) :
    ∃ δ, 0 < δ ∧ ∀ t ∈ Icc t0 t1, ∀ r ∈ Icc (-R) R, ∀ z dz, z0 ≤ z → 0 < dz → z + dz ≤ z1 → dz < δ → |Φ t (z + dz) r - Φ t z r| < Real.pi := by
  have hΦc : Smooth fun t z r => (Φ t z r : ℂ) := Complex.ofRealCLM.contDiff.comp hΦ
  obtain ⟨M, m0, hM⟩ := hΦc.dZ.bound t0 t1 z0 z1 R
  refine ⟨Real.pi / (M + 1), by positivity, fun t ht r hr z dz h0 h1 h2 h3 => ?_⟩
  have := (convex_Icc z (z + dz)).norm_image_sub_le_of_norm_hasDerivWithin_le (f := fun z => (Φ t z r : ℂ)) (f' := fun z => dZ (fun t z r => (Φ t z r : ℂ)) t z r)
    (C := M) (fun y _ => (hΦc.isZ t y r).hasDerivWithinAt) (fun y hy => hM t ht y ⟨h0.trans hy.1, hy.2.trans h2⟩ r hr)
    (left_mem_Icc.mpr (by linarith)) (right_mem_Icc.mpr (by linarith))
  rw [← Complex.ofReal_sub, Complex.norm_real, add_sub_cancel_left, Real.norm_eq_abs, Real.norm_eq_abs, abs_of_pos h1] at this
  rw [lt_div_iff₀ (by positivity)] at h3
  nlinarith

/-! ### C164 -/

variable {A : ℝ → ℝ → ℝ → ℂ} (hA : Smooth A) (heven : ∀ t z r, A t z (-r) = A t z r) {Φ : ℝ → ℝ → ℝ → ℝ} (hΦ : Smooth Φ) (use : Bool) (κ X t0 t1 z0 z1 R : ℝ)
  (hph : use = true → ∀ t ∈ Icc t0 t1, ∀ z ∈ Icc z0 z1, ∀ r ∈ Icc (-R) R, A t z r = ‖A t z r‖ * Complex.exp (I * Φ t z r))
include hA heven hΦ hph

/-- The terms that both solvers have in common, for the mean and the difference of two levels at the times `t + h` and `t - h` and the phase at the time `s`. -/
theorem common_terms : ∃ K δ, 0 ≤ K ∧ 0 < δ ∧ ∀ (t h s zmin dz dr χ : ℝ) (nr j k : ℕ) (th : ℝ × ℝ), Inside t0 t1 z0 z1 R t h zmin dz dr nr j k → s ∈ Icc t0 t1 → dz < δ → |χ| ≤ X →
    Envelope κ χ A t (zmin + j * dz) ((k + 1 / 2) * dr) → (use = true → ∀ i : ℕ, i ≤ 2 → onGrid A s zmin dz dr (j + i) 0 ≠ 0) →
    Advance use (onGrid A s zmin dz dr) j th →
    let new := onGrid A (t + h) zmin dz dr
    let old := onGrid A (t - h) zmin dz dr
    let u := fun i => (new i k - old i k) / (2 * h : ℂ)
    ‖lapl nr dr (fun k => (new j k + old j k) / 2) k + 2 * I * κ * u j + 2 * diffZ dz th (u j) (u (j + 1)) (u (j + 2)) - χ * ((new j k + old j k) / 2) -
      dT (dT A) t (zmin + j * dz) ((k + 1 / 2) * dr)‖ ≤ K * (h ^ 2 + dz ^ 2 + dr ^ 2) := by
  have hΨ : Smooth (if use then Φ else fun _ _ _ => 0) := by
    cases use
    · exact contDiff_const
    · exact hΦ
  obtain ⟨K1, p1, h1⟩ := hA.laplT t0 t1 z0 z1 R heven
  obtain ⟨K2, p2, h2⟩ := hA.centralT t0 t1 z0 z1 R
  obtain ⟨K3, p3, h3⟩ := hA.mixedT t0 t1 z0 z1 R hΨ
  obtain ⟨K4, p4, h4⟩ := hA.meanT t0 t1 z0 z1 R
  obtain ⟨δ, hδ, h5⟩ := phase_step hΦ t0 t1 z0 z1 R
  refine ⟨K1 + 2 * |κ| * K2 + 2 * K3 + |X| * K4, δ, by positivity, hδ, ?_⟩
  intro t h s zmin dz dr χ nr j k th hin hs hdz hχ heq hne hadv new old u
  set z := zmin + j * dz with hz
  have hz1 : zmin + ((j + 1 : ℕ) : ℝ) * dz = z + dz := by push_cast; ring
  have hz2 : zmin + ((j + 2 : ℕ) : ℝ) * dz = z + 2 * dz := by push_cast; ring
  have hd := hin.pos_z
  have hzz : z + 2 * dz ≤ z1 := by
    have := hin.right
    rw [hz]
    linarith
  have hzb : z ∈ Icc z0 z1 := ⟨hin.left, by linarith⟩
  have hr0 := hin.pos_r
  have hk0 : (0 : ℝ) ≤ k := Nat.cast_nonneg k
  have hR := hin.radius
  have hr : ((k : ℝ) + 1 / 2) * dr ∈ Icc (-R) R := ⟨by nlinarith, by nlinarith⟩
  have hr' : (((0 : ℕ) : ℝ) + 1 / 2) * dr ∈ Icc (-R) R := by
    push_cast
    exact ⟨by nlinarith, by nlinarith⟩
  have hth : th = ((if use then Φ else fun _ _ _ => 0) s (z + dz) ((((0 : ℕ) : ℝ) + 1 / 2) * dr) - (if use then Φ else fun _ _ _ => 0) s z ((((0 : ℕ) : ℝ) + 1 / 2) * dr),
      (if use then Φ else fun _ _ _ => 0) s (z + 2 * dz) ((((0 : ℕ) : ℝ) + 1 / 2) * dr) -
        (if use then Φ else fun _ _ _ => 0) s (z + dz) ((((0 : ℕ) : ℝ) + 1 / 2) * dr)) := by
    cases use with
    | false =>
      have : th = (0, 0) := hadv
      rw [this]
      simp
    | true =>
      have hadv' : (_ ∧ _) ∧ (_ ∧ _) := hadv
      obtain ⟨⟨a1, a2⟩, a3, a4⟩ := hadv'
      have b0 := hne rfl 0 (by omega)
      have b1 := hne rfl 1 (by omega)
      have b2 := hne rfl 2 (by omega)
      rw [add_zero] at b0
      unfold onGrid at a1 a3 b0 b1 b2
      rw [hz1] at a1 a3 b1
      rw [hz2] at a3 b2
      rw [← hz] at a1 b0
      simp only [if_true]
      have c1 := advance_eq (hph rfl s hs z hzb _ hr') (hph rfl s hs (z + dz) ⟨by linarith [hzb.1], by linarith⟩ _ hr') b0 b1 a1 a2
        (h5 s hs _ hr' z dz hzb.1 hd (by linarith) hdz)
      have c2 := advance_eq (hph rfl s hs (z + dz) ⟨by linarith [hzb.1], by linarith⟩ _ hr') (hph rfl s hs (z + 2 * dz) ⟨by linarith [hzb.1], by linarith⟩ _ hr') b1 b2 a3 a4
        (by
          have := h5 s hs _ hr' (z + dz) dz (by linarith [hzb.1]) hd (by linarith) hdz
          rwa [show z + dz + dz = z + 2 * dz by ring] at this)
      exact Prod.ext c1 c2
  have e1 := h1 t h z dr k nr hin.pos_t hin.first hin.last hzb hr0 hin.inner hR
  have e2 := h2 t h z _ hin.pos_t hin.first hin.last hzb hr
  have e3 := h3 t h s z dz _ _ hin.pos_t hin.first hin.last hs hd hzb.1 hzz hr hr'
  have e4 := h4 t h z _ hin.pos_t hin.first hin.last hzb hr
  dsimp only at e3
  rw [← hth] at e3
  unfold Envelope at heq
  simp only [u, new, old]
  unfold onGrid
  rw [hz1, hz2, ← hz]
  generalize lapl nr dr _ k = L at *
  generalize diffZ dz th _ _ _ = D at *
  generalize (A (t + h) z ((k + 1 / 2) * dr) - A (t - h) z ((k + 1 / 2) * dr)) / (2 * h) = U at *
  generalize (A (t + h) z ((k + 1 / 2) * dr) + A (t - h) z ((k + 1 / 2) * dr)) / 2 = M at *
  generalize dR (dR A) t z ((k + 1 / 2) * dr) + dR A t z ((k + 1 / 2) * dr) / _ = L' at *
  have key : L + 2 * I * κ * U + 2 * D - χ * M - dT (dT A) t z ((k + 1 / 2) * dr) =
      (L - L') + 2 * I * κ * (U - dT A t z ((k + 1 / 2) * dr)) + 2 * (D - dT (dZ A) t z ((k + 1 / 2) * dr)) - χ * (M - A t z ((k + 1 / 2) * dr)) := by
    linear_combination heq
  rw [key]
  have n1 : ‖2 * I * (κ : ℂ) * (U - dT A t z ((k + 1 / 2) * dr))‖ ≤ 2 * |κ| * (K2 * h ^ 2) := by
    rw [norm_mul, norm_mul, norm_mul, Complex.norm_I, Complex.norm_ofNat, Complex.norm_real, Real.norm_eq_abs, mul_one]
    gcongr
  have n2 : ‖2 * (D - dT (dZ A) t z ((k + 1 / 2) * dr))‖ ≤ 2 * (K3 * (h ^ 2 + dz ^ 2)) := by
    rw [norm_mul, Complex.norm_ofNat]
    gcongr
  have n3 : ‖(χ : ℂ) * (M - A t z ((k + 1 / 2) * dr))‖ ≤ |X| * (K4 * h ^ 2) := by
    rw [norm_mul, Complex.norm_real, Real.norm_eq_abs]
    have := hχ.trans (le_abs_self X)
    gcongr
  have m1 := norm_sub_le ((L - L') + 2 * I * κ * (U - dT A t z ((k + 1 / 2) * dr)) + 2 * (D - dT (dZ A) t z ((k + 1 / 2) * dr))) (χ * (M - A t z ((k + 1 / 2) * dr)))
  have m2 := norm_add_le ((L - L') + 2 * I * κ * (U - dT A t z ((k + 1 / 2) * dr))) (2 * (D - dT (dZ A) t z ((k + 1 / 2) * dr)))
  have m3 := norm_add_le (L - L') (2 * I * κ * (U - dT A t z ((k + 1 / 2) * dr)))
  have q1 : 0 ≤ K1 * dz ^ 2 := by positivity
  have q2 : 0 ≤ |κ| * K2 * (dz ^ 2 + dr ^ 2) := by positivity
  have q3 : 0 ≤ K3 * dr ^ 2 := by positivity
  have q4 : 0 ≤ |X| * K4 * (dz ^ 2 + dr ^ 2) := by positivity
  linarith only [m1, m2, m3, n1, n2, n3, e1, q1, q2, q3, q4]

/-- **C164.** A smooth field with the phase `Φ` that satisfies the envelope equation satisfies the equations of the solver, at the points of any grid, up to terms of second order
in the steps. -/
theorem scheme_consistent : ∃ K δ, 0 < δ ∧ ∀ (t dt zmin dz dr χ : ℝ) (nr j k : ℕ) (th : ℝ × ℝ), Inside t0 t1 z0 z1 R t dt zmin dz dr nr j k → dz < δ → |χ| ≤ X →
    Envelope κ χ A t (zmin + j * dz) ((k + 1 / 2) * dr) → (use = true → ∀ i : ℕ, i ≤ 2 → onGrid A t zmin dz dr (j + i) 0 ≠ 0) →
    Advance use (onGrid A t zmin dz dr) j th →
    ‖residual nr κ dt dz dr χ th (onGrid A (t + dt) zmin dz dr) (onGrid A t zmin dz dr) (onGrid A (t - dt) zmin dz dr) j k‖ ≤
      K * (dt ^ 2 + dz ^ 2 + dr ^ 2) := by
  obtain ⟨K, δ, k0, hδ, h⟩ := common_terms hA heven hΦ use κ X t0 t1 z0 z1 R hph
  obtain ⟨K5, p5, h5⟩ := hA.secondT t0 t1 z0 z1 R
  refine ⟨K + K5, δ, hδ, ?_⟩
  intro t dt zmin dz dr χ nr j k th hin hdz hχ heq hne hadv
  have e1 := h t dt t zmin dz dr χ nr j k th hin ⟨by linarith [hin.first, hin.pos_t], by linarith [hin.last, hin.pos_t]⟩ hdz hχ heq hne hadv
  have hr0 := hin.pos_r
  have hk0 : (0 : ℝ) ≤ k := Nat.cast_nonneg k
  have hR := hin.radius
  have e2 := h5 t dt (zmin + j * dz) ((k + 1 / 2) * dr) hin.pos_t hin.first hin.last
    ⟨hin.left, by linarith [hin.right, hin.pos_z]⟩ ⟨by nlinarith, by nlinarith⟩
  dsimp only at e1
  unfold residual
  dsimp only
  generalize lapl nr dr _ k + 2 * I * κ * _ + 2 * diffZ dz th _ _ _ = L at *
  change ‖(onGrid A (t + dt) zmin dz dr j k - 2 * onGrid A t zmin dz dr j k + onGrid A (t - dt) zmin dz dr j k) / (dt : ℂ) ^ 2 - _‖ ≤ _ at e2
  generalize (onGrid A (t + dt) zmin dz dr j k - 2 * onGrid A t zmin dz dr j k + onGrid A (t - dt) zmin dz dr j k) / (dt : ℂ) ^ 2 = S at *
  generalize (χ : ℂ) * _ = M at *
  generalize dT (dT A) _ _ _ = T at *
  rw [show L - S - M = (L - M - T) - (S - T) by ring]
  refine (norm_sub_le _ _).trans ((add_le_add e1 e2).trans ?_)
  have q : 0 ≤ K5 * (dz ^ 2 + dr ^ 2) := by positivity
  linarith only [q]

/-- **C164.** The equations of the first step, between the levels `t` and `t + dt`, hold to second order at the middle of the step, but for the second derivative in time, which
they leave out. -/
theorem first_step_consistent : ∃ K δ, 0 < δ ∧ ∀ (t dt zmin dz dr χ : ℝ) (nr j k : ℕ) (th : ℝ × ℝ), Inside t0 t1 z0 z1 R (t + dt / 2) (dt / 2) zmin dz dr nr j k →
    dz < δ → |χ| ≤ X → Envelope κ χ A (t + dt / 2) (zmin + j * dz) ((k + 1 / 2) * dr) →
    (use = true → ∀ i : ℕ, i ≤ 2 → onGrid A t zmin dz dr (j + i) 0 ≠ 0) → Advance use (onGrid A t zmin dz dr) j th →
    ‖residualFirst nr κ dt dz dr χ th (onGrid A (t + dt) zmin dz dr) (onGrid A t zmin dz dr) j k -
      dT (dT A) (t + dt / 2) (zmin + j * dz) ((k + 1 / 2) * dr)‖ ≤ K * (dt ^ 2 + dz ^ 2 + dr ^ 2) := by
  obtain ⟨K, δ, k0, hδ, h⟩ := common_terms hA heven hΦ use κ X t0 t1 z0 z1 R hph
  refine ⟨K, δ, hδ, ?_⟩
  intro t dt zmin dz dr χ nr j k th hin hdz hχ heq hne hadv
  have e1 := h (t + dt / 2) (dt / 2) t zmin dz dr χ nr j k th hin
    ⟨by linarith [hin.first], by linarith [hin.last, hin.pos_t]⟩ hdz hχ heq hne hadv
  have t1' : t + dt / 2 + dt / 2 = t + dt := by ring
  have t2' : t + dt / 2 - dt / 2 = t := by ring
  have t3' : 2 * ((dt / 2 : ℝ) : ℂ) = dt := by push_cast; ring
  dsimp only at e1
  rw [t1', t2', t3'] at e1
  refine e1.trans (mul_le_mul_of_nonneg_left ?_ k0)
  nlinarith only [hin.pos_t]

omit hA heven hΦ hph in
theorem residual_sub (nr : ℕ) (κ dt dz dr χ : ℝ) (th : ℝ × ℝ) (new new' cur old : GridC) (j k : ℕ) :
    residual nr κ dt dz dr χ th (fun i k => new i k - new' i k) 0 0 j k =
      residual nr κ dt dz dr χ th new cur old j k - residual nr κ dt dz dr χ th new' cur old j k := by
  unfold residual lapl diffZ
  dsimp only [Pi.zero_apply]
  split_ifs <;> ring

/-- **C164.** One step of the solver that starts from two levels of the field: its error, compared to the field at the next level, satisfies the (linear) equations of the solver
with a source of second order.  (Missing: the outermost radial point, see C48.) -/
theorem step_error_partial : ∃ K δ, 0 < δ ∧ ∀ (p : EnvParams) (chi : ℕ → ℕ → ℝ) (t zmin : ℝ), p.Ok → p.usePhase = use → p.k0 / p.kp = κ → p.nt = 1 → (∀ j k, 0 ≤ chi j k) →
    p.dz < δ →
    let cur := onGrid A t zmin p.dz p.dr
    let out := (p.evolve true chi (cur, onGrid A (t - p.dtn) zmin p.dz p.dr)).1
    let new := fun i k => if i < p.nz then out i k else 0
    ∀ j k, j < p.nz → Inside t0 t1 z0 z1 R t p.dtn zmin p.dz p.dr p.nr j k → chi j k ≤ X →
      Envelope κ (chi j k) A t (zmin + j * p.dz) ((k + 1 / 2) * p.dr) → (use = true → ∀ i : ℕ, i ≤ 2 → cur (j + i) 0 ≠ 0) →
      ∃ th, Advance use cur j th ∧
        ‖residual p.nr κ p.dtn p.dz p.dr (chi j k) th (fun i k => new i k - onGrid A (t + p.dtn) zmin p.dz p.dr i k) 0 0 j k‖ ≤
          K * (p.dtn ^ 2 + p.dz ^ 2 + p.dr ^ 2) := by
  obtain ⟨K, δ, hδ, h⟩ := scheme_consistent hA heven hΦ use κ X t0 t1 z0 z1 R hph
  refine ⟨K, δ, hδ, ?_⟩
  intro p chi t zmin hp hu hκ hnt hchi hdz cur out new j k hj hin hX heq hne
  obtain ⟨lev, l0, l1, l2, l3⟩ := evolve_equation_partial hp hchi cur (onGrid A (t - p.dtn) zmin p.dz p.dr)
  obtain ⟨l4, l5⟩ := l3 0
  obtain ⟨th, l6, l7⟩ := l5 j k hj hin.inner
  rw [l1, hu] at l6
  have hnew : new = lev 2 := by
    funext i k
    simp only [new]
    split_ifs with hi
    · have := (l2 i hi).1
      rw [hnt] at this
      exact congrFun this k
    · rw [l4 i (by omega)]
      rfl
  refine ⟨th, l6, ?_⟩
  rw [residual_sub p.nr κ p.dtn p.dz p.dr (chi j k) th new _ cur (onGrid A (t - p.dtn) zmin p.dz p.dr) j k]
  have hz : residual p.nr κ p.dtn p.dz p.dr (chi j k) th new cur (onGrid A (t - p.dtn) zmin p.dz p.dr) j k = 0 := by
    unfold residual
    dsimp only
    rw [l0, l1, ← hnew] at l7
    rw [sub_eq_zero, ← l7, ← hκ]
    push_cast
    rfl
  rw [hz, zero_sub, norm_neg]
  exact h t p.dtn zmin p.dz p.dr (chi j k) p.nr j k th hin hdz (by rw [abs_of_nonneg (hchi j k)]; exact hX) heq hne l6

/-- A pulse in a parabolic plasma channel that keeps its shape: `exp (-r²) exp (i (q z - v t))` solves the equation with the susceptibility `4 r² - 4 + v (2 κ + 2 q + v)`, has
the phase `q z - v t` and vanishes nowhere, so the theorems apply to it with and without use of the phase. -/
example (κ q v : ℝ) : ∃ (A : ℝ → ℝ → ℝ → ℂ) (Φ : ℝ → ℝ → ℝ → ℝ), Smooth A ∧ Smooth Φ ∧ (∀ t z r, A t z (-r) = A t z r) ∧ (∀ t z r, A t z r ≠ 0) ∧
    (∀ t z r, A t z r = ‖A t z r‖ * Complex.exp (I * Φ t z r)) ∧
    ∀ t z r, r ≠ 0 → Envelope κ (4 * r ^ 2 - 4 + v * (2 * κ + 2 * q + v)) A t z r := by
  refine ⟨fun t z r => Complex.exp (-(r : ℂ) ^ 2 + I * (q * z - v * t)), fun t z r => q * z - v * t, ?_, ?_, ?_, fun _ _ _ => Complex.exp_ne_zero _, ?_, ?_⟩
  · have ht : ContDiff ℝ ∞ fun p : ℝ × ℝ × ℝ => (p.1 : ℂ) := Complex.ofRealCLM.contDiff.comp contDiff_fst
    have hz : ContDiff ℝ ∞ fun p : ℝ × ℝ × ℝ => (p.2.1 : ℂ) := Complex.ofRealCLM.contDiff.comp (contDiff_fst.comp contDiff_snd)
    have hr : ContDiff ℝ ∞ fun p : ℝ × ℝ × ℝ => (p.2.2 : ℂ) := Complex.ofRealCLM.contDiff.comp (contDiff_snd.comp contDiff_snd)
    exact ((hr.pow 2).neg.add (contDiff_const.mul ((contDiff_const.mul hz).sub (contDiff_const.mul ht)))).cexp
  · exact (contDiff_const.mul (contDiff_fst.comp contDiff_snd)).sub (contDiff_const.mul contDiff_fst)
  · intro t z r
    simp
  · intro t z r
    have : ‖Complex.exp (-(r : ℂ) ^ 2 + I * (q * z - v * t))‖ = Real.exp (-r ^ 2) := by
      rw [Complex.norm_exp]
      congr 1
      simp [← Complex.ofReal_pow, ← Complex.ofReal_mul, ← Complex.ofReal_sub]
    rw [this, Complex.ofReal_exp, ← Complex.exp_add]
    push_cast
    rfl
  · intro t z r hr
    have hx : ∀ x : ℝ, HasDerivAt (fun x : ℝ => (x : ℂ)) 1 x := fun x => Complex.ofRealCLM.hasDerivAt
    have e1 : dT (fun t z r : ℝ => Complex.exp (-(r : ℂ) ^ 2 + I * (q * z - v * t))) = fun t z r : ℝ => -I * v * Complex.exp (-(r : ℂ) ^ 2 + I * (q * z - v * t)) := by
      funext t z r
      refine HasDerivAt.deriv (((((((hx t).const_mul (v : ℂ)).const_sub (q * (z : ℂ))).const_mul I).const_add (-(r : ℂ) ^ 2)).cexp).congr_deriv ?_)
      ring
    have e2 : dZ (fun t z r : ℝ => Complex.exp (-(r : ℂ) ^ 2 + I * (q * z - v * t))) = fun t z r : ℝ => I * q * Complex.exp (-(r : ℂ) ^ 2 + I * (q * z - v * t)) := by
      funext t z r
      refine HasDerivAt.deriv (((((((hx z).const_mul (q : ℂ)).sub_const (v * (t : ℂ))).const_mul I).const_add (-(r : ℂ) ^ 2)).cexp).congr_deriv ?_)
      ring
    have h3 : ∀ t z r : ℝ, HasDerivAt (fun r : ℝ => Complex.exp (-(r : ℂ) ^ 2 + I * (q * z - v * t))) (-2 * r * Complex.exp (-(r : ℂ) ^ 2 + I * (q * z - v * t))) r := by
      intro t z r
      refine ((((hx r).pow 2).neg.add_const (I * (q * (z : ℂ) - v * t))).cexp).congr_deriv ?_
      simp
      ring
    have e3 : dR (fun t z r : ℝ => Complex.exp (-(r : ℂ) ^ 2 + I * (q * z - v * t))) = fun t z r : ℝ => -2 * (r : ℂ) * Complex.exp (-(r : ℂ) ^ 2 + I * (q * z - v * t)) := by
      funext t z r
      exact (h3 t z r).deriv
    have e4 : dR (fun t z r : ℝ => -2 * (r : ℂ) * Complex.exp (-(r : ℂ) ^ 2 + I * (q * z - v * t))) t z r =
        (4 * (r : ℂ) ^ 2 - 2) * Complex.exp (-(r : ℂ) ^ 2 + I * (q * z - v * t)) := by
      refine HasDerivAt.deriv ((((hx r).const_mul (-2 : ℂ)).mul (h3 t z r)).congr_deriv ?_)
      ring
    have c : ∀ (a : ℂ) (f : ℝ → ℂ) (x : ℝ), deriv (fun x => a * f x) x = a * deriv f x := fun a f x => deriv_const_mul_field a
    have e5 : ∀ a : ℂ, dT (fun t z r : ℝ => a * Complex.exp (-(r : ℂ) ^ 2 + I * (q * z - v * t))) t z r =
        a * (-I * v * Complex.exp (-(r : ℂ) ^ 2 + I * (q * z - v * t))) := by
      intro a
      have := congrFun (congrFun (congrFun e1 t) z) r
      unfold dT at this ⊢
      rw [c, this]
    unfold Envelope
    rw [e1, e2, e3, e4, e5, e5]
    have hrc : (r : ℂ) ≠ 0 := by exact_mod_cast hr
    have hI : I * I = -1 := Complex.I_mul_I
    push_cast
    generalize Complex.exp (-(r : ℂ) ^ 2 + I * (q * z - v * t)) = E
    rw [show -2 * (r : ℂ) * E / r = -2 * E by field_simp]
    linear_combination (-2 * κ * v * E - 2 * q * v * E - v ^ 2 * E) * hI

end WakeT.Laser
