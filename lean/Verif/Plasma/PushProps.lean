import Verif.Plasma.Push
import Verif.Plasma.PsiDeriv
import Mathlib.Algebra.Polynomial.Derivative
import Mathlib.Algebra.Polynomial.Eval.Degree
import Mathlib.Tactic.Module

/-! # Properties of the plasma particle push (C61, C62, C63) -/

set_option linter.unusedSectionVars false

namespace WakeT.Plasma

/-! ### C61 -/

/-- **C61.** The updated energy and momentum satisfy the quasistatic invariant and the mass
shell condition, `gamma >= 1`, and the particle moves backwards or slower than light. -/
theorem gamma_pz (pr a2 psi : ℝ) (hψ : -1 < psi) (ha : 0 ≤ a2) :
    let k := updateGamma pr a2 psi
    k.gamma - k.pz = 1 + psi ∧ k.gamma ^ 2 = 1 + k.pr ^ 2 + a2 + k.pz ^ 2 ∧ 1 ≤ k.gamma ∧
      |k.pz| < k.gamma := by
  have h : 0 < 1 + psi := by linarith
  intro k
  have e1 : k.gamma - k.pz = 1 + psi := by
    simp only [k, updateGamma]; field_simp; ring
  have e2 : k.gamma ^ 2 = 1 + k.pr ^ 2 + a2 + k.pz ^ 2 := by
    simp only [k, updateGamma]; field_simp; ring
  have hg : 0 < k.gamma := by simp only [k, updateGamma]; positivity
  have e3 : 1 ≤ k.gamma := by
    nlinarith [sq_nonneg k.pr, sq_nonneg k.pz]
  refine ⟨e1, e2, e3, ?_⟩
  apply abs_lt_of_sq_lt_sq _ hg.le
  rw [e2]; nlinarith [sq_nonneg k.pr]

/-- The potentials computed at the particles never violate the hypothesis. -/
theorem gamma_pz_slice (s : Slice) (i : ℕ) (pr a2 : ℝ) (ha : 0 ≤ a2) :
    let k := updateGamma pr a2 (s.psi i)
    k.gamma - k.pz = 1 + s.psi i ∧ k.gamma ^ 2 = 1 + k.pr ^ 2 + a2 + k.pz ^ 2 ∧ 1 ≤ k.gamma ∧
      |k.pz| < k.gamma :=
  gamma_pz pr a2 _ (by have := psi_ge s i; linarith) ha

/-- **C61, partial.** After the column update no particle is at or above `max_gamma`, all have
`gamma >= 1` and `|pz| < gamma` (so that the deposited weights are defined and positive), and
those below `max_gamma` satisfy the invariant and the mass shell condition.  Missing: the
slowed down particles do not (`slowDown_violated`). -/
theorem column_gamma_partial (pr a2 psi maxGamma : ℝ) (hψ : -1 < psi) (ha : 0 ≤ a2)
    (hm : 1 < maxGamma) :
    let k0 := updateGamma pr a2 psi
    let k := slowDown maxGamma k0
    k.gamma < maxGamma ∧ 1 ≤ k.gamma ∧ |k.pz| < k.gamma ∧
      (k0.gamma < maxGamma →
        k.gamma - k.pz = 1 + psi ∧ k.gamma ^ 2 = 1 + k.pr ^ 2 + a2 + k.pz ^ 2) := by
  intro k0 k
  obtain ⟨h1, h2, h3, h4⟩ := gamma_pz pr a2 psi hψ ha
  by_cases h : k0.gamma ≥ maxGamma
  · have hk : k = { pr := 0, gamma := 1, pz := 0 } := if_pos h
    rw [hk]
    refine ⟨hm, le_rfl, by norm_num, fun hlt => absurd hlt (not_lt.mpr h)⟩
  · have hk : k = k0 := if_neg h
    rw [hk]
    exact ⟨not_le.mp h, h3, h4, fun _ => ⟨h1, h2⟩⟩

/-- **C61 violated** for slowed down particles: with a potential above -1 and the default
`max_gamma = 10` the particle ends with `gamma - pz ≠ 1 + psi`, and, in a laser field, off the
mass shell. -/
theorem slowDown_violated : ∃ pr a2 psi : ℝ, -1 < psi ∧ 0 ≤ a2 ∧
    let k := slowDown 10 (updateGamma pr a2 psi)
    k.gamma - k.pz ≠ 1 + psi ∧ k.gamma ^ 2 ≠ 1 + k.pr ^ 2 + a2 + k.pz ^ 2 := by
  refine ⟨4, 1, -9 / 10, by norm_num, by norm_num, ?_⟩
  have : (updateGamma 4 1 (-9 / 10)).gamma ≥ 10 := by norm_num [updateGamma]
  simp only [slowDown, if_pos this]
  norm_num

/-- The weights of the deposited density and susceptibility are positive. -/
theorem weights_pos (pr a2 psi maxGamma q dr r : ℝ) (hψ : -1 < psi) (ha : 0 ≤ a2)
    (hm : 1 < maxGamma) (hq : 0 < q) (hdr : 0 < dr) (hr : 0 < r) :
    let k := slowDown maxGamma (updateGamma pr a2 psi)
    0 < wRho q dr r k ∧ 0 < wChi q dr r k := by
  intro k
  obtain ⟨_, h1, h2, _⟩ := column_gamma_partial pr a2 psi maxGamma hψ ha hm
  have hg : 0 < k.gamma := lt_of_lt_of_le one_pos h1
  have : k.pz / k.gamma < 1 := by rw [div_lt_one hg]; exact lt_of_le_of_lt (le_abs_self _) h2
  have hw : 0 < wRho q dr r k := by
    unfold wRho
    apply div_pos hq
    exact mul_pos (mul_pos hdr hr) (by linarith)
  exact ⟨hw, div_pos hw hg⟩

/-- The density weight is the charge times `gamma / (1 + psi)` over the cell volume. -/
theorem wRho_eq (pr a2 psi q dr r : ℝ) (hψ : -1 < psi) (ha : 0 ≤ a2) :
    let k := updateGamma pr a2 psi
    wRho q dr r k = q * k.gamma / (dr * r * (1 + psi)) ∧ wChi q dr r k = q / (dr * r * (1 + psi)) := by
  intro k
  obtain ⟨h1, _, h3, _⟩ := gamma_pz pr a2 psi hψ ha
  have hg : k.gamma ≠ 0 := by intro h0; have : (1 : ℝ) ≤ 0 := h0 ▸ h3; linarith
  have e : 1 - k.pz / k.gamma = (1 + psi) / k.gamma := by
    rw [← show k.gamma - k.pz = 1 + psi from h1]; field_simp
  have hw : wRho q dr r k = q * k.gamma / (dr * r * (1 + psi)) := by
    unfold wRho; rw [e, ← mul_div_assoc, div_div_eq_mul_div]
  refine ⟨hw, ?_⟩
  unfold wChi; rw [hw]; field_simp

/-! ### C62 -/

/-- **C62.** With the derivatives of a polynomial of degree at most five at the last five
slices, the Adams-Bashforth push gives its exact value at the next slice. -/
theorem ab5_exact (P : Polynomial ℝ) (hP : P.natDegree ≤ 5) (t h : ℝ) :
    applyAb5 (P.eval t) h (P.derivative.eval t) (P.derivative.eval (t - h))
      (P.derivative.eval (t - 2 * h)) (P.derivative.eval (t - 3 * h))
      (P.derivative.eval (t - 4 * h)) = P.eval (t + h) := by
  have e : ∀ x, P.eval x = ∑ i ∈ Finset.range 6, P.coeff i * x ^ i := fun x =>
    Polynomial.eval_eq_sum_range' (by omega) x
  have hd : P.derivative.natDegree < 5 ∨ P.derivative = 0 := by
    by_cases h0 : P.natDegree = 0
    · right
      rw [Polynomial.eq_C_of_natDegree_eq_zero h0]; simp
    · left
      exact lt_of_lt_of_le (Polynomial.natDegree_derivative_lt h0) hP
  have e' : ∀ x, P.derivative.eval x =
      ∑ i ∈ Finset.range 5, (P.coeff (i + 1) * (i + 1)) * x ^ i := by
    intro x
    have hlt : P.derivative.natDegree < 5 := by
      rcases hd with h | h
      · exact h
      · rw [h]; simp
    rw [Polynomial.eval_eq_sum_range' hlt x]
    apply Finset.sum_congr rfl
    intro i _
    rw [Polynomial.coeff_derivative]
  unfold applyAb5
  simp only [e, e', Finset.sum_range_succ, Finset.sum_range_zero]
  push_cast
  ring

/-- The order is exactly five: `t^6` is not integrated exactly. -/
theorem ab5_order_sharp : applyAb5 0 1 (6 * 0 ^ 5) (6 * (-1) ^ 5) (6 * (-2) ^ 5) (6 * (-3) ^ 5)
    (6 * (-4) ^ 5) ≠ (1 : ℝ) ^ 6 := by
  norm_num [applyAb5]

/-- The sum that a textbook five-step Adams-Bashforth method adds in step `n` to `x`, with
derivatives `d 0, ..., d n` known and zero before. -/
noncomputable def textbookAb5 (h : ℝ) (d : ℕ → ℝ) (n : ℕ) : ℝ :=
  let past := fun j => if j ≤ n then d (n - j) else 0
  h / 720 * (1901 * past 0 - 2774 * past 1 + 2616 * past 2 - 1274 * past 3 + 251 * past 4)

/-- A sequence of pushes of one particle without reflections; `f n` are the fields in push
`n`. -/
noncomputable def ab5Run (dxi : ℝ) (f : ℕ → PFields) (x : RP) : ℕ → AbPart
  | 0 => AbPart.init x
  | n + 1 => ab5Push dxi (f n) (ab5Run dxi f x n)

/-- **C62.** After any number of pushes the histories hold the derivatives of the last
slices in order, and each push is the textbook method. -/
theorem ab5_history (dxi : ℝ) (f : ℕ → PFields) (x : RP) (n : ℕ) :
    let d := fun k => derivs (f k) (ab5Run dxi f x k).x.pr
    let p := ab5Run dxi f x n
    (p.d2 = if 1 ≤ n then d (n - 1) else ⟨0, 0⟩) ∧ (p.d3 = if 2 ≤ n then d (n - 2) else ⟨0, 0⟩) ∧
    (p.d4 = if 3 ≤ n then d (n - 3) else ⟨0, 0⟩) ∧ (p.d5 = if 4 ≤ n then d (n - 4) else ⟨0, 0⟩) ∧
    (ab5Run dxi f x (n + 1)).x.r = p.x.r + textbookAb5 dxi (fun k => (d k).r) n ∧
    (ab5Run dxi f x (n + 1)).x.pr = p.x.pr + textbookAb5 dxi (fun k => (d k).pr) n := by
  intro d p
  have hist : ∀ n, ((ab5Run dxi f x n).d2 = if 1 ≤ n then d (n - 1) else ⟨0, 0⟩) ∧
      ((ab5Run dxi f x n).d3 = if 2 ≤ n then d (n - 2) else ⟨0, 0⟩) ∧
      ((ab5Run dxi f x n).d4 = if 3 ≤ n then d (n - 3) else ⟨0, 0⟩) ∧
      ((ab5Run dxi f x n).d5 = if 4 ≤ n then d (n - 4) else ⟨0, 0⟩) := by
    intro n
    induction n with
    | zero => simp [ab5Run, AbPart.init]
    | succ n ih =>
      obtain ⟨h2, h3, h4, h5⟩ := ih
      refine ⟨?_, ?_, ?_, ?_⟩
      · rw [if_pos (by omega), Nat.add_sub_cancel]; rfl
      · show (ab5Run dxi f x n).d2 = _
        rw [h2]
        by_cases h : 1 ≤ n
        · rw [if_pos h, if_pos (by omega), show n + 1 - 2 = n - 1 by omega]
        · rw [if_neg h, if_neg (by omega)]
      · show (ab5Run dxi f x n).d3 = _
        rw [h3]
        by_cases h : 2 ≤ n
        · rw [if_pos h, if_pos (by omega), show n + 1 - 3 = n - 2 by omega]
        · rw [if_neg h, if_neg (by omega)]
      · show (ab5Run dxi f x n).d4 = _
        rw [h4]
        by_cases h : 3 ≤ n
        · rw [if_pos h, if_pos (by omega), show n + 1 - 4 = n - 3 by omega]
        · rw [if_neg h, if_neg (by omega)]
  obtain ⟨h2, h3, h4, h5⟩ := hist n
  have ite_r : ∀ (c : Prop) [Decidable c] (a : RP), (if c then a else ⟨0, 0⟩ : RP).r =
      if c then a.r else 0 := by intro c _ a; split_ifs <;> rfl
  have ite_pr : ∀ (c : Prop) [Decidable c] (a : RP), (if c then a else ⟨0, 0⟩ : RP).pr =
      if c then a.pr else 0 := by intro c _ a; split_ifs <;> rfl
  refine ⟨h2, h3, h4, h5, ?_, ?_⟩
  · show applyAb5 p.x.r dxi (d n).r p.d2.r p.d3.r p.d4.r p.d5.r = _
    rw [show p.d2 = _ from h2, show p.d3 = _ from h3, show p.d4 = _ from h4,
      show p.d5 = _ from h5]
    simp only [ite_r, applyAb5, textbookAb5, Nat.zero_le, if_true, Nat.sub_zero]
    ring
  · show applyAb5 p.x.pr dxi (d n).pr p.d2.pr p.d3.pr p.d4.pr p.d5.pr = _
    rw [show p.d2 = _ from h2, show p.d3 = _ from h3, show p.d4 = _ from h4,
      show p.d5 = _ from h5]
    simp only [ite_pr, applyAb5, textbookAb5, Nat.zero_le, if_true, Nat.sub_zero]
    ring

/-- **C62 combined.** A particle whose true radius is a polynomial of degree at most five
in the slice coordinate, with the fields that produce it, is on its true trajectory after
each push from the fifth on, provided it is before. -/
theorem ab5_follows (dxi : ℝ) (f : ℕ → PFields) (x : RP) (P : Polynomial ℝ)
    (hP : P.natDegree ≤ 5) (n : ℕ) (hn : 4 ≤ n)
    (hd : ∀ k ≤ n, (derivs (f k) (ab5Run dxi f x k).x.pr).r = P.derivative.eval ((k : ℝ) * dxi))
    (hx : (ab5Run dxi f x n).x.r = P.eval ((n : ℝ) * dxi)) :
    (ab5Run dxi f x (n + 1)).x.r = P.eval (((n + 1 : ℕ) : ℝ) * dxi) := by
  obtain ⟨_, _, _, _, h, _⟩ := ab5_history dxi f x n
  rw [h, hx]
  unfold textbookAb5
  simp only []
  rw [if_pos (by omega), if_pos (by omega), if_pos (by omega), if_pos (by omega),
    if_pos hn, hd _ (by omega), hd _ (by omega), hd _ (by omega), hd _ (by omega), hd _ (by omega)]
  have e := ab5_exact P hP ((n : ℝ) * dxi) dxi
  unfold applyAb5 at e
  have c1 : (((n - 1 : ℕ) : ℝ)) * dxi = n * dxi - dxi := by
    rw [Nat.cast_sub (by omega)]; push_cast; ring
  have c2 : (((n - 2 : ℕ) : ℝ)) * dxi = n * dxi - 2 * dxi := by
    rw [Nat.cast_sub (by omega)]; push_cast; ring
  have c3 : (((n - 3 : ℕ) : ℝ)) * dxi = n * dxi - 3 * dxi := by
    rw [Nat.cast_sub (by omega)]; push_cast; ring
  have c4 : (((n - 4 : ℕ) : ℝ)) * dxi = n * dxi - 4 * dxi := by
    rw [Nat.cast_sub (by omega)]; push_cast; ring
  rw [Nat.sub_zero, c1, c2, c3, c4]
  have c5 : ((n + 1 : ℕ) : ℝ) * dxi = n * dxi + dxi := by push_cast; ring
  rw [c5, ← e]; ring

/-- Free motion along `1 + t + t²` (degree two): fields that give the right derivative. -/
example : (Polynomial.C (1 : ℝ) + Polynomial.X + Polynomial.X ^ 2).natDegree ≤ 5 := by
  have h : (Polynomial.C (1 : ℝ) + Polynomial.X + Polynomial.X ^ 2).natDegree = 2 := by
    have e : (Polynomial.C (1 : ℝ) + Polynomial.X + Polynomial.X ^ 2) =
      Polynomial.C 1 * Polynomial.X ^ 2 + Polynomial.C 1 * Polynomial.X + Polynomial.C 1 := by
      simp only [map_one, one_mul]; ring
    rw [e]; exact Polynomial.natDegree_quadratic one_ne_zero
  omega

/-! ### C63 -/

/-- Specification: sign `s` (`1` or `-1`) applied to position and momentum. -/
noncomputable def RP.sgn (s : ℝ) (x : RP) : RP := ⟨s * x.r, s * x.pr⟩

/-- Specification: sign applied to a particle and its history. -/
noncomputable def AbPart.sgn (s : ℝ) (p : AbPart) : AbPart :=
  ⟨p.x.sgn s, p.d2.sgn s, p.d3.sgn s, p.d4.sgn s, p.d5.sgn s⟩

/-- Specification: the fields on the other side of the axis: scalars are even, radial and
azimuthal components odd. -/
noncomputable def PFields.sgn (s : ℝ) (f : PFields) : PFields :=
  ⟨f.gamma, f.psi, s * f.drPsi, s * f.bT, s * f.bT0, s * f.nablaA2⟩

/-- Specification: a field computation that knows particles only as rings, on both sides of
the axis: mirroring some of the particles mirrors their fields and changes nothing for the
others. -/
def Symmetric (fields : (ℕ → RP) → ℕ → PFields) : Prop :=
  ∀ (s : ℕ → ℝ), (∀ i, s i = 1 ∨ s i = -1) → ∀ x i,
    fields (fun j => (x j).sgn (s j)) i = (fields x i).sgn (s i)

/-- Specification: the Adams-Bashforth step through the axis (no reflection). -/
noncomputable def throughAb5 (dxi : ℝ) (fields : (ℕ → RP) → ℕ → PFields) (ps : ℕ → AbPart) :
    ℕ → AbPart := fun i => ab5Push dxi (fields (fun j => (ps j).x) i) (ps i)

theorem RP.neg_eq (x : RP) : x.neg = x.sgn (-1) := by
  unfold RP.neg RP.sgn; ext <;> simp

theorem RP.sgn_sgn (s t : ℝ) (x : RP) : (x.sgn s).sgn t = x.sgn (t * s) := by
  unfold RP.sgn; ext <;> simp only [] <;> ring

theorem AbPart.neg_eq (p : AbPart) : p.neg = p.sgn (-1) := by
  unfold AbPart.neg AbPart.sgn; simp only [RP.neg_eq]

theorem AbPart.sgn_sgn (s t : ℝ) (p : AbPart) : (p.sgn s).sgn t = p.sgn (t * s) := by
  unfold AbPart.sgn; simp only [RP.sgn_sgn]

theorem RP.sgn_one (x : RP) : x.sgn 1 = x := by unfold RP.sgn; ext <;> simp

theorem AbPart.sgn_one (p : AbPart) : p.sgn 1 = p := by
  unfold AbPart.sgn; simp only [RP.sgn_one]

theorem derivs_sgn (s : ℝ) (f : PFields) (pr : ℝ) :
    derivs (f.sgn s) (s * pr) = (derivs f pr).sgn s := by
  unfold derivs PFields.sgn RP.sgn
  ext <;> simp only [] <;> ring

theorem ab5Push_sgn (dxi s : ℝ) (f : PFields) (p : AbPart) :
    ab5Push dxi (f.sgn s) (p.sgn s) = (ab5Push dxi f p).sgn s := by
  have hd : derivs (f.sgn s) (p.sgn s).x.pr = (derivs f p.x.pr).sgn s := derivs_sgn s f p.x.pr
  unfold ab5Push
  simp only [hd]
  unfold AbPart.sgn RP.sgn applyAb5
  ext <;> simp only [] <;> ring

/-- **C63** (AB5), one step: the code, started from a mirror image of the state, reaches a
mirror image of the state that the particles reach through the axis, at non-negative
radius. -/
theorem ab5_mirror (dxi : ℝ) (fields : (ℕ → RP) → ℕ → PFields) (hf : Symmetric fields)
    (s : ℕ → ℝ) (hs : ∀ i, s i = 1 ∨ s i = -1) (ps : ℕ → AbPart) :
    ∃ t : ℕ → ℝ, (∀ i, t i = 1 ∨ t i = -1) ∧
      ∀ i, evolveAb5 dxi fields (fun j => (ps j).sgn (s j)) i =
        (throughAb5 dxi fields ps i).sgn (t i) ∧
      0 ≤ (evolveAb5 dxi fields (fun j => (ps j).sgn (s j)) i).x.r := by
  have key : ∀ i, ab5Push dxi (fields (fun j => ((ps j).sgn (s j)).x) i) ((ps i).sgn (s i)) =
      (throughAb5 dxi fields ps i).sgn (s i) := by
    intro i
    have := hf s hs (fun j => (ps j).x) i
    show ab5Push dxi (fields (fun j => ((ps j).x).sgn (s j)) i) ((ps i).sgn (s i)) = _
    rw [this, ab5Push_sgn]; rfl
  refine ⟨fun i => if ((throughAb5 dxi fields ps i).sgn (s i)).x.r < 0 then -1 * s i else s i,
    ?_, ?_⟩
  · intro i
    by_cases h : ((throughAb5 dxi fields ps i).sgn (s i)).x.r < 0
    · simp only [if_pos h]
      rcases hs i with h' | h' <;> rw [h'] <;> norm_num
    · simp only [if_neg h]; exact hs i
  · intro i
    unfold evolveAb5
    simp only [key]
    by_cases h : ((throughAb5 dxi fields ps i).sgn (s i)).x.r < 0
    · rw [if_pos h, if_pos h, AbPart.neg_eq, AbPart.sgn_sgn]
      refine ⟨rfl, ?_⟩
      rw [← AbPart.sgn_sgn]
      show 0 ≤ -1 * ((throughAb5 dxi fields ps i).sgn (s i)).x.r
      linarith
    · rw [if_neg h, if_neg h]
      exact ⟨rfl, not_lt.mp h⟩

/-- **C63** (AB5), any number of steps: the radius of each particle is the distance from the
axis of its trajectory through the axis, and so is the history up to the same sign.  The
field computation may differ from step to step. -/
theorem ab5_mirror_run (dxi : ℝ) (fields : ℕ → (ℕ → RP) → ℕ → PFields)
    (hf : ∀ n, Symmetric (fields n)) (ps : ℕ → AbPart) (hps : ∀ i, 0 ≤ (ps i).x.r) (n : ℕ) :
    ∃ t : ℕ → ℝ, (∀ i, t i = 1 ∨ t i = -1) ∧
      ∀ i, (Nat.rec ps (fun k q => evolveAb5 dxi (fields k) q) n : ℕ → AbPart) i =
        ((Nat.rec ps (fun k q => throughAb5 dxi (fields k) q) n : ℕ → AbPart) i).sgn (t i) ∧
      ((Nat.rec ps (fun k q => evolveAb5 dxi (fields k) q) n : ℕ → AbPart) i).x.r =
        |((Nat.rec ps (fun k q => throughAb5 dxi (fields k) q) n : ℕ → AbPart) i).x.r| := by
  induction n with
  | zero =>
    exact ⟨fun _ => 1, fun _ => Or.inl rfl, fun i => ⟨(AbPart.sgn_one _).symm,
      (abs_of_nonneg (hps i)).symm⟩⟩
  | succ n ih =>
    obtain ⟨s, hs, h⟩ := ih
    have hfun : (Nat.rec ps (fun k q => evolveAb5 dxi (fields k) q) n : ℕ → AbPart) =
        fun i => ((Nat.rec ps (fun k q => throughAb5 dxi (fields k) q) n : ℕ → AbPart) i).sgn
          (s i) := funext fun i => (h i).1
    obtain ⟨t, ht, h'⟩ := ab5_mirror dxi (fields n) (hf n) s hs
      (Nat.rec ps (fun k q => throughAb5 dxi (fields k) q) n)
    refine ⟨t, ht, fun i => ?_⟩
    show evolveAb5 dxi (fields n) _ i = _ ∧ _
    rw [show evolveAb5 dxi (fields n)
        (Nat.rec ps (fun k q => evolveAb5 dxi (fields k) q) n) i = evolveAb5 dxi (fields n)
        (fun i => ((Nat.rec ps (fun k q => throughAb5 dxi (fields k) q) n : ℕ → AbPart) i).sgn
          (s i)) i by rw [hfun]]
    refine ⟨(h' i).1, ?_⟩
    show (evolveAb5 dxi (fields n)
        (Nat.rec ps (fun k q => evolveAb5 dxi (fields k) q) n) i).x.r = _
    rw [hfun]
    have hnn := (h' i).2
    rw [(h' i).1] at hnn ⊢
    have e : ∀ (q : AbPart) (c : ℝ), (q.sgn c).x.r = c * q.x.r := fun q c => rfl
    rw [e] at hnn ⊢
    show t i * (throughAb5 dxi (fields n) _ i).x.r = |(throughAb5 dxi (fields n) _ i).x.r|
    rcases ht i with h1 | h1
    · rw [h1, one_mul] at hnn ⊢; exact (abs_of_nonneg hnn).symm
    · rw [h1] at hnn ⊢
      rw [abs_of_nonpos (by linarith)]; ring

/-- Specification: derivatives of all particles, on both sides of the axis. -/
noncomputable def slope (fields : (ℕ → RP) → ℕ → PFields) (x : ℕ → RP) (i : ℕ) : RP :=
  derivs (fields x i) (x i).pr

/-- Specification: `x + c d`. -/
noncomputable def RP.plus (x : RP) (c : ℝ) (d : RP) : RP := ⟨x.r + c * d.r, x.pr + c * d.pr⟩

/-- Specification: the classical Runge-Kutta step through the axis for given derivatives `k1`
at the current slice. -/
noncomputable def throughRk4 (dxi : ℝ) (k1 : ℕ → RP) (half full : (ℕ → RP) → ℕ → PFields)
    (x : ℕ → RP) (i : ℕ) : RP :=
  let k2 := slope half fun j => (x j).plus (dxi / 2) (k1 j)
  let k3 := slope half fun j => (x j).plus (dxi / 2) (k2 j)
  let k4 := slope full fun j => (x j).plus dxi (k3 j)
  ⟨(x i).r + dxi / 6 * ((k1 i).r + 2 * (k2 i).r + 2 * (k3 i).r + (k4 i).r),
   (x i).pr + dxi / 6 * ((k1 i).pr + 2 * (k2 i).pr + 2 * (k3 i).pr + (k4 i).pr)⟩

/-- The reflections inside the substeps have no effect. -/
theorem substep_eq (fields : (ℕ → RP) → ℕ → PFields) (hf : Symmetric fields) (x : ℕ → RP) :
    substep fields x = slope fields x := by
  classical
  funext i
  set s : ℕ → ℝ := fun j => if (x j).r < 0 then -1 else 1 with hs
  have hsv : ∀ j, s j = 1 ∨ s j = -1 := by
    intro j; simp only [hs]; by_cases h : (x j).r < 0
    · rw [if_pos h]; right; rfl
    · rw [if_neg h]; left; rfl
  have hy : (fun j => if (x j).r < 0 then (x j).neg else x j) = fun j => (x j).sgn (s j) := by
    funext j
    simp only [hs]
    by_cases h : (x j).r < 0
    · rw [if_pos h, if_pos h, RP.neg_eq]
    · rw [if_neg h, if_neg h, RP.sgn_one]
  unfold substep slope
  rw [hy]
  show (if (x i).r < 0 then (derivs (fields (fun j => (x j).sgn (s j)) i)
    ((x i).sgn (s i)).pr).neg else derivs (fields (fun j => (x j).sgn (s j)) i)
    ((x i).sgn (s i)).pr) = _
  rw [hf s hsv x i]
  have hd : derivs ((fields x i).sgn (s i)) ((x i).sgn (s i)).pr =
      (derivs (fields x i) (x i).pr).sgn (s i) := derivs_sgn (s i) _ _
  rw [hd]
  by_cases h : (x i).r < 0
  · have h1 : s i = -1 := if_pos h
    rw [if_pos h, h1, RP.neg_eq, RP.sgn_sgn]
    norm_num [RP.sgn_one]
  · have h1 : s i = 1 := if_neg h
    rw [if_neg h, h1, RP.sgn_one]

/-- **C63** (RK4): the code performs the classical Runge-Kutta step through the axis and then
reflects; the result has non-negative radius. -/
theorem rk4_reflects (dxi : ℝ) (f1 : ℕ → PFields) (half full : (ℕ → RP) → ℕ → PFields)
    (hh : Symmetric half) (hfl : Symmetric full) (x : ℕ → RP) (i : ℕ) :
    let y := throughRk4 dxi (fun i => derivs (f1 i) (x i).pr) half full x i
    (evolveRk4 dxi f1 half full x i = if y.r < 0 then y.sgn (-1) else y) ∧
      (evolveRk4 dxi f1 half full x i).r = |y.r| := by
  intro y
  have m1 : ∀ (a d : RP), a.moved dxi d (1 / 2) = a.plus (dxi / 2) d := by
    intro a d; unfold RP.moved RP.plus; ext <;> simp only [] <;> ring
  have m2 : ∀ (a d : RP), a.moved dxi d 1 = a.plus dxi d := by
    intro a d; unfold RP.moved RP.plus; ext <;> simp only [] <;> ring
  have hy : (⟨applyRk4 (x i).r dxi (derivs (f1 i) (x i).pr).r
      (substep half (fun i => (x i).moved dxi (derivs (f1 i) (x i).pr) (1 / 2)) i).r
      (substep half (fun i => (x i).moved dxi (substep half
        (fun i => (x i).moved dxi (derivs (f1 i) (x i).pr) (1 / 2)) i) (1 / 2)) i).r
      (substep full (fun i => (x i).moved dxi (substep half (fun i => (x i).moved dxi (substep half
        (fun i => (x i).moved dxi (derivs (f1 i) (x i).pr) (1 / 2)) i) (1 / 2)) i) 1) i).r,
      applyRk4 (x i).pr dxi (derivs (f1 i) (x i).pr).pr
      (substep half (fun i => (x i).moved dxi (derivs (f1 i) (x i).pr) (1 / 2)) i).pr
      (substep half (fun i => (x i).moved dxi (substep half
        (fun i => (x i).moved dxi (derivs (f1 i) (x i).pr) (1 / 2)) i) (1 / 2)) i).pr
      (substep full (fun i => (x i).moved dxi (substep half (fun i => (x i).moved dxi (substep half
        (fun i => (x i).moved dxi (derivs (f1 i) (x i).pr) (1 / 2)) i) (1 / 2)) i) 1) i).pr⟩ :
      RP) = y := by
    simp only [m1, m2, substep_eq half hh, substep_eq full hfl]
    unfold applyRk4
    ext <;> simp only [y, throughRk4] <;> ring
  have hev : evolveRk4 dxi f1 half full x i = if y.r < 0 then y.sgn (-1) else y := by
    refine (congrArg (fun z : RP => if z.r < 0 then z.neg else z) hy).trans ?_
    simp only [RP.neg_eq]
  refine ⟨hev, ?_⟩
  rw [hev]
  by_cases h : y.r < 0
  · rw [if_pos h, abs_of_neg h]; show -1 * y.r = _; ring
  · rw [if_neg h, abs_of_nonneg (not_lt.mp h)]

/-- **C63** (RK4): starting from a mirror image, the code reaches a mirror image. -/
theorem rk4_mirror (dxi : ℝ) (f1 half full : (ℕ → RP) → ℕ → PFields) (h1 : Symmetric f1)
    (hh : Symmetric half) (hfl : Symmetric full) (s : ℕ → ℝ) (hs : ∀ i, s i = 1 ∨ s i = -1)
    (x : ℕ → RP) :
    ∃ t : ℕ → ℝ, (∀ i, t i = 1 ∨ t i = -1) ∧ ∀ i,
      evolveRk4 dxi (f1 fun j => (x j).sgn (s j)) half full (fun j => (x j).sgn (s j)) i =
        (throughRk4 dxi (slope f1 x) half full x i).sgn (t i) ∧
      0 ≤ (evolveRk4 dxi (f1 fun j => (x j).sgn (s j)) half full
        (fun j => (x j).sgn (s j)) i).r := by
  have hsl : ∀ (F : (ℕ → RP) → ℕ → PFields), Symmetric F → ∀ z : ℕ → RP,
      slope F (fun j => (z j).sgn (s j)) = fun i => (slope F z i).sgn (s i) := by
    intro F hF z
    funext i
    unfold slope
    rw [hF s hs z i]; exact derivs_sgn (s i) _ _
  have hpl : ∀ (c : ℝ) (z d : ℕ → RP), (fun j => ((z j).sgn (s j)).plus c ((d j).sgn (s j))) =
      fun j => ((z j).plus c (d j)).sgn (s j) := by
    intro c z d; funext j
    unfold RP.plus RP.sgn; ext <;> simp only [] <;> ring
  have hk1 : (fun i => derivs (f1 (fun j => (x j).sgn (s j)) i) ((x i).sgn (s i)).pr) =
      fun i => (slope f1 x i).sgn (s i) := hsl f1 h1 x
  have hthr : ∀ i, throughRk4 dxi (fun i => derivs (f1 (fun j => (x j).sgn (s j)) i)
      ((x i).sgn (s i)).pr) half full (fun j => (x j).sgn (s j)) i =
      (throughRk4 dxi (slope f1 x) half full x i).sgn (s i) := by
    intro i
    rw [hk1]
    unfold throughRk4
    simp only [hpl, hsl half hh, hsl full hfl]
    unfold RP.sgn; ext <;> simp only [] <;> ring
  refine ⟨fun i => if ((throughRk4 dxi (slope f1 x) half full x i).sgn (s i)).r < 0 then -1 * s i
    else s i, ?_, ?_⟩
  · intro i
    by_cases h : ((throughRk4 dxi (slope f1 x) half full x i).sgn (s i)).r < 0
    · simp only [if_pos h]
      rcases hs i with h' | h' <;> rw [h'] <;> norm_num
    · simp only [if_neg h]; exact hs i
  · intro i
    obtain ⟨e1, e2⟩ := rk4_reflects dxi (f1 fun j => (x j).sgn (s j)) half full hh hfl
      (fun j => (x j).sgn (s j)) i
    constructor
    · rw [e1]
      simp only [hthr]
      by_cases h : ((throughRk4 dxi (slope f1 x) half full x i).sgn (s i)).r < 0
      · rw [if_pos h, if_pos h, RP.sgn_sgn]
      · rw [if_neg h, if_neg h]
    · rw [e2]; exact abs_nonneg _

/-- A symmetric field computation that is not trivial: a linear focusing force, proportional
to the number of rings, with a potential that depends on the radii of two rings. -/
example : Symmetric (fun x i => ⟨2, (x 0).r ^ 2 + (x 1).r ^ 2, (x i).r, -(x i).r, 0, (x i).r⟩) := by
  intro s hs x i
  have h : ∀ j, (s j) ^ 2 = 1 := by intro j; rcases hs j with h | h <;> rw [h] <;> norm_num
  unfold PFields.sgn RP.sgn
  ext <;> simp only [mul_pow, h, one_mul] <;> ring

end WakeT.Plasma
