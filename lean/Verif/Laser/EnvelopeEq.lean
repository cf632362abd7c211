import Verif.Laser.EnvelopeProps
import Mathlib.Analysis.SpecialFunctions.Complex.Log
import Mathlib.Analysis.SpecialFunctions.ExpDeriv
import Mathlib.Analysis.Calculus.Deriv.Mul
import Mathlib.Analysis.Calculus.Deriv.Pow

/-! # The discretised envelope equation (C87) -/

set_option linter.unusedSectionVars false

namespace WakeT.Laser

open Complex (I)

/-! ### Specification: difference operators -/

/-- The radial part of the Laplacian by central differences at the points
`r_k = (k + 1/2) dr`; the field is zero from `nr` on. -/
noncomputable def lapl (nr : ℕ) (dr : ℝ) (f : RowC) (k : ℕ) : ℂ :=
  let up : ℂ := if k + 1 < nr then f (k + 1) else 0
  let down : ℂ := if 0 < k then f (k - 1) else 0
  (up - 2 * f k + down) / dr ^ 2 + 1 / ((k + 1 / 2 : ℝ) * dr : ℝ) * ((up - down) / (2 * dr))

/-- The longitudinal derivative by a one-sided difference of second order, applied after
the phase advances `th.1` and `th.2` between the points have been taken out. -/
noncomputable def diffZ (dz : ℝ) (th : ℝ × ℝ) (u0 u1 u2 : ℂ) : ℂ :=
  (-3 / 2 * u0 + 2 * (Complex.exp (-I * th.1) * u1) - 1 / 2 * (Complex.exp (-I * (th.1 + th.2)) * u2)) / dz +
    I * ((3 / 2 * th.1 - 1 / 2 * th.2) / dz) * u0

/-- The operator is exact for fields with a phase linear in `z` and an amplitude of degree two at most. -/
theorem diffZ_exact (dz κ z0 : ℝ) (hdz : dz ≠ 0) (A B C : ℂ) (u : ℝ → ℂ)
    (hu : u = fun z : ℝ => Complex.exp (I * κ * z) * (A + B * z + C * (z : ℂ) ^ 2)) :
    HasDerivAt u (diffZ dz (κ * dz, κ * dz) (u z0) (u (z0 + dz)) (u (z0 + 2 * dz))) z0 := by
  have hz : HasDerivAt (fun z : ℝ => (z : ℂ)) 1 z0 := Complex.ofRealCLM.hasDerivAt
  have h1 : HasDerivAt (fun z : ℝ => Complex.exp (I * κ * z)) (Complex.exp (I * κ * z0) * (I * κ * 1)) z0 :=
    (hz.const_mul (I * κ)).cexp
  have h2 : HasDerivAt (fun z : ℝ => A + B * (z : ℂ) + C * (z : ℂ) ^ 2) (B * 1 + C * (2 * (z0 : ℂ) ^ 1 * 1)) z0 := by
    have h3 := ((hz.const_mul B).const_add A).add ((hz.pow 2).const_mul C)
    refine h3.congr_deriv ?_
    norm_num
  subst hu
  refine (h1.mul h2).congr_deriv ?_
  have hc : (dz : ℂ) ≠ 0 := by exact_mod_cast hdz
  unfold diffZ
  have e1 : Complex.exp (-I * ((κ * dz : ℝ) : ℂ)) * (Complex.exp (I * κ * ((z0 + dz : ℝ) : ℂ)) *
      (A + B * ((z0 + dz : ℝ) : ℂ) + C * ((z0 + dz : ℝ) : ℂ) ^ 2)) =
      Complex.exp (I * κ * z0) * (A + B * (z0 + dz) + C * (z0 + dz) ^ 2) := by
    rw [← mul_assoc, ← Complex.exp_add]
    push_cast
    congr 2
    ring
  have e2 : Complex.exp (-I * (((κ * dz : ℝ) : ℂ) + ((κ * dz : ℝ) : ℂ))) * (Complex.exp (I * κ * ((z0 + 2 * dz : ℝ) : ℂ)) *
      (A + B * ((z0 + 2 * dz : ℝ) : ℂ) + C * ((z0 + 2 * dz : ℝ) : ℂ) ^ 2)) =
      Complex.exp (I * κ * z0) * (A + B * (z0 + 2 * dz) + C * (z0 + 2 * dz) ^ 2) := by
    rw [← mul_assoc, ← Complex.exp_add]
    push_cast
    congr 2
    ring
  dsimp only
  rw [e1, e2]
  push_cast
  field_simp
  ring

/-- The difference Laplacian is exact for `A + B r²` away from the outer boundary. -/
theorem lapl_exact (nr : ℕ) (dr : ℝ) (hdr : dr ≠ 0) (A B : ℂ) (k : ℕ) (hk : k + 1 < nr) :
    lapl nr dr (fun k => A + B * (((k : ℝ) + 1 / 2) * dr : ℝ) ^ 2) k = 4 * B := by
  have hc : (dr : ℂ) ≠ 0 := by exact_mod_cast hdr
  have hk' : (2 * (k : ℂ) + 1) ≠ 0 := by exact_mod_cast (by omega : 2 * k + 1 ≠ 0)
  unfold lapl
  dsimp only
  rw [if_pos hk]
  rcases k with _ | k
  · rw [if_neg (by omega)]
    push_cast
    field_simp
    ring
  · rw [if_pos (by omega), Nat.add_sub_cancel]
    push_cast at hk' ⊢
    obtain ⟨q, hq⟩ : ∃ q : ℂ, q = 2 * ((k : ℂ) + 1) + 1 := ⟨_, rfl⟩
    have e : (k : ℂ) = (q - 3) / 2 := by rw [hq]; ring
    rw [← hq] at hk'
    rw [e, show (q - 3) / 2 + 1 + 1 / 2 = q / 2 by ring]
    field_simp
    ring

/-! ### The schemes -/

theorem lapl_eq (p : EnvParams) (hdr : p.dr ≠ 0) (f : RowC) (k : ℕ) :
    lapl p.nr p.dr f k = 2 * ((if 0 < k then p.lMinus k * f (k - 1) else 0) - p.invDr ^ 2 * f k +
      (if k + 1 < p.nr then p.lPlus k * f (k + 1) else 0)) := by
  have hc : (p.dr : ℂ) ≠ 0 := by exact_mod_cast hdr
  have hk' : (2 * (k : ℂ) + 1) ≠ 0 := by exact_mod_cast (by omega : 2 * k + 1 ≠ 0)
  have e : ((k : ℂ) + 1 / 2) = (2 * (k : ℂ) + 1) / 2 := by ring
  have e' : ((k : ℂ) + 0.5) = (2 * (k : ℂ) + 1) / 2 := by norm_num; ring
  have hm : ((p.lMinus k : ℝ) : ℂ) = (1 - 1 / (2 * k + 1)) / p.dr ^ 2 / 2 := by
    unfold EnvParams.lMinus EnvParams.invDr
    push_cast
    rw [e']
    field_simp
    norm_num
    try ring
  have hp : ((p.lPlus k : ℝ) : ℂ) = (1 + 1 / (2 * k + 1)) / p.dr ^ 2 / 2 := by
    unfold EnvParams.lPlus EnvParams.invDr
    push_cast
    rw [e']
    field_simp
    norm_num
    try ring
  unfold lapl
  dsimp only
  rw [hm, hp]
  unfold EnvParams.invDr
  push_cast
  rw [e]
  have h0 : ¬ 0 < k → (k : ℂ) = 0 := fun h => by simp [Nat.eq_zero_of_not_pos h]
  split_ifs with h1 h2 h2
  all_goals (try rw [h0 h2])
  all_goals (try norm_num)
  all_goals field_simp
  all_goals ring

/-- The result of the centred solver satisfies the envelope equation, discretised with
central differences in time, at all points but the outermost (whose equation the
tridiagonal solver gets wrong, see C48). -/
theorem centered_equation_partial {p : EnvParams} (hp : p.Ok) {chi : ℕ → ℕ → ℝ} (hchi : ∀ j k, 0 ≤ chi j k)
    {a aOld new : GridC} {ph : ℕ → ℝ} (h : NewLevel (p.row true chi ph) p.nz a aOld new) {j k : ℕ} (hj : j < p.nz)
    (hk : k + 1 < p.nr) :
    let u := fun i => (new i k - aOld i k) / (2 * p.dtn : ℂ)
    lapl p.nr p.dr (fun k => (new j k + aOld j k) / 2) k + 2 * I * (p.k0 / p.kp) * u j +
        2 * diffZ p.dz (p.theta ph j) (u j) (u (j + 1)) (u (j + 2)) -
        (new j k - 2 * a j k + aOld j k) / (p.dtn : ℂ) ^ 2 =
      chi j k * ((new j k + aOld j k) / 2) := by
  intro u
  obtain ⟨hz, hr, ht⟩ := hp.pos
  have hzc : (p.dz : ℂ) ≠ 0 := by exact_mod_cast hz.ne'
  have htc : (p.dtn : ℂ) ≠ 0 := by exact_mod_cast ht.ne'
  have hrow := tdma_partial (p.rhs chi (p.theta ph j) a aOld (new (j + 1)) (new (j + 2)) j)
    (envelope_pivots hp hchi (p.theta ph j) j).1 hk
  have hnew := h.inside j hj
  unfold EnvParams.row at hnew
  dsimp only at hnew
  rw [if_pos rfl] at hnew
  rw [← hnew] at hrow
  rw [lapl_eq p hr.ne']
  unfold Row at hrow
  have hne : ¬ k + 1 = p.nr := by omega
  rw [if_neg hne] at hrow
  unfold EnvParams.rhs EnvParams.dMain EnvParams.dUpper EnvParams.dLower EnvParams.cPlus EnvParams.cMinus EnvParams.bigD
    EnvParams.invDzdt EnvParams.invDt EnvParams.invDz at hrow
  rw [if_pos hk] at hrow ⊢
  unfold diffZ
  simp only [u]
  generalize p.theta ph j = th at *
  rw [add_comm ((th.1 : ℂ)) (th.2 : ℂ)]
  generalize Complex.exp (-I * (th.2 + th.1)) = E2 at *
  generalize Complex.exp (-I * th.1) = E1 at *
  push_cast at hrow
  have n1 : (1.5 : ℂ) = 3 / 2 := by norm_num
  have n2 : (0.5 : ℂ) = 1 / 2 := by norm_num
  rw [n1, n2] at hrow
  rcases k with _ | k
  · rw [if_pos rfl, if_neg (by omega)] at hrow
    rw [if_neg (by omega)]
    field_simp at hrow ⊢
    linear_combination hrow
  · rw [if_neg (by omega), if_pos (by omega), Nat.add_sub_cancel] at hrow
    rw [if_pos (by omega), Nat.add_sub_cancel]
    field_simp at hrow ⊢
    linear_combination hrow

/-- The same for the first step: the result of the other solver satisfies the envelope
equation without the second derivative in time, discretised between two levels. -/
theorem nonCentered_equation_partial {p : EnvParams} (hp : p.Ok) {chi : ℕ → ℕ → ℝ} (hchi : ∀ j k, 0 ≤ chi j k)
    {a aOld new : GridC} {ph : ℕ → ℝ} (h : NewLevel (p.row false chi ph) p.nz a aOld new) {j k : ℕ} (hj : j < p.nz)
    (hk : k + 1 < p.nr) :
    let u := fun i => (new i k - a i k) / (p.dtn : ℂ)
    lapl p.nr p.dr (fun k => (new j k + a j k) / 2) k + 2 * I * (p.k0 / p.kp) * u j +
        2 * diffZ p.dz (p.theta ph j) (u j) (u (j + 1)) (u (j + 2)) =
      chi j k * ((new j k + a j k) / 2) := by
  intro u
  obtain ⟨hz, hr, ht⟩ := hp.pos
  have hzc : (p.dz : ℂ) ≠ 0 := by exact_mod_cast hz.ne'
  have htc : (p.dtn : ℂ) ≠ 0 := by exact_mod_cast ht.ne'
  have hrow := tdma_partial (p.rhsN chi (p.theta ph j) a (new (j + 1)) (new (j + 2)) j)
    (envelope_pivots hp hchi (p.theta ph j) j).2 hk
  have hnew := h.inside j hj
  unfold EnvParams.row at hnew
  dsimp only at hnew
  rw [if_neg (by decide)] at hnew
  rw [← hnew] at hrow
  rw [lapl_eq p hr.ne']
  unfold Row at hrow
  have hne : ¬ k + 1 = p.nr := by omega
  rw [if_neg hne] at hrow
  unfold EnvParams.rhsN EnvParams.dMainN EnvParams.dUpper EnvParams.dLower EnvParams.cPlusN EnvParams.cMinusN
    EnvParams.bigD EnvParams.invDzdt EnvParams.invDt EnvParams.invDz at hrow
  rw [if_pos hk] at hrow ⊢
  unfold diffZ
  simp only [u]
  generalize p.theta ph j = th at *
  rw [add_comm ((th.1 : ℂ)) (th.2 : ℂ)]
  generalize Complex.exp (-I * (th.2 + th.1)) = E2 at *
  generalize Complex.exp (-I * th.1) = E1 at *
  push_cast at hrow
  have n1 : (1.5 : ℂ) = 3 / 2 := by norm_num
  have n2 : (0.5 : ℂ) = 1 / 2 := by norm_num
  rw [n1, n2] at hrow
  rcases k with _ | k
  · rw [if_pos rfl, if_neg (by omega)] at hrow
    rw [if_neg (by omega)]
    field_simp at hrow ⊢
    linear_combination hrow
  · rw [if_neg (by omega), if_pos (by omega), Nat.add_sub_cancel] at hrow
    rw [if_pos (by omega), Nat.add_sub_cancel]
    field_simp at hrow ⊢
    linear_combination hrow

/-! ### The phase taken out, and the solvers as a whole -/

/-- `th` is the pair of phase advances of the field on axis from point `j` to `j + 1` and
from `j + 1` to `j + 2`, by half a turn at most; nothing if phases are not used. -/
def Advance (use : Bool) (a : GridC) (j : ℕ) (th : ℝ × ℝ) : Prop :=
  if use then
    (‖a j 0‖ * a (j + 1) 0 = Complex.exp (I * th.1) * (‖a (j + 1) 0‖ * a j 0) ∧ |th.1| ≤ Real.pi) ∧
    (‖a (j + 1) 0‖ * a (j + 2) 0 = Complex.exp (I * th.2) * (‖a (j + 2) 0‖ * a (j + 1) 0) ∧ |th.2| ≤ Real.pi)
  else th = (0, 0)

theorem phases_advance (a : GridC) (j : ℕ) :
    ‖a j 0‖ * a (j + 1) 0 =
        Complex.exp (I * ((EnvParams.phases a (j + 1) - EnvParams.phases a j : ℝ) : ℂ)) * (‖a (j + 1) 0‖ * a j 0) ∧
      |EnvParams.phases a (j + 1) - EnvParams.phases a j| ≤ Real.pi := by
  obtain ⟨-, hm, hj, -⟩ := unwrap_spec (period := 2 * Real.pi) (by positivity) fun i => (a i 0).arg
  refine ⟨?_, ?_⟩
  · obtain ⟨m, h0⟩ := hm j
    obtain ⟨n, h1⟩ := hm (j + 1)
    unfold EnvParams.phases
    rw [h0, h1]
    have e0 := Complex.norm_mul_exp_arg_mul_I (a j 0)
    have e1 := Complex.norm_mul_exp_arg_mul_I (a (j + 1) 0)
    have key : Complex.exp (I * (((a (j + 1) 0).arg + n * (2 * Real.pi) - ((a j 0).arg + m * (2 * Real.pi)) : ℝ) : ℂ)) *
        Complex.exp ((a j 0).arg * I) = Complex.exp ((a (j + 1) 0).arg * I) := by
      rw [← Complex.exp_add]
      refine Complex.exp_eq_exp_iff_exists_int.mpr ⟨n - m, ?_⟩
      push_cast
      ring
    generalize Complex.exp (I * (((a (j + 1) 0).arg + n * (2 * Real.pi) - ((a j 0).arg + m * (2 * Real.pi)) : ℝ) : ℂ)) = E at *
    generalize Complex.exp ((a j 0).arg * I) = E0 at *
    generalize Complex.exp ((a (j + 1) 0).arg * I) = E1 at *
    generalize (‖a j 0‖ : ℂ) = N0 at *
    generalize (‖a (j + 1) 0‖ : ℂ) = N1 at *
    rw [← e0, ← e1, ← key]
    ring
  · have := hj j
    rw [show 2 * Real.pi / 2 = Real.pi by ring] at this
    exact this

theorem theta_advance (p : EnvParams) (a : GridC) (j : ℕ) : Advance p.usePhase a j (p.theta (EnvParams.phases a) j) := by
  unfold Advance EnvParams.theta
  split_ifs
  · exact ⟨phases_advance a j, phases_advance a (j + 1)⟩
  · rfl

/-- The whole of the centred solver: it returns the last two of a sequence of levels, each
three of which satisfy the envelope equation, with the phase advance of the field on axis
at the middle level taken out in the longitudinal difference.  (Missing: the outermost
point, see C48.) -/
theorem evolve_equation_partial {p : EnvParams} (hp : p.Ok) {chi : ℕ → ℕ → ℝ} (hchi : ∀ j k, 0 ≤ chi j k) (a aOld : GridC) :
    ∃ lev : ℕ → GridC, lev 0 = aOld ∧ lev 1 = a ∧
      (∀ i < p.nz, (p.evolve true chi (a, aOld)).1 i = lev (p.nt + 1) i ∧ (p.evolve true chi (a, aOld)).2 i = lev p.nt i) ∧
      ∀ n, (∀ i, p.nz ≤ i → lev (n + 2) i = 0) ∧ ∀ j k, j < p.nz → k + 1 < p.nr → ∃ th, Advance p.usePhase (lev (n + 1)) j th ∧
        let new := lev (n + 2)
        let old := lev n
        let u := fun i => (new i k - old i k) / (2 * p.dtn : ℂ)
        lapl p.nr p.dr (fun k => (new j k + old j k) / 2) k + 2 * I * (p.k0 / p.kp) * u j +
            2 * diffZ p.dz th (u j) (u (j + 1)) (u (j + 2)) -
            (new j k - 2 * lev (n + 1) j k + old j k) / (p.dtn : ℂ) ^ 2 =
          chi j k * ((new j k + old j k) / 2) := by
  obtain ⟨lev, h, -⟩ := levels_exist p true chi a aOld
  obtain ⟨h1, h2⟩ := evolve_two_level p true chi a aOld lev h
  refine ⟨lev, h.zero, h.one, fun i hi => ⟨h1 i (by omega), h2 i (by omega)⟩, fun n => ⟨(h.next n).outside, ?_⟩⟩
  intro j k hj hk
  exact ⟨_, theta_advance p (lev (n + 1)) j, centered_equation_partial hp hchi (h.next n) hj hk⟩

/-- The same for the first step, which does not use the level before. -/
theorem first_step_equation_partial {p : EnvParams} (hp : p.Ok) (hnt : p.nt = 1) {chi : ℕ → ℕ → ℝ}
    (hchi : ∀ j k, 0 ≤ chi j k) (a aOld : GridC) :
    ∃ new : GridC, (∀ i < p.nz, (p.evolve false chi (a, aOld)).1 i = new i ∧ (p.evolve false chi (a, aOld)).2 i = a i) ∧
      (∀ i, p.nz ≤ i → new i = 0) ∧ ∀ j k, j < p.nz → k + 1 < p.nr → ∃ th, Advance p.usePhase a j th ∧
        let u := fun i => (new i k - a i k) / (p.dtn : ℂ)
        lapl p.nr p.dr (fun k => (new j k + a j k) / 2) k + 2 * I * (p.k0 / p.kp) * u j +
            2 * diffZ p.dz th (u j) (u (j + 1)) (u (j + 2)) =
          chi j k * ((new j k + a j k) / 2) := by
  obtain ⟨lev, h, -⟩ := levels_exist p false chi a aOld
  obtain ⟨h1, h2⟩ := evolve_two_level p false chi a aOld lev h
  rw [hnt] at h1 h2
  refine ⟨lev 2, fun i hi => ⟨h1 i (by omega), by rw [h2 i (by omega), h.one]⟩, (h.next 0).outside, ?_⟩
  intro j k hj hk
  have hn := h.next 0
  rw [h.one] at hn
  exact ⟨_, theta_advance p a j, nonCentered_equation_partial hp hchi hn hj hk⟩

end WakeT.Laser
