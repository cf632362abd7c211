import Verif.Plasma.PsiProps

/-! # The derivatives of the wake potential (C59) -/

set_option linter.unusedSectionVars false

namespace WakeT.Plasma

/-- Inside of the column. -/
theorem hasDeriv_in {r : ℝ} (hr : 0 < r) (s1 s2 rMax pc : ℝ) :
    HasDerivAt (fun x => s1 * Real.log x - s2 - (1 / 4 * x ^ 2 + pc * x ^ 4 / 16))
      (s1 / r - (1 / 2 * r + 1 / 4 * pc * r ^ 3)) r := by
  have h := (((Real.hasDerivAt_log hr.ne').const_mul s1).sub_const s2).sub
    (((hasDerivAt_pow 2 r).const_mul (1 / 4)).add (((hasDerivAt_pow 4 r).const_mul pc).div_const 16))
  refine h.congr_deriv ?_
  push_cast; field_simp; ring

/-- Outside of the column. -/
theorem hasDeriv_out {r : ℝ} (hr : 0 < r) (s1 s2 rMax pc : ℝ) :
    HasDerivAt (fun x => s1 * Real.log x - s2 - (1 / 4 * rMax ^ 2 + pc * rMax ^ 4 / 16 +
      (1 / 2 * rMax ^ 2 + 1 / 4 * pc * rMax ^ 4) * (Real.log x - Real.log rMax)))
      (s1 / r - (1 / 2 * rMax ^ 2 + 1 / 4 * pc * rMax ^ 4) / r) r := by
  have hl := Real.hasDerivAt_log hr.ne'
  have h := ((hl.const_mul s1).sub_const s2).sub
    (((hl.sub_const (Real.log rMax)).const_mul
      (1 / 2 * rMax ^ 2 + 1 / 4 * pc * rMax ^ 4)).const_add (1 / 4 * rMax ^ 2 + pc * rMax ^ 4 / 16))
  refine h.congr_deriv ?_
  field_simp

/-- **C59** (radial part). `dr_psi_eq` is the derivative of `delta_psi_eq` at every
radius, inside, outside and at the edge of the column. -/
theorem drPsi_is_derivative {r rMax : ℝ} (hr : 0 < r) (hR : 0 < rMax) (s1 s2 pc : ℝ) :
    HasDerivAt (fun x => deltaPsi x s1 s2 rMax pc) (drPsi r s1 rMax pc) r := by
  rcases lt_trichotomy r rMax with h | h | h
  · have e : drPsi r s1 rMax pc = s1 / r - (1 / 2 * r + 1 / 4 * pc * r ^ 3) := by
      unfold drPsi; simp only [if_pos h.le]
    rw [e]
    refine (hasDeriv_in hr s1 s2 rMax pc).congr_of_eventuallyEq ?_
    filter_upwards [eventually_lt_nhds h] with x hx
    unfold deltaPsi; simp only [if_pos hx.le]
  · subst h
    have e : drPsi r s1 r pc = s1 / r - (1 / 2 * r + 1 / 4 * pc * r ^ 3) := by
      unfold drPsi; simp only [if_pos le_rfl]
    have e' : s1 / r - (1 / 2 * r ^ 2 + 1 / 4 * pc * r ^ 4) / r =
        s1 / r - (1 / 2 * r + 1 / 4 * pc * r ^ 3) := by field_simp
    rw [e]
    have h1 := (hasDeriv_in hr s1 s2 r pc).hasDerivWithinAt (s := Set.Iic r)
    have h2 := (hasDeriv_out hr s1 s2 r pc).hasDerivWithinAt (s := Set.Ici r)
    rw [e'] at h2
    have h1' : HasDerivWithinAt (fun x => deltaPsi x s1 s2 r pc)
        (s1 / r - (1 / 2 * r + 1 / 4 * pc * r ^ 3)) (Set.Iic r) r := by
      refine h1.congr (fun x hx => ?_) ?_
      · unfold deltaPsi; simp only [if_pos (Set.mem_Iic.mp hx)]
      · unfold deltaPsi; simp only [if_pos le_rfl]
    have h2' : HasDerivWithinAt (fun x => deltaPsi x s1 s2 r pc)
        (s1 / r - (1 / 2 * r + 1 / 4 * pc * r ^ 3)) (Set.Ici r) r := by
      have hval : deltaPsi r s1 s2 r pc = s1 * Real.log r - s2 - (1 / 4 * r ^ 2 + pc * r ^ 4 / 16 +
          (1 / 2 * r ^ 2 + 1 / 4 * pc * r ^ 4) * (Real.log r - Real.log r)) := by
        unfold deltaPsi; simp only [if_pos le_rfl]; ring
      refine h2.congr (fun x hx => ?_) hval
      by_cases hx' : x = r
      · rw [hx']; exact hval
      · have : ¬ x ≤ r := not_le.mpr (lt_of_le_of_ne (Set.mem_Ici.mp hx) (Ne.symm hx'))
        unfold deltaPsi; simp only [if_neg this]
    have := h1'.union h2'
    rw [Set.Iic_union_Ici, hasDerivWithinAt_univ] at this
    exact this
  · have e : drPsi r s1 rMax pc = s1 / r - (1 / 2 * rMax ^ 2 + 1 / 4 * pc * rMax ^ 4) / r := by
      unfold drPsi; simp only [if_neg (not_le.mpr h)]
    rw [e]
    refine (hasDeriv_out hr s1 s2 rMax pc).congr_of_eventuallyEq ?_
    filter_upwards [eventually_gt_nhds h] with x hx
    unfold deltaPsi; simp only [if_neg (not_le.mpr hx)]

/-- **C59.** The potential is continuous across the column edge (and everywhere
else off axis). -/
theorem deltaPsi_continuous {r rMax : ℝ} (hr : 0 < r) (hR : 0 < rMax) (s1 s2 pc : ℝ) :
    ContinuousAt (fun x => deltaPsi x s1 s2 rMax pc) r :=
  (drPsi_is_derivative hr hR s1 s2 pc).continuousAt

/-- Gauss's law between the particles: the flux `r dψ/dr` changes with radius by
minus the ion density `1 + pc r²` inside of the column and not at all outside. -/
theorem gauss_between {r rMax : ℝ} (hr : 0 < r) (s1 pc : ℝ) :
    (r < rMax → HasDerivAt (fun x => x * drPsi x s1 rMax pc) (-(1 + pc * r ^ 2) * r) r) ∧
    (rMax < r → HasDerivAt (fun x => x * drPsi x s1 rMax pc) 0 r) := by
  constructor
  · intro h
    have h0 : HasDerivAt (fun x : ℝ => s1 - (1 / 2 * x ^ 2 + 1 / 4 * pc * x ^ 4))
        (-(1 + pc * r ^ 2) * r) r := by
      have h := (((hasDerivAt_pow 2 r).const_mul (1 / 2)).add
        ((hasDerivAt_pow 4 r).const_mul (1 / 4 * pc))).const_sub s1
      refine h.congr_deriv ?_
      push_cast; ring
    refine h0.congr_of_eventuallyEq ?_
    filter_upwards [eventually_lt_nhds h, eventually_gt_nhds hr] with x hx hx0
    unfold drPsi; simp only [if_pos hx.le]
    field_simp
  · intro h
    refine (hasDerivAt_const r (s1 - (1 / 2 * rMax ^ 2 + 1 / 4 * pc * rMax ^ 4)))
      |>.congr_of_eventuallyEq ?_
    filter_upwards [eventually_gt_nhds h, eventually_gt_nhds hr] with x hx hx0
    unfold drPsi; simp only [if_neg (not_le.mpr hx)]
    field_simp

/-! ### Longitudinal derivative

The longitudinal coordinate of the equations is `ζ = t - z`: along it the particle
`i` moves with `dr/dζ = pr/(1 + psi)` (plasma_push/ab5.py 38, 43). -/

/-- Specification: potential at the fixed radius `x` between the sorted particles `k-1`
and `k`, if the particles are at the radii `ρ i`; zero at the outer boundary. -/
noncomputable def potentialAt (s : Slice) (x : ℝ) (k : ℕ) (ρ : ℕ → ℝ) : ℝ :=
  deltaPsi x (∑ i ∈ Finset.range k, s.q i) (∑ i ∈ Finset.range k, s.q i * Real.log (ρ i))
      s.rMax s.pc -
  deltaPsi (max (ρ (s.n - 1) + s.drP / 2) s.rMax) (∑ i ∈ Finset.range s.n, s.q i)
      (∑ i ∈ Finset.range s.n, s.q i * Real.log (ρ i)) s.rMax s.pc

/-- Specification: the particles move away from `s.r` with the velocities of the
equations of motion. -/
structure Moves (s : Slice) (ρ : ℝ → ℕ → ℝ) : Prop where
  start : ∀ i, ρ 0 i = s.r i
  velocity : ∀ i < s.n, HasDerivAt (fun ζ => ρ ζ i) (s.pr i / (1 + s.psi i)) 0

theorem psi_ge (s : Slice) (k : ℕ) : -(9 / 10) ≤ s.psi k := by
  unfold Slice.psi
  by_cases h : s.psiRaw k < -(9 / 10)
  · rw [if_pos h]
  · rw [if_neg h]; exact not_lt.mp h

theorem sum2_deriv (s : Slice) (hr : ∀ i < s.n, 0 < s.r i) (ρ : ℝ → ℕ → ℝ) (hρ : Moves s ρ)
    (k : ℕ) (hk : k ≤ s.n) :
    HasDerivAt (fun ζ => ∑ i ∈ Finset.range k, s.q i * Real.log (ρ ζ i)) (s.sum3 k) 0 := by
  unfold Slice.sum3
  have : ∀ i ∈ Finset.range k, HasDerivAt (fun ζ => s.q i * Real.log (ρ ζ i))
      (s.q i * s.pr i / (s.r i * (1 + s.psi i))) 0 := by
    intro i hi
    have hi' : i < s.n := lt_of_lt_of_le (Finset.mem_range.mp hi) hk
    have h0 := hr i hi'
    have h1 : (0 : ℝ) < 1 + s.psi i := by have := psi_ge s i; linarith
    have h := ((hρ.velocity i hi').log (by rw [hρ.start]; exact h0.ne')).const_mul (s.q i)
    refine h.congr_deriv ?_
    rw [hρ.start]; field_simp
  exact HasDerivAt.fun_sum this

/-- The exact longitudinal derivative of the potential, in terms of the value that the
code computes at the midpoints between particles: the code is right as long as the last
charge sheet ends inside the column; otherwise it is wrong by a term proportional to
`pc (rMax⁴ - rMax)`. -/
theorem dxi_error (s : Slice) (hn : 0 < s.n) (hr : ∀ i < s.n, 0 < s.r i) (hdr : 0 ≤ s.drP)
    (hR : 0 < s.rMax) (ρ : ℝ → ℕ → ℝ) (hρ : Moves s ρ) (x : ℝ) (k : ℕ) (hk : k ≤ s.n) :
    (s.r (s.n - 1) + s.drP / 2 < s.rMax →
      HasDerivAt (fun ζ => potentialAt s x k (ρ ζ)) (-s.sum3 k + s.dxiBoundary) 0) ∧
    (s.rMax < s.r (s.n - 1) + s.drP / 2 →
      HasDerivAt (fun ζ => potentialAt s x k (ρ ζ))
        (-s.sum3 k + s.dxiBoundary + s.pc * (s.rMax ^ 4 - s.rMax) / 4 * s.pr (s.n - 1) /
          ((s.r (s.n - 1) + s.drP / 2) * (1 + s.psi (s.n - 1)))) 0) := by
  have hl : s.n - 1 < s.n := by omega
  have hrr : s.rRight (s.n - 1) = s.r (s.n - 1) + s.drP / 2 := by
    unfold Slice.rRight
    have : ¬ (s.n - 1 + 1 < s.n) := by omega
    rw [if_neg this]
  have h2k := sum2_deriv s hr ρ hρ k hk
  have h2n := sum2_deriv s hr ρ hρ s.n le_rfl
  have hψ : (0 : ℝ) < 1 + s.psi (s.n - 1) := by have := psi_ge s (s.n - 1); linarith
  have hv := (hρ.velocity (s.n - 1) hl).add_const (s.drP / 2)
  have hv0 : ρ 0 (s.n - 1) + s.drP / 2 = s.r (s.n - 1) + s.drP / 2 := by rw [hρ.start]
  -- the inner potential
  have hin : HasDerivAt (fun ζ => deltaPsi x (∑ i ∈ Finset.range k, s.q i)
      (∑ i ∈ Finset.range k, s.q i * Real.log (ρ ζ i)) s.rMax s.pc) (-s.sum3 k) 0 := by
    unfold deltaPsi
    exact (h2k.const_sub _).sub_const _
  constructor
  · intro hlt
    have hb : s.dxiBoundary = s.sum3 s.n := by
      unfold Slice.dxiBoundary; simp only [hrr, if_pos hlt.le]
    rw [hb]
    have hout : HasDerivAt (fun ζ => deltaPsi (max (ρ ζ (s.n - 1) + s.drP / 2) s.rMax)
        (∑ i ∈ Finset.range s.n, s.q i) (∑ i ∈ Finset.range s.n, s.q i * Real.log (ρ ζ i))
        s.rMax s.pc) (-s.sum3 s.n) 0 := by
      have h0 : HasDerivAt (fun ζ => deltaPsi s.rMax (∑ i ∈ Finset.range s.n, s.q i)
          (∑ i ∈ Finset.range s.n, s.q i * Real.log (ρ ζ i)) s.rMax s.pc) (-s.sum3 s.n) 0 := by
        unfold deltaPsi
        exact (h2n.const_sub _).sub_const _
      refine h0.congr_of_eventuallyEq ?_
      have : ∀ᶠ ζ in nhds (0 : ℝ), ρ ζ (s.n - 1) + s.drP / 2 < s.rMax :=
        hv.continuousAt.eventually_lt continuousAt_const (by rw [hv0]; exact hlt)
      filter_upwards [this] with ζ hζ
      rw [max_eq_right hζ.le]
    have := hin.sub hout
    refine this.congr_deriv ?_
    ring
  · intro hgt
    have hpos : 0 < s.r (s.n - 1) + s.drP / 2 := hR.trans hgt
    have hb : s.dxiBoundary = s.sum3 s.n - (s.sum1 s.n - s.rMax ^ 2 / 2 - s.pc * s.rMax / 4) *
        s.pr (s.n - 1) / ((s.r (s.n - 1) + s.drP / 2) * (1 + s.psi (s.n - 1))) := by
      unfold Slice.dxiBoundary; simp only [hrr, if_neg (not_le.mpr hgt)]
    rw [hb]
    have hout : HasDerivAt (fun ζ => deltaPsi (max (ρ ζ (s.n - 1) + s.drP / 2) s.rMax)
        (∑ i ∈ Finset.range s.n, s.q i) (∑ i ∈ Finset.range s.n, s.q i * Real.log (ρ ζ i))
        s.rMax s.pc) ((s.sum1 s.n - (1 / 2 * s.rMax ^ 2 + 1 / 4 * s.pc * s.rMax ^ 4)) *
          (s.pr (s.n - 1) / (1 + s.psi (s.n - 1)) / (s.r (s.n - 1) + s.drP / 2)) -
          s.sum3 s.n) 0 := by
      have hlog := hv.log (by rw [hv0]; exact hpos.ne')
      rw [hv0] at hlog
      have h0 : HasDerivAt (fun ζ => s.sum1 s.n * Real.log (ρ ζ (s.n - 1) + s.drP / 2) -
          (∑ i ∈ Finset.range s.n, s.q i * Real.log (ρ ζ i)) -
          (1 / 4 * s.rMax ^ 2 + s.pc * s.rMax ^ 4 / 16 +
          (1 / 2 * s.rMax ^ 2 + 1 / 4 * s.pc * s.rMax ^ 4) *
            (Real.log (ρ ζ (s.n - 1) + s.drP / 2) - Real.log s.rMax))) _ 0 :=
        ((hlog.const_mul (s.sum1 s.n)).sub h2n).sub
          (((hlog.sub_const (Real.log s.rMax)).const_mul
            (1 / 2 * s.rMax ^ 2 + 1 / 4 * s.pc * s.rMax ^ 4)).const_add
            (1 / 4 * s.rMax ^ 2 + s.pc * s.rMax ^ 4 / 16))
      refine (h0.congr_deriv ?_).congr_of_eventuallyEq ?_
      · ring
      · have : ∀ᶠ ζ in nhds (0 : ℝ), s.rMax < ρ ζ (s.n - 1) + s.drP / 2 :=
          continuousAt_const.eventually_lt hv.continuousAt (by rw [hv0]; exact hgt)
        filter_upwards [this] with ζ hζ
        rw [max_eq_left hζ.le]
        unfold deltaPsi
        simp only [if_neg (not_le.mpr hζ)]
        rfl
    have := hin.sub hout
    refine this.congr_deriv ?_
    field_simp
    ring

/-- **C59** (longitudinal part), without parabolic coefficient or with the last charge
sheet inside of the column: the value used at the midpoint in front of sorted particle `k`
is the longitudinal derivative of the potential there.  Missing for the full claim: a
parabolic profile with plasma particles beyond the column edge, for which it fails
(`dxi_violated`). -/
theorem dxi_is_derivative_partial (s : Slice) (hn : 0 < s.n) (hr : ∀ i < s.n, 0 < s.r i)
    (hdr : 0 ≤ s.drP) (hR : 0 < s.rMax) (ρ : ℝ → ℕ → ℝ) (hρ : Moves s ρ) (x : ℝ) (k : ℕ)
    (hk : k ≤ s.n) (hne : s.r (s.n - 1) + s.drP / 2 ≠ s.rMax)
    (hpc : s.pc = 0 ∨ s.r (s.n - 1) + s.drP / 2 < s.rMax) :
    HasDerivAt (fun ζ => potentialAt s x k (ρ ζ)) (-s.sum3 k + s.dxiBoundary) 0 := by
  obtain ⟨h1, h2⟩ := dxi_error s hn hr hdr hR ρ hρ x k hk
  rcases lt_or_gt_of_ne hne with h | h
  · exact h1 h
  · rcases hpc with hp | hp
    · refine (h2 h).congr_deriv ?_
      rw [hp]; ring
    · exact absurd hp (not_lt.mpr h.le)

/-- One particle that has left a column of radius 2 with parabolic coefficient 1. -/
noncomputable def escaped : Slice :=
  { n := 1, r := fun _ => 2, pr := fun _ => 1, q := fun _ => 1, rMax := 2, drP := 1, pc := 1 }

/-- **C59 violated.** With a parabolic coefficient and a particle beyond the column edge
the computed longitudinal derivative is wrong (line 156 has `r_max` instead of
`r_max**4`). -/
theorem dxi_violated : ∃ (s : Slice) (ρ : ℝ → ℕ → ℝ), 0 < s.n ∧ (∀ i < s.n, 0 < s.r i) ∧
    0 < s.drP ∧ 0 < s.rMax ∧ Moves s ρ ∧ s.r (s.n - 1) + s.drP / 2 ≠ s.rMax ∧
    ∀ x, ∀ k ≤ s.n,
    ¬ HasDerivAt (fun ζ => potentialAt s x k (ρ ζ)) (-s.sum3 k + s.dxiBoundary) 0 := by
  refine ⟨escaped, fun ζ i => escaped.r i + ζ * (escaped.pr i / (1 + escaped.psi i)),
    by simp [escaped], by simp [escaped], by simp [escaped], by simp [escaped], ?_, ?_, ?_⟩
  · constructor
    · intro i; simp
    · intro i _
      have := ((hasDerivAt_id (0 : ℝ)).mul_const
        (escaped.pr i / (1 + escaped.psi i))).const_add (escaped.r i)
      simpa using this
  · simp [escaped]
  · intro x k hk hbad
    have hm : Moves escaped
        (fun ζ i => escaped.r i + ζ * (escaped.pr i / (1 + escaped.psi i))) := by
      constructor
      · intro i; simp
      · intro i _
        have := ((hasDerivAt_id (0 : ℝ)).mul_const
          (escaped.pr i / (1 + escaped.psi i))).const_add (escaped.r i)
        simpa using this
    have hgood := (dxi_error escaped (by simp [escaped]) (by simp [escaped])
      (by simp [escaped]) (by simp [escaped]) _ hm x k hk).2 (by simp [escaped])
    have := hbad.unique hgood
    have hψ : (0 : ℝ) < 1 + escaped.psi (escaped.n - 1) := by
      have := psi_ge escaped (escaped.n - 1); linarith
    have hpos : (0 : ℝ) < escaped.pc * (escaped.rMax ^ 4 - escaped.rMax) / 4 *
        escaped.pr (escaped.n - 1) / ((escaped.r (escaped.n - 1) + escaped.drP / 2) *
          (1 + escaped.psi (escaped.n - 1))) := by
      apply div_pos
      · norm_num [escaped]
      · apply mul_pos _ hψ
        norm_num [escaped]
    linarith

/-- Two moving particles, one of them beyond the column edge, uniform plasma: the
hypotheses of `dxi_is_derivative_partial` hold. -/
noncomputable def demoSlice : Slice :=
  { n := 2, r := fun i => 1 + i, pr := fun i => if i = 0 then -1 else 1, q := fun _ => 1 / 2,
    rMax := 3 / 2, drP := 1, pc := 0 }

example : 0 < demoSlice.n ∧ (∀ i < demoSlice.n, 0 < demoSlice.r i) ∧ 0 ≤ demoSlice.drP ∧
    0 < demoSlice.rMax ∧ (∃ ρ, Moves demoSlice ρ) ∧
    demoSlice.r (demoSlice.n - 1) + demoSlice.drP / 2 ≠ demoSlice.rMax ∧ demoSlice.pc = 0 := by
  refine ⟨by simp [demoSlice], fun i _ => by simp [demoSlice]; positivity, by simp [demoSlice],
    by norm_num [demoSlice], ⟨fun ζ i => demoSlice.r i +
      ζ * (demoSlice.pr i / (1 + demoSlice.psi i)), ?_, ?_⟩, by norm_num [demoSlice], rfl⟩
  · intro i; simp
  · intro i _
    have := ((hasDerivAt_id (0 : ℝ)).mul_const
      (demoSlice.pr i / (1 + demoSlice.psi i))).const_add (demoSlice.r i)
    simpa using this

end WakeT.Plasma
