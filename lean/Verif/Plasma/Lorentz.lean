import Verif.Plasma.PushProps
import Verif.Plasma.BThetaProps

/-! # Equations of motion and current of the plasma particles (C106) -/

set_option linter.unusedSectionVars false

namespace WakeT.Plasma

/-- **C106.** The derivatives used by the pushers are the motion of an electron under the Lorentz
force and the ponderomotive force of a laser, in normalised units and along `ζ = t - z`, for which
`dζ/dt = 1 - vz`.  The radial electric field is `Er = B - ∂ψ/∂r`, where `B` is the magnetic field of
plasma and beam. -/
theorem motion_lorentz (pr a2 psi drPsi bT bT0 nablaA2 : ℝ) (hψ : -1 < psi) (ha : 0 ≤ a2) :
    let k := updateGamma pr a2 psi
    let d := derivs ⟨k.gamma, psi, drPsi, bT, bT0, nablaA2⟩ pr
    let vr := pr / k.gamma
    let vz := k.pz / k.gamma
    let B := bT + bT0
    let Er := B - drPsi
    d.r * (1 - vz) = vr ∧
    d.pr * (1 - vz) = -(Er - vz * B) - nablaA2 / (2 * k.gamma) := by
  intro k d vr vz B Er
  obtain ⟨h1, _, h3, _⟩ := gamma_pz pr a2 psi hψ ha
  have hg : (0 : ℝ) < k.gamma := lt_of_lt_of_le one_pos h3
  have h0 : 1 + psi ≠ 0 := by intro h; linarith
  have e : 1 - vz = (1 + psi) / k.gamma := by
    simp only [vz]
    rw [← show k.gamma - k.pz = 1 + psi from h1]; field_simp
  have e' : vz = 1 - (1 + psi) / k.gamma := by linarith
  constructor
  · rw [e]; simp only [d, derivs, vr]; field_simp
  · rw [e, e']; simp only [d, derivs, Er, B]
    have := hg.ne'
    field_simp
    ring

/-- **C106.** The terms `A`, `B` in the equation of the magnetic field are minus the longitudinal
derivative of the radial current `q v / r` of the particle, if the particle moves according to the
equations of motion in the field `bT` and the potential at the particle changes along its path. -/
theorem current_derivative (p : BPart) (hr : 0 < p.r) (hψ : -1 < p.psi) (bT : ℝ)
    (r pr ψ : ℝ → ℝ) (ζ : ℝ) (h0 : r ζ = p.r ∧ pr ζ = p.pr ∧ ψ ζ = p.psi)
    (hd : let d := derivs ⟨p.gamma, p.psi, p.drPsi, bT, p.bTheta0, p.nablaA2⟩ p.pr
      HasDerivAt r d.r ζ ∧ HasDerivAt pr d.pr ζ ∧
      HasDerivAt ψ (d.r * p.drPsi + p.dxiPsi) ζ) :
    HasDerivAt (fun t => p.q * (pr t / (1 + ψ t)) / r t) (-(p.A * bT + p.B)) ζ := by
  obtain ⟨h1, h2, h3⟩ := h0
  obtain ⟨d1, d2, d3⟩ := hd
  have hp : (0 : ℝ) < 1 + p.psi := by linarith
  have h := ((d2.div (d3.const_add 1) (by rw [h3]; exact hp.ne')).const_mul p.q).div d1
    (by rw [h1]; exact hr.ne')
  refine h.congr_deriv ?_
  simp only [Pi.div_apply, h1, h2, h3, derivs, BPart.A, BPart.B]
  field_simp
  ring

/-- **C106.** The jump `C` of the magnetic field at a particle is the longitudinal current `q pz /
(1 + psi) / r` (with the sign of electrons) and the convection of the radial current. -/
theorem jump_current (p : BPart) (pz : ℝ) (hψ : -1 < p.psi) (h : p.gamma - pz = 1 + p.psi) :
    p.C = p.q / p.r * ((p.pr / (1 + p.psi)) ^ 2 - pz / (1 + p.psi)) := by
  have hp : (0 : ℝ) < 1 + p.psi := by linarith
  have e : pz = p.gamma - (1 + p.psi) := by linarith
  rw [e]
  unfold BPart.C
  by_cases hr : p.r = 0
  · rw [hr]; simp
  · field_simp

/-- A particle with all terms present. -/
noncomputable def demoPart : BPart := ⟨2, 1 / 2, 3, 5 / 4, 1, 1 / 3, -1 / 4, 1 / 5, 1 / 7⟩

/-- There are trajectories as in `current_derivative`. -/
example : ∃ r pr ψ : ℝ → ℝ, (r 0 = demoPart.r ∧ pr 0 = demoPart.pr ∧ ψ 0 = demoPart.psi) ∧
    let d := derivs ⟨demoPart.gamma, demoPart.psi, demoPart.drPsi, 1, demoPart.bTheta0,
      demoPart.nablaA2⟩ demoPart.pr
    HasDerivAt r d.r 0 ∧ HasDerivAt pr d.pr 0 ∧
      HasDerivAt ψ (d.r * demoPart.drPsi + demoPart.dxiPsi) 0 := by
  have h : ∀ a b : ℝ, HasDerivAt (fun t : ℝ => a + b * t) b 0 := by
    intro a b
    simpa using ((hasDerivAt_id (0 : ℝ)).const_mul b).const_add a
  exact ⟨fun t => demoPart.r + _ * t, fun t => demoPart.pr + _ * t, fun t => demoPart.psi + _ * t,
    by simp, h _ _, h _ _, h _ _⟩

end WakeT.Plasma
