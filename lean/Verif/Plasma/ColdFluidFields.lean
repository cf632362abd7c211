import Verif.Plasma.ColdFluidProps
import Verif.Plasma.SolverProps

/-! # Field equations of the one-dimensional cold fluid wakefield (C108) -/

set_option linter.unusedSectionVars false

namespace WakeT.ColdFluid

open WakeT.Base

variable (m : Cold)

/-- **C108.** The stored fields satisfy, at every node and in the units of the arrays:

* force: `E_z = -E0 ∂ψ/∂ξ` and `E_r - c B = -E0 ∂ψ/∂r` with the discrete derivatives of
  the array of the potential `ψ` (which follows the fluid equation, C66);
* Panofsky-Wenzel: `∂(E_r - c B)/∂ξ = ∂E_z/∂r`. -/
theorem force_is_gradient (E0 c : ℝ) (hc : c ≠ 0) :
    let ψ := fun k j => (m.u k j).1
    let ez := fun k j => (m.fields E0 c k j).1
    let w := fun k j => (m.fields E0 c k j).2.1 - c * (m.fields E0 c k j).2.2
    (∀ k j, ez k j = -E0 * gradient m.nXi m.dz (fun k' => ψ k' j) k) ∧
    (∀ k j, w k j = -E0 * gradient m.nR m.dr (fun j' => ψ k j') j) ∧
    ∀ k j, gradient m.nXi m.dz (fun k' => w k' j) k = gradient m.nR m.dr (fun j' => ez k j') j := by
  intro ψ ez w
  have h1 : ∀ k j, ez k j = gradient m.nXi m.dz (fun k' => -E0 * ψ k' j) k := by
    intro k j
    simp only [ez, Cold.fields, Cold.Ez]
    unfold gradient; split_ifs <;> ring
  have h2 : ∀ k j, w k j = gradient m.nR m.dr (fun j' => -E0 * ψ k j') j := by
    intro k j
    simp only [w, Cold.fields, Cold.Er, Cold.Wr]
    rw [mul_div_cancel₀ _ hc]
    unfold gradient; split_ifs <;> ring
  refine ⟨fun k j => ?_, fun k j => ?_, fun k j => ?_⟩
  · rw [h1]; unfold gradient; split_ifs <;> ring
  · rw [h2]; unfold gradient; split_ifs <;> ring
  · simp only [h1, h2]
    exact Plasma.QS.gradient_comm _ _ _ _ (fun k j => -E0 * ψ k j) k j

/-- **C108.** Ampère's law: `c r B` grows from the axis by the integral (trapezoidal rule, half a
cell up to the first node) of `r (∂E_z/∂ξ + E0 (n_beam - n v_z))`, where the densities are in units
of the plasma density. -/
theorem ampere (E0 c : ℝ) (hc : c ≠ 0) (hdr : 0 < m.dr) (k : ℕ) :
    let ez := fun k j => (m.fields E0 c k j).1
    let rcB := fun j => m.rFld j * (c * (m.fields E0 c k j).2.2)
    let I := fun j => m.rFld j * (gradient m.nXi m.dz (fun k' => ez k' j) k +
      E0 * (m.beam k j - m.rho k j * m.vz k j))
    rcB 0 = m.dr / 2 * I 0 ∧ ∀ j, rcB (j + 1) = rcB j + m.dr * ((I j + I (j + 1)) / 2) := by
  intro ez rcB I
  have hr : ∀ j, 0 < m.rFld j := by intro j; unfold Cold.rFld; positivity
  have hI : ∀ j, I j = m.integrand k j * E0 := by
    intro j
    have : gradient m.nXi m.dz (fun k' => ez k' j) k =
        gradient m.nXi m.dz (fun l => m.Ez l j) k * E0 := by
      simp only [ez, Cold.fields]; unfold gradient; split_ifs <;> ring
    simp only [I, this]; unfold Cold.integrand; ring
  have hB : ∀ j, rcB j = ((∑ l ∈ Finset.range (j + 1), m.integrand k l) - m.integrand k j / 2) *
      m.dr * E0 := by
    intro j
    have := hr j
    simp only [rcB, Cold.fields, Cold.Bt, abs_of_pos this]
    field_simp
  refine ⟨?_, fun j => ?_⟩
  · rw [hB, hI]; simp; ring
  · rw [hB, hB, hI, hI, Finset.sum_range_succ _ (j + 1)]; ring

/-- A box with a laser for which the fields are not trivial. -/
example : ∃ m : Cold, 0 < m.dr ∧ (3 : ℝ) ≠ 0 ∧ m.Ez 2 0 ≠ 0 := by
  refine ⟨⟨4, 4, 0, 1, 1, true, some fun k _ => if k = 1 then 1 else 0, fun _ _ => 0⟩, by norm_num,
    by norm_num, ?_⟩
  set m : Cold := ⟨4, 4, 0, 1, 1, true, some fun k _ => if k = 1 then 1 else 0, fun _ _ => 0⟩ with hm
  have hq := quiet_ahead m (by norm_num [m]) (by norm_num [m]) 2 0 (by norm_num [m])
    (by intro l h1 h2; show (if l = 1 then (1 : ℝ) else 0) = 0; rw [if_neg (by omega)])
    (fun _ _ _ => rfl) (by norm_num [m])
  have h2 := hq 2 le_rfl (by norm_num [m])
  have h3 := hq 3 (by norm_num) (by norm_num [m])
  have h := (fluid_rk4 m (by norm_num [m]) (by norm_num [m]) 0 (by norm_num [m])).2 1
    (by norm_num [m])
  unfold Cold.Ez gradient
  rw [if_neg (by norm_num), if_neg (by norm_num [m])]
  simp only [Nat.reduceAdd, Nat.reduceSub]
  rw [h3, h, h2]
  intro h0
  simp only [rk4, accel, m, Cold.aEnv, Option.getD_some] at h0
  norm_num at h0

end WakeT.ColdFluid
