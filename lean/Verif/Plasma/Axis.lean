import Verif.Plasma.ColdFluidFields
import Verif.Plasma.Deposit

/-! # The magnetic field near the axis (C137)

The field of a current density that does not depend on the radius is proportional to the radius: `r B' = J r² / 2`. -/

set_option linter.unusedSectionVars false

namespace WakeT.ColdFluid

open Base

variable (m : Cold)

/-- Current density (of the plasma and the beams, and the displacement current) in units of `ε_0 c E_0 / length`, as it is
stored in the arrays of the model: `∂E_z/∂ξ + E_0 (n_beam - n v_z)`. -/
noncomputable def Cold.current (e0 c : ℝ) (k j : ℕ) : ℝ :=
  gradient m.nXi m.dz (fun l => (m.fields e0 c l j).1) k + e0 * (m.beam k j - m.rho k j * m.vz k j)

/-- **C137, partial.** Where the current density is the same at all nodes from the axis to the node `j`, the field is that of a
uniform current, `c B = J r / 2`, times `1 + (Δr / 2r)²`. -/
theorem uniform_current_partial (e0 c : ℝ) (hc : c ≠ 0) (hdr : 0 < m.dr) (k j : ℕ) (J : ℝ) (hJ : ∀ l ≤ j, m.current e0 c k l = J) :
    c * (m.fields e0 c k j).2.2 = J * m.rFld j / 2 * (1 + (m.dr / (2 * m.rFld j)) ^ 2) := by
  obtain ⟨h0, h1⟩ := ampere m e0 c hc hdr k
  have hr : ∀ l, m.rFld l = ((l : ℝ) + 1 / 2) * m.dr := fun l => by unfold Cold.rFld; ring
  have key : ∀ l ≤ j, m.rFld l * (c * (m.fields e0 c k l).2.2) = J * (m.rFld l ^ 2 + m.dr ^ 2 / 4) / 2 := by
    intro l
    induction l with
    | zero =>
      intro hl
      have := hJ 0 hl
      unfold Cold.current at this
      dsimp only at h0
      rw [h0, this, hr]
      push_cast
      ring
    | succ l ih =>
      intro hl
      have e1 := hJ (l + 1) hl
      have e0' := hJ l (by omega)
      unfold Cold.current at e1 e0'
      have h := h1 l
      dsimp only at h
      rw [h, ih (by omega), e1, e0', hr, hr]
      push_cast
      ring
  have hpos : 0 < m.rFld j := by rw [hr]; positivity
  have h := key j le_rfl
  field_simp
  field_simp at h
  linear_combination h

/-- **C137, violated** at the node next to the axis: the field there is that of twice the current, whatever the size of the cells. -/
theorem axis_field (e0 c : ℝ) (hc : c ≠ 0) (hdr : 0 < m.dr) (k : ℕ) :
    c * (m.fields e0 c k 0).2.2 = 2 * (m.current e0 c k 0 * m.rFld 0 / 2) := by
  rw [uniform_current_partial m e0 c hc hdr k 0 (m.current e0 c k 0) (by intro l hl; rw [Nat.le_zero.mp hl])]
  have : m.rFld 0 = m.dr / 2 := by unfold Cold.rFld; simp
  rw [this]
  field_simp
  ring

/-- For every size of the cells there is a box with a uniform current (of a wide beam in the last slice) for which the field next to the
axis is twice that of the current. -/
theorem axis_field_violated (dr e0 c : ℝ) (hdr : 0 < dr) (he : e0 ≠ 0) (hc : c ≠ 0) : ∃ m : Cold, m.dr = dr ∧
    (∀ j < m.nR, m.current e0 c 0 j = e0) ∧ c * (m.fields e0 c 0 0).2.2 = 2 * (e0 * m.rFld 0 / 2) ∧
    c * (m.fields e0 c 0 0).2.2 ≠ e0 * m.rFld 0 / 2 := by
  let m : Cold := ⟨4, 4, 0, 1, dr, true, none, fun k _ => if k = 0 then 1 else 0⟩
  have hu : ∀ l < 4, ∀ j < 4, m.u l j = (0, 0) := fun l hl j hj =>
    quiet_ahead m (by norm_num [m]) hdr 0 j hj (fun _ _ _ => rfl)
      (fun l h _ => if_neg (by omega)) (by norm_num [m]) l (Nat.zero_le _) hl
  have hcur : ∀ j < m.nR, m.current e0 c 0 j = e0 := by
    intro j hj
    have hez : ∀ l < 4, m.Ez l j = 0 := by
      intro l hl
      have h4 : m.nXi = 4 := rfl
      have hu0 := hu 0 (by norm_num) j hj
      have hu1 := hu 1 (by norm_num) j hj
      have hu2 := hu 2 (by norm_num) j hj
      have hu3 := hu 3 (by norm_num) j hj
      unfold Cold.Ez gradient
      rw [h4]
      interval_cases l <;> simp [hu0, hu1, hu2, hu3]
    have hg : gradient m.nXi m.dz (fun l => (m.fields e0 c l j).1) 0 = 0 := by
      have h4 : m.nXi = 4 := rfl
      unfold gradient Cold.fields
      rw [h4]
      simp [hez]
    have hv : m.vz 0 j = 0 := by
      unfold Cold.vz Cold.uz
      rw [hu 0 (by norm_num) j hj]
      simp [Cold.aEnv, m]
    unfold Cold.current
    rw [hg, hv]
    simp [m]
  have hax := axis_field m e0 c hc hdr 0
  rw [hcur 0 (by norm_num [m])] at hax
  have hpos : 0 < m.rFld 0 := by unfold Cold.rFld; show 0 < dr / 2 + ((0 : ℕ) : ℝ) * dr; simp; exact hdr
  refine ⟨m, rfl, hcur, hax, ?_⟩
  rw [hax]
  intro h
  have : e0 * m.rFld 0 = 0 := by linarith
  exact mul_ne_zero he hpos.ne' this

/-- At a node away from the axis the excess is small. -/
theorem excess_small (hdr : 0 < m.dr) (j : ℕ) : (m.dr / (2 * m.rFld j)) ^ 2 = 1 / (2 * (j : ℝ) + 1) ^ 2 := by
  have : m.rFld j = ((j : ℝ) + 1 / 2) * m.dr := by unfold Cold.rFld; ring
  rw [this]
  have h : (0 : ℝ) < (j : ℝ) + 1 / 2 := by positivity
  have h' : (0 : ℝ) < 2 * (j : ℝ) + 1 := by positivity
  field_simp

end WakeT.ColdFluid

namespace WakeT.Plasma

/-- **C137** for the quasistatic model: next to the axis the field of a beam of uniform density (charges of the cells proportional to
their radii) is exact; at the other nodes it has the factor `1 + (Δr / 2r)²`. -/
theorem uniform_beam (q : ℤ → ℤ → ℝ) (dr : ℝ) (hdr : 0 < dr) (i k : ℕ) (J : ℝ)
    (hq : ∀ j ≤ k, q ((i : ℤ) + 2) ((j : ℤ) + 2) = J * (((j : ℝ) + 1 / 2) * dr)) :
    beamSource q dr i k = J * (((k : ℝ) + 1 / 2) * dr) / 2 *
      (1 + if k = 0 then 0 else (dr / (2 * (((k : ℝ) + 1 / 2) * dr))) ^ 2) := by
  have h := beam_ampere q dr hdr i k
  have hs : ∑ j ∈ Finset.range k, q ((i : ℤ) + 2) ((j : ℤ) + 2) = J * dr * (k : ℝ) ^ 2 / 2 := by
    have : ∀ n ≤ k, ∑ j ∈ Finset.range n, q ((i : ℤ) + 2) ((j : ℤ) + 2) = J * dr * (n : ℝ) ^ 2 / 2 := by
      intro n
      induction n with
      | zero => intro _; simp
      | succ n ih =>
        intro hn
        rw [Finset.sum_range_succ, ih (by omega), hq n (by omega)]
        push_cast
        ring
    exact this k le_rfl
  rw [hs, hq k le_rfl] at h
  have hk : (0 : ℝ) < (k : ℝ) + 1 / 2 := by positivity
  by_cases h0 : k = 0
  · subst h0
    rw [if_pos rfl] at h ⊢
    push_cast at h ⊢
    field_simp at h ⊢
    linear_combination h
  · rw [if_neg h0] at h ⊢
    field_simp at h ⊢
    linear_combination 2 * h

/-- Charges of a uniform beam in three cells. -/
example : ∀ k < 3, beamSource (fun _ j => if j < 5 then (j : ℝ) - 3 / 2 else 0) 1 0 k =
    1 * (((k : ℝ) + 1 / 2) * 1) / 2 * (1 + if k = 0 then 0 else (1 / (2 * (((k : ℝ) + 1 / 2) * 1))) ^ 2) := by
  intro k hk
  refine uniform_beam _ 1 one_pos 0 k 1 fun j hj => ?_
  rw [if_pos (by omega)]
  push_cast
  ring

end WakeT.Plasma
