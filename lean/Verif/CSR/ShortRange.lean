import Verif.CSR.KernelProps
import Mathlib.Analysis.SpecialFunctions.Trigonometric.ArctanDeriv
import Mathlib.Analysis.SpecialFunctions.Log.Deriv
import Mathlib.Analysis.SpecialFunctions.Sqrt
import Mathlib.MeasureTheory.Integral.IntervalIntegral.FundThmCalculus

/-!
# The CSR kernel on the straight line in front of the beamline
-/

set_option linter.unusedSectionVars false

namespace WakeT.CSR

open Finset

/-- Specification: `β`. -/
noncomputable def velocity (γ : ℝ) : ℝ := √(1 - 1 / γ ^ 2)

/-- Specification: distance between two points of the path. -/
noncomputable def distance (p q : Pt) : ℝ :=
  √((q.pos 0 - p.pos 0) ^ 2 + (q.pos 1 - p.pos 1) ^ 2 + (q.pos 2 - p.pos 2) ^ 2)

/-- Specification: path length ahead of the emitting particle by which a particle at `q` sees what was emitted at `p`. -/
noncomputable def delay (γ : ℝ) (p q : Pt) : ℝ := p.s - q.s + velocity γ * distance p q

/-- Specification: interaction of a particle at `q` with what was emitted at `p`, per path length. -/
noncomputable def interaction (γ : ℝ) (p q : Pt) : ℝ :=
  let n : Fin 3 → ℝ := fun a => (q.pos a - p.pos a) / distance p q
  let β := velocity γ
  (β * (∑ a, n a * p.tan a - ∑ a, n a * q.tan a) - β ^ 2 * (1 - ∑ a, p.tan a * q.tan a) - 1 / γ ^ 2) / distance p q
    - (1 - β * ∑ a, n a * p.tan a) / (γ ^ 2 * delay γ p q)

/-- Specification: the point at path length `σ` of the straight line through `p`. -/
def onLine (p : Pt) (σ : ℝ) : Pt := ⟨σ, fun a => p.pos a + (σ - p.s) * p.tan a, p.tan⟩

theorem betaOf_eq (γ : ℝ) : betaOf γ = velocity γ := rfl

theorem chord_eq (t : ℕ → Pt) (i k : ℕ) : chord t i k = distance (t k) (t i) := by
  unfold chord distance
  congr 1
  ring

theorem retarded_delay (t : ℕ → Pt) (γ : ℝ) (i k : ℕ) : retarded t (betaOf γ) i k = delay γ (t k) (t i) := by
  unfold delay
  rw [← chord_eq]
  rfl

theorem velocity_sq {γ : ℝ} (hγ : 1 < γ) : velocity γ ^ 2 = 1 - 1 / γ ^ 2 := by
  unfold velocity
  rw [Real.sq_sqrt]
  have : 1 / γ ^ 2 ≤ 1 := by
    rw [div_le_one (by positivity)]
    nlinarith
  linarith

theorem velocity_pos {γ : ℝ} (hγ : 1 < γ) : 0 < velocity γ := by
  unfold velocity
  apply Real.sqrt_pos.mpr
  have : 1 / γ ^ 2 < 1 := by
    rw [div_lt_one (by positivity)]
    nlinarith
  linarith

theorem velocity_lt_one {γ : ℝ} (hγ : 1 < γ) : velocity γ < 1 := by
  have h1 := velocity_sq hγ
  have h2 : 0 < 1 / γ ^ 2 := by positivity
  nlinarith [velocity_pos hγ]

/-- The kernel in front of its integration is the interaction with the trajectory point. -/
theorem kernelAt_eq {γ : ℝ} (hγ : 1 < γ) (t : ℕ → Pt) (i k : ℕ) : kernelAt t γ i k = interaction γ (t k) (t i) := by
  unfold kernelAt interaction
  dsimp only
  rw [chord_eq, retarded_delay, betaOf_eq, velocity_sq hγ]
  simp only [dot, Fin.sum_univ_three, div_eq_mul_inv, one_mul, mul_inv]
  ring

/-! ### The line -/

section line

variable {γ : ℝ} (hγ : 1 < γ) (t : ℕ → Pt) (i : ℕ)

/-- Distance to the point at path length `(t i).s + s` of the entrance line. -/
noncomputable def lineR (s : ℝ) : ℝ := √((s - wInf t i) ^ 2 + entryA2 t i)

theorem entryA2_nonneg : 0 ≤ entryA2 t i := by
  unfold entryA2 dot
  linarith [mul_self_nonneg (entryAcross t i 0), mul_self_nonneg (entryAcross t i 1), mul_self_nonneg (entryAcross t i 2)]

theorem lineR_sq (s : ℝ) : lineR t i s ^ 2 = (s - wInf t i) ^ 2 + entryA2 t i :=
  Real.sq_sqrt (add_nonneg (sq_nonneg _) (entryA2_nonneg t i))

theorem lineR_nonneg (s : ℝ) : 0 ≤ lineR t i s := Real.sqrt_nonneg _

theorem abs_le_lineR (s : ℝ) : |s - wInf t i| ≤ lineR t i s := by
  unfold lineR
  rw [← Real.sqrt_sq_eq_abs]
  exact Real.sqrt_le_sqrt (by linarith [entryA2_nonneg t i])

variable (hu : Unit (t 0).tan)

include hu

theorem entryA2_eq : entryA2 t i = dot (entryVec t i) (entryVec t i) - entryLen t i ^ 2 := by
  unfold Unit at hu
  unfold entryA2 entryAcross
  have : entryLen t i = dot (entryVec t i) (t 0).tan := rfl
  simp only [dot] at this ⊢
  generalize entryVec t i = v at this ⊢
  generalize entryLen t i = l at this ⊢
  linear_combination l ^ 2 * hu + 2 * l * this

theorem distance_line (s : ℝ) : distance (onLine (t 0) ((t i).s + s)) (t i) = lineR t i s := by
  unfold distance lineR
  congr 1
  rw [entryA2_eq t i hu]
  unfold Unit at hu
  have : entryLen t i = dot (entryVec t i) (t 0).tan := rfl
  unfold wInf
  simp only [dot, entryVec, onLine] at this ⊢
  generalize entryLen t i = l at this ⊢
  linear_combination ((t i).s + s - (t 0).s) ^ 2 * hu + 2 * ((t i).s + s - (t 0).s) * this

theorem delay_line (s : ℝ) :
    delay γ (onLine (t 0) ((t i).s + s)) (t i) = s + velocity γ * lineR t i s := by
  unfold delay
  rw [distance_line t i hu]
  simp [onLine]

/-- The interaction with a point of the line. -/
theorem interaction_line (hγ : 1 < γ) {s : ℝ} (hR : lineR t i s ≠ 0) :
    interaction γ (onLine (t 0) ((t i).s + s)) (t i) =
      -velocity γ * (1 - dot (t 0).tan (t i).tan) * ((s - wInf t i) / lineR t i s ^ 2)
      + velocity γ * dot (entryAcross t i) (t i).tan / lineR t i s ^ 2
      - (1 - velocity γ ^ 2 * dot (t 0).tan (t i).tan) / lineR t i s
      - 1 / γ ^ 2 * ((1 + velocity γ * ((s - wInf t i) / lineR t i s)) / (s + velocity γ * lineR t i s)) := by
  have hp : ∑ a, ((t i).pos a - (onLine (t 0) ((t i).s + s)).pos a) / lineR t i s * (t 0).tan a =
      -((s - wInf t i) / lineR t i s) := by
    unfold Unit at hu
    have : entryLen t i = dot (entryVec t i) (t 0).tan := rfl
    unfold wInf
    simp only [dot, entryVec, onLine, Fin.sum_univ_three] at this ⊢
    rw [this]
    field_simp
    linear_combination -((t i).s + s - (t 0).s) * hu
  have hq : ∑ a, ((t i).pos a - (onLine (t 0) ((t i).s + s)).pos a) / lineR t i s * (t i).tan a =
      -((s - wInf t i) * dot (t 0).tan (t i).tan + dot (entryAcross t i) (t i).tan) / lineR t i s := by
    have : entryLen t i = dot (entryVec t i) (t 0).tan := rfl
    unfold wInf entryAcross
    simp only [dot, entryVec, onLine, Fin.sum_univ_three] at this ⊢
    rw [this]
    field_simp
    ring
  have ht : (onLine (t 0) ((t i).s + s)).tan = (t 0).tan := rfl
  unfold interaction
  dsimp only
  rw [distance_line t i hu, delay_line t i hu, ht, hp, hq]
  have hc : ∑ a, (t 0).tan a * (t i).tan a = dot (t 0).tan (t i).tan := by simp [dot, Fin.sum_univ_three]
  rw [hc]
  have hv := velocity_sq hγ
  have hg : 1 / γ ^ 2 = 1 - velocity γ ^ 2 := by rw [hv]; ring
  have hg' : ∀ x y : ℝ, x / (γ ^ 2 * y) = 1 / γ ^ 2 * (x / y) := by intro x y; rw [div_mul_div_comm, one_mul]
  rw [hg', hg]
  generalize (s + velocity γ * lineR t i s) = w
  generalize velocity γ = β at *
  generalize dot (entryAcross t i) (t i).tan = κ
  generalize dot (t 0).tan (t i).tan = c
  generalize lineR t i s = R at *
  have hlast : (1 - β * -((s - wInf t i) / R)) = 1 + β * ((s - wInf t i) / R) := by ring
  rw [hlast]
  generalize (1 - β ^ 2) * ((1 + β * ((s - wInf t i) / R)) / w) = Z
  field_simp
  ring

omit hu

/-! ### Delay along the line -/

theorem lineR_hasDeriv {s : ℝ} (hR : lineR t i s ≠ 0) :
    HasDerivAt (lineR t i) ((s - wInf t i) / lineR t i s) s := by
  have h0 : (s - wInf t i) ^ 2 + entryA2 t i ≠ 0 := by
    rw [← lineR_sq]
    exact pow_ne_zero _ hR
  have h1 : HasDerivAt (fun s => (s - wInf t i) ^ 2 + entryA2 t i) (2 * (s - wInf t i)) s := by
    have h := (((hasDerivAt_id s).sub_const (wInf t i)).pow 2).add_const (entryA2 t i)
    refine HasDerivAt.congr_deriv h ?_
    simp
  have h2 := h1.sqrt h0
  rw [mul_div_mul_left _ _ (two_ne_zero)] at h2
  exact h2

/-- The delay grows along the line. -/
theorem delay_mono (hγ : 1 < γ) {s s' : ℝ} (h : s < s') :
    s + velocity γ * lineR t i s < s' + velocity γ * lineR t i s' := by
  have hb := velocity_pos hγ
  have hb1 := velocity_lt_one hγ
  -- the distance changes by at most the path length
  have hl : lineR t i s - lineR t i s' ≤ s' - s := by
    have e1 := lineR_sq t i s
    have e2 := lineR_sq t i s'
    have n1 := lineR_nonneg t i s
    have n2 := lineR_nonneg t i s'
    have a1 := abs_le.mp (abs_le_lineR t i s)
    have a2 := abs_le.mp (abs_le_lineR t i s')
    by_contra hc
    push Not at hc
    have h3 : (s - s') * (s + s' - 2 * wInf t i) = (lineR t i s - lineR t i s') * (lineR t i s + lineR t i s') := by
      nlinarith
    nlinarith
  nlinarith

/-- The code's solution of `delay = w`. -/
theorem shortS_spec (hγ : 1 < γ) (w : ℝ) :
    shortS t γ i w + velocity γ * lineR t i (shortS t γ i w) = w ∧ shortR t γ i w = lineR t i (shortS t γ i w) := by
  have hb := velocity_pos hγ
  have hb1 := velocity_lt_one hγ
  have hv : γ ^ 2 * velocity γ ^ 2 = γ ^ 2 - 1 := by
    rw [velocity_sq hγ]
    field_simp
  set S := √(γ ^ 2 * (w - wInf t i) ^ 2 + entryA2 t i) with hS
  have hS0 : 0 ≤ S := Real.sqrt_nonneg _
  have hSs : S ^ 2 = γ ^ 2 * (w - wInf t i) ^ 2 + entryA2 t i :=
    Real.sq_sqrt (add_nonneg (by positivity) (entryA2_nonneg t i))
  have hy : shortS t γ i w - wInf t i = γ * (γ * (w - wInf t i) - velocity γ * S) := by
    unfold shortS
    rw [betaOf_eq]
    ring
  -- the candidate for the distance
  have hR0 : 0 ≤ γ * (S - velocity γ * γ * (w - wInf t i)) := by
    apply mul_nonneg (by linarith)
    have h1 : γ * |w - wInf t i| ≤ S := by
      rw [hS, ← abs_of_pos (by linarith : (0 : ℝ) < γ), ← abs_mul, ← Real.sqrt_sq_eq_abs, mul_pow, sq_abs]
      exact Real.sqrt_le_sqrt (by linarith [entryA2_nonneg t i])
    have h2 := le_abs_self (w - wInf t i)
    have h3 : 0 ≤ |w - wInf t i| := abs_nonneg _
    have h4 : velocity γ * γ * (w - wInf t i) ≤ velocity γ * γ * |w - wInf t i| :=
      mul_le_mul_of_nonneg_left h2 (by positivity)
    have h5 : velocity γ * (γ * |w - wInf t i|) ≤ γ * |w - wInf t i| := by
      have : 0 ≤ γ * |w - wInf t i| := by positivity
      nlinarith
    linarith
  have hRR : lineR t i (shortS t γ i w) = γ * (S - velocity γ * γ * (w - wInf t i)) := by
    unfold lineR
    rw [hy, ← Real.sqrt_sq hR0]
    congr 1
    linear_combination (γ ^ 2 * velocity γ ^ 2 - γ ^ 2) * hSs
      + (entryA2 t i + γ ^ 2 * (w - wInf t i) ^ 2 - γ ^ 2 * (w - wInf t i) ^ 2) * hv
  have h1 : shortS t γ i w + velocity γ * lineR t i (shortS t γ i w) = w := by
    rw [hRR]
    linear_combination hy - (w - wInf t i) * hv
  refine ⟨h1, ?_⟩
  unfold shortR
  rw [betaOf_eq, div_eq_iff hb.ne']
  linear_combination -h1

/-- Antiderivative of the interaction along the line. -/
noncomputable def lineF (γ : ℝ) (s : ℝ) : ℝ :=
  -velocity γ * (1 - dot (t 0).tan (t i).tan) * Real.log (lineR t i s)
    + velocity γ * dot (entryUnit t i) (t i).tan * Real.arctan ((s - wInf t i) / √(entryA2 t i))
    + (1 - velocity γ ^ 2 * dot (t 0).tan (t i).tan) * Real.log (lineR t i s - (s - wInf t i))
    - 1 / γ ^ 2 * Real.log (s + velocity γ * lineR t i s)

theorem lineR_pos {s : ℝ} (h : 0 < entryA2 t i ∨ s < wInf t i) : 0 < lineR t i s := by
  unfold lineR
  apply Real.sqrt_pos.mpr
  rcases h with h | h
  · nlinarith [sq_nonneg (s - wInf t i)]
  · nlinarith [entryA2_nonneg t i, sq_nonneg (s - wInf t i)]

theorem lineR_gap {s : ℝ} (h : 0 < entryA2 t i ∨ s < wInf t i) : 0 < lineR t i s - (s - wInf t i) := by
  have h1 := abs_le.mp (abs_le_lineR t i s)
  have h2 := lineR_sq t i s
  have h3 := lineR_pos t i h
  rcases h with h | h
  · by_contra hc
    have : lineR t i s = s - wInf t i := by linarith
    rw [this] at h2
    linarith
  · linarith

theorem entryUnit_dot : √(entryA2 t i) * dot (entryUnit t i) (t i).tan = dot (entryAcross t i) (t i).tan := by
  by_cases h : entryA2 t i = 0
  · have h0 : ∀ a, entryAcross t i a = 0 := by
      unfold entryA2 dot at h
      have q0 := mul_self_nonneg (entryAcross t i 0)
      have q1 := mul_self_nonneg (entryAcross t i 1)
      have q2 := mul_self_nonneg (entryAcross t i 2)
      intro a
      fin_cases a
      · exact mul_self_eq_zero.mp (by show entryAcross t i 0 * entryAcross t i 0 = 0; linarith)
      · exact mul_self_eq_zero.mp (by show entryAcross t i 1 * entryAcross t i 1 = 0; linarith)
      · exact mul_self_eq_zero.mp (by show entryAcross t i 2 * entryAcross t i 2 = 0; linarith)
    simp [dot, h0, h]
  · have h1 : √(entryA2 t i) ≠ 0 := by
      rw [Real.sqrt_ne_zero (entryA2_nonneg t i)]
      exact h
    simp only [dot, entryUnit]
    field_simp

theorem lineF_hasDeriv {s : ℝ} (h : 0 < entryA2 t i ∨ s < wInf t i) (hw : s + velocity γ * lineR t i s ≠ 0) :
    HasDerivAt (lineF t i γ)
      (-velocity γ * (1 - dot (t 0).tan (t i).tan) * ((s - wInf t i) / lineR t i s ^ 2)
        + velocity γ * dot (entryAcross t i) (t i).tan / lineR t i s ^ 2
        - (1 - velocity γ ^ 2 * dot (t 0).tan (t i).tan) / lineR t i s
        - 1 / γ ^ 2 * ((1 + velocity γ * ((s - wInf t i) / lineR t i s)) / (s + velocity γ * lineR t i s))) s := by
  have hR := lineR_pos t i h
  have hG := lineR_gap t i h
  have dR := lineR_hasDeriv t i hR.ne'
  have dlog := (dR.log hR.ne').const_mul (-velocity γ * (1 - dot (t 0).tan (t i).tan))
  have dy : HasDerivAt (fun s : ℝ => s - wInf t i) 1 s := (hasDerivAt_id s).sub_const _
  have dat := (((dy.div_const (√(entryA2 t i))).arctan).const_mul (velocity γ * dot (entryUnit t i) (t i).tan))
  have dgap := ((dR.sub dy).log hG.ne').const_mul (1 - velocity γ ^ 2 * dot (t 0).tan (t i).tan)
  have dw := ((((hasDerivAt_id s).add (dR.const_mul (velocity γ))).log hw).const_mul (1 / γ ^ 2))
  have hall := ((dlog.add dat).add dgap).sub dw
  refine HasDerivAt.congr_deriv hall ?_
  have e1 : (s - wInf t i) / lineR t i s / lineR t i s = (s - wInf t i) / lineR t i s ^ 2 := by
    rw [div_div, sq]
  have e2 : velocity γ * dot (entryUnit t i) (t i).tan *
      (1 / (1 + ((s - wInf t i) / √(entryA2 t i)) ^ 2) * (1 / √(entryA2 t i))) =
      velocity γ * dot (entryAcross t i) (t i).tan / lineR t i s ^ 2 := by
    rw [← entryUnit_dot, lineR_sq]
    by_cases h0 : entryA2 t i = 0
    · simp [h0]
    · have hp := lt_of_le_of_ne (entryA2_nonneg t i) (Ne.symm h0)
      have hs := Real.sqrt_pos.mpr hp
      have hq := Real.sq_sqrt (entryA2_nonneg t i)
      rw [div_pow, hq]
      have h3 : (s - wInf t i) ^ 2 + entryA2 t i ≠ 0 := by positivity
      have h4 : 1 + (s - wInf t i) ^ 2 / entryA2 t i = ((s - wInf t i) ^ 2 + entryA2 t i) / entryA2 t i := by
        field_simp
        ring
      rw [h4, one_div_div]
      nth_rewrite 1 [← hq]
      field_simp
  have e3 : ((s - wInf t i) / lineR t i s - 1) / (lineR t i s - (s - wInf t i)) = -(1 / lineR t i s) := by
    field_simp
    ring
  rw [e1, e2]
  have e3' : ((s - wInf t i) / lineR t i s - 1) / (lineR t i - fun s => s - wInf t i) s = -(1 / lineR t i s) := e3
  rw [e3']
  simp only [id, Pi.add_apply]
  ring

theorem delay_le_of_mem (hγ : 1 < γ) {s0 s1 s : ℝ} (hs : s ∈ Set.uIcc s0 s1)
    (h0 : s0 + velocity γ * lineR t i s0 < 0) (h1 : s1 + velocity γ * lineR t i s1 < 0) :
    s + velocity γ * lineR t i s < 0 := by
  have hle : s ≤ s0 ∨ s ≤ s1 := by
    rcases Set.mem_uIcc.mp hs with h | h
    · exact Or.inr h.2
    · exact Or.inl h.2
  rcases hle with h | h
  · rcases h.lt_or_eq with h | rfl
    · exact (delay_mono t i hγ h).trans h0
    · exact h0
  · rcases h.lt_or_eq with h | rfl
    · exact (delay_mono t i hγ h).trans h1
    · exact h1

include hu

/-- Integral of the interaction over a piece of the line. -/
theorem integral_line (hγ : 1 < γ) {s0 s1 : ℝ} (h : 0 < entryA2 t i ∨ (s0 < wInf t i ∧ s1 < wInf t i))
    (h0 : s0 + velocity γ * lineR t i s0 < 0) (h1 : s1 + velocity γ * lineR t i s1 < 0) :
    ∫ s in s0..s1, interaction γ (onLine (t 0) ((t i).s + s)) (t i) = lineF t i γ s1 - lineF t i γ s0 := by
  have hs : ∀ s ∈ Set.uIcc s0 s1, 0 < entryA2 t i ∨ s < wInf t i := by
    intro s hs
    rcases h with h | h
    · exact Or.inl h
    · refine Or.inr ?_
      rcases Set.mem_uIcc.mp hs with h' | h'
      · linarith [h.2]
      · linarith [h.1]
  have hw : ∀ s ∈ Set.uIcc s0 s1, s + velocity γ * lineR t i s ≠ 0 := fun s hs =>
    (delay_le_of_mem t i hγ hs h0 h1).ne
  have hR : ∀ s ∈ Set.uIcc s0 s1, lineR t i s ≠ 0 := fun s hs' => (lineR_pos t i (hs s hs')).ne'
  apply intervalIntegral.integral_eq_sub_of_hasDerivAt
  · intro s hs'
    rw [interaction_line t i hu hγ (hR s hs')]
    exact lineF_hasDeriv t i (hs s hs') (hw s hs')
  · apply ContinuousOn.intervalIntegrable
    refine ContinuousOn.congr ?_ fun s hs' => interaction_line t i hu hγ (hR s hs')
    have cR : ContinuousOn (lineR t i) (Set.uIcc s0 s1) := by
      unfold lineR
      fun_prop
    have cy : ContinuousOn (fun s : ℝ => s - wInf t i) (Set.uIcc s0 s1) := by fun_prop
    have cR2 : ContinuousOn (fun s => lineR t i s ^ 2) (Set.uIcc s0 s1) := cR.pow 2
    have hR2 : ∀ s ∈ Set.uIcc s0 s1, lineR t i s ^ 2 ≠ 0 := fun s hs' => pow_ne_zero _ (hR s hs')
    refine ((ContinuousOn.add ?_ ?_).sub ?_).sub ?_
    · exact continuousOn_const.mul (cy.div cR2 hR2)
    · exact continuousOn_const.div cR2 hR2
    · exact continuousOn_const.div cR hR
    · exact continuousOn_const.mul ((continuousOn_const.add (continuousOn_const.mul (cy.div cR hR))).div
        (continuousOn_id.add (continuousOn_const.mul cR)) hw)

open Classical in
/-- Specification: the part of the interaction with the line that is left out if the particle is
almost on the line as seen from `w1`. -/
noncomputable def leftOut (t : ℕ → Pt) (i : ℕ) (γ w1 s0 s1 : ℝ) : ℝ :=
  if entryA2 t i / shortR t γ i w1 ^ 2 > 1e-7 then 0
  else velocity γ * dot (entryUnit t i) (t i).tan
    * (Real.arctan ((s1 - wInf t i) / √(entryA2 t i)) - Real.arctan ((s0 - wInf t i) / √(entryA2 t i)))

theorem shortRange_integral (hγ : 1 < γ) {w0 w : ℝ} (w1 : ℝ) (hw0 : w0 < 0) (hw : w < 0)
    (h : 0 < entryA2 t i ∨ (shortS t γ i w0 < wInf t i ∧ shortS t γ i w < wInf t i)) :
    shortRange t γ i w0 w1 w + leftOut t i γ w1 (shortS t γ i w0) (shortS t γ i w) =
      ∫ s in shortS t γ i w0..shortS t γ i w, interaction γ (onLine (t 0) ((t i).s + s)) (t i) := by
  obtain ⟨e0, r0⟩ := shortS_spec t i hγ w0
  obtain ⟨e1, r1⟩ := shortS_spec t i hγ w
  rw [integral_line t i hu hγ h (by rw [e0]; exact hw0) (by rw [e1]; exact hw)]
  have h0 : 0 < entryA2 t i ∨ shortS t γ i w0 < wInf t i := h.imp id And.left
  have h1 : 0 < entryA2 t i ∨ shortS t γ i w < wInf t i := h.imp id And.right
  have p0 := lineR_pos t i h0
  have p1 := lineR_pos t i h1
  have g0 := lineR_gap t i h0
  have g1 := lineR_gap t i h1
  unfold lineF
  rw [e0, e1]
  unfold shortRange leftOut
  dsimp only
  rw [r0, r1, ← velocity_sq hγ, Real.log_div p0.ne' p1.ne', Real.log_div hw0.ne hw.ne,
    show wInf t i - shortS t γ i w + lineR t i (shortS t γ i w) =
      lineR t i (shortS t γ i w) - (shortS t γ i w - wInf t i) by ring,
    show wInf t i - shortS t γ i w0 + lineR t i (shortS t γ i w0) =
      lineR t i (shortS t γ i w0) - (shortS t γ i w0 - wInf t i) by ring,
    Real.log_div g1.ne' g0.ne', betaOf_eq]
  split_ifs <;> ring

end line

end WakeT.CSR
