import Verif.Push.Lemmas
import Mathlib.Analysis.SpecialFunctions.Sqrt
import Mathlib.MeasureTheory.Function.Jacobian
import Mathlib.Analysis.Calculus.Deriv.Inv
import Mathlib.LinearAlgebra.Matrix.Determinant.Basic
import Mathlib.LinearAlgebra.Determinant

/-! # The Boris step conserves phase space volume (C154) -/

set_option linter.unusedSectionVars false

namespace WakeT.Push

open Fields (EB)
open MeasureTheory

/-! ### The rotation in momentum space -/

/-- Momenta. -/
abbrev Vec := Fin 3 → ℝ

namespace Volume

/-- Square of the Lorentz factor. -/
def g2 (p : Vec) : ℝ := 1 + (p 0 ^ 2 + p 1 ^ 2 + p 2 ^ 2)

theorem g2_pos (p : Vec) : 0 < g2 p := by unfold g2; positivity

/-- Half of the tangent rotation: `p + (A / gamma) p × B`. -/
noncomputable def halfTurn (A : ℝ) (B p : Vec) : Vec :=
  ![p 0 + A / √(g2 p) * (p 1 * B 2 - p 2 * B 1), p 1 + A / √(g2 p) * (p 2 * B 0 - p 0 * B 2),
    p 2 + A / √(g2 p) * (p 0 * B 1 - p 1 * B 0)]

/-- The rotation of the Boris step. -/
noncomputable def turn (A : ℝ) (B p : Vec) : Vec :=
  let a := A / √(g2 p)
  let s := 2 / (1 + (a * B 0) ^ 2 + (a * B 1) ^ 2 + (a * B 2) ^ 2)
  let q := halfTurn A B p
  ![p 0 + q 1 * (s * (a * B 2)) - q 2 * (s * (a * B 1)), p 1 + q 2 * (s * (a * B 0)) - q 0 * (s * (a * B 2)),
    p 2 + q 0 * (s * (a * B 1)) - q 1 * (s * (a * B 0))]

theorem turn_g2 (A : ℝ) (B p : Vec) : g2 (turn A B p) = g2 p := by
  simp only [turn, halfTurn]
  generalize A / √(g2 p) = a
  have h : 1 + (a * B 0) ^ 2 + (a * B 1) ^ 2 + (a * B 2) ^ 2 ≠ 0 := by positivity
  simp [g2]
  field_simp
  ring

/-- The component along the field does not change. -/
theorem turn_dot (A : ℝ) (B p : Vec) :
    turn A B p 0 * B 0 + turn A B p 1 * B 1 + turn A B p 2 * B 2 = p 0 * B 0 + p 1 * B 1 + p 2 * B 2 := by
  simp only [turn, halfTurn]
  generalize A / √(g2 p) = a
  simp
  ring

theorem turn_inv (A : ℝ) (B p : Vec) : turn (-A) B (turn A B p) = p := by
  have h1 := turn_g2 A B p
  generalize hq : turn A B p = q at h1
  simp only [turn, halfTurn, h1, neg_div]
  rw [← hq]
  simp only [turn, halfTurn]
  generalize A / √(g2 p) = a
  have h : 1 + (a * B 0) ^ 2 + (a * B 1) ^ 2 + (a * B 2) ^ 2 ≠ 0 := by positivity
  have h' : 1 + (-a * B 0) ^ 2 + (-a * B 1) ^ 2 + (-a * B 2) ^ 2 = 1 + (a * B 0) ^ 2 + (a * B 1) ^ 2 + (a * B 2) ^ 2 := by ring
  rw [h']
  funext i
  fin_cases i <;> simp <;> field_simp <;> ring

/-- The rotation takes the half turn forwards to the half turn backwards. -/
theorem halfTurn_turn (A : ℝ) (B p : Vec) : halfTurn (-A) B (turn A B p) = halfTurn A B p := by
  have h1 := turn_g2 A B p
  generalize hq : turn A B p = q at h1
  simp only [halfTurn, h1, neg_div]
  rw [← hq]
  simp only [turn, halfTurn]
  generalize A / √(g2 p) = a
  have h : 1 + (a * B 0) ^ 2 + (a * B 1) ^ 2 + (a * B 2) ^ 2 ≠ 0 := by positivity
  funext i
  fin_cases i <;> simp <;> field_simp <;> ring

/-! ### Its Jacobian -/

theorem sqrt_hasFDeriv (p : Vec) :
    HasFDerivAt (fun p : Vec => √(g2 p)) ((1 / √(g2 p)) • (p 0 • ContinuousLinearMap.proj (R := ℝ) (φ := fun _ : Fin 3 => ℝ) 0 +
      p 1 • ContinuousLinearMap.proj (R := ℝ) (φ := fun _ : Fin 3 => ℝ) 1 +
      p 2 • ContinuousLinearMap.proj (R := ℝ) (φ := fun _ : Fin 3 => ℝ) 2)) p := by
  have h : ∀ i : Fin 3, HasFDerivAt (fun p : Vec => p i) (ContinuousLinearMap.proj (R := ℝ) (φ := fun _ : Fin 3 => ℝ) i) p :=
    fun i => (ContinuousLinearMap.proj (R := ℝ) (φ := fun _ : Fin 3 => ℝ) i).hasFDerivAt
  have hg : HasFDerivAt g2 _ p := ((((h 0).pow 2).add ((h 1).pow 2)).add ((h 2).pow 2)).const_add 1
  refine (hg.sqrt (g2_pos p).ne').congr_fderiv ?_
  ext v
  have : √(g2 p) ≠ 0 := (Real.sqrt_pos.mpr (g2_pos p)).ne'
  simp
  field_simp

/-- The Jacobian matrix of the half turn. -/
noncomputable def jac (A : ℝ) (B p : Vec) : Matrix (Fin 3) (Fin 3) ℝ :=
  let a := A / √(g2 p)
  let d := -(A / √(g2 p) ^ 3)
  let cx := p 1 * B 2 - p 2 * B 1
  let cy := p 2 * B 0 - p 0 * B 2
  let cz := p 0 * B 1 - p 1 * B 0
  !![1 + d * cx * p 0, a * B 2 + d * cx * p 1, -(a * B 1) + d * cx * p 2;
     -(a * B 2) + d * cy * p 0, 1 + d * cy * p 1, a * B 0 + d * cy * p 2;
     a * B 1 + d * cz * p 0, -(a * B 0) + d * cz * p 1, 1 + d * cz * p 2]

theorem halfTurn_hasFDeriv (A : ℝ) (B p : Vec) :
    HasFDerivAt (halfTurn A B) (Matrix.toLin' (jac A B p)).toContinuousLinearMap p := by
  have h : ∀ i : Fin 3, HasFDerivAt (fun p : Vec => p i) (ContinuousLinearMap.proj (R := ℝ) (φ := fun _ : Fin 3 => ℝ) i) p :=
    fun i => (ContinuousLinearMap.proj (R := ℝ) (φ := fun _ : Fin 3 => ℝ) i).hasFDerivAt
  have hs : √(g2 p) ≠ 0 := (Real.sqrt_pos.mpr (g2_pos p)).ne'
  have ha : HasFDerivAt (fun p : Vec => A / √(g2 p)) _ p :=
    (((hasDerivAt_inv hs).comp_hasFDerivAt p (sqrt_hasFDeriv p)).const_mul A)
  have comp : ∀ i j l : Fin 3, HasFDerivAt (fun p : Vec => p i + A / √(g2 p) * (p j * B l - p l * B j)) _ p := fun i j l =>
    (h i).add (ha.mul (((h j).mul_const (B l)).sub ((h l).mul_const (B j))))
  rw [hasFDerivAt_pi']
  intro i
  fin_cases i
  · refine (comp 0 1 2).congr_fderiv ?_
    ext v
    simp [jac, Matrix.mulVec, dotProduct, Fin.sum_univ_three]
    field_simp
    ring
  · refine (comp 1 2 0).congr_fderiv ?_
    ext v
    simp [jac, Matrix.mulVec, dotProduct, Fin.sum_univ_three]
    field_simp
    ring
  · refine (comp 2 0 1).congr_fderiv ?_
    ext v
    simp [jac, Matrix.mulVec, dotProduct, Fin.sum_univ_three]
    field_simp
    ring

theorem jac_det (A : ℝ) (B p : Vec) : (jac A B p).det =
    1 + (A / √(g2 p)) ^ 2 * (B 0 ^ 2 + B 1 ^ 2 + B 2 ^ 2) - A / √(g2 p) * (A / √(g2 p) ^ 3) *
      ((g2 p - 1) * (B 0 ^ 2 + B 1 ^ 2 + B 2 ^ 2) - (p 0 * B 0 + p 1 * B 1 + p 2 * B 2) ^ 2) := by
  rw [Matrix.det_fin_three]
  simp [jac]
  generalize A / √(g2 p) = a
  generalize A / √(g2 p) ^ 3 = d
  unfold g2
  ring

theorem jac_pos (A : ℝ) (B p : Vec) : 0 < (jac A B p).det := by
  rw [jac_det]
  have hs : 0 < √(g2 p) := Real.sqrt_pos.mpr (g2_pos p)
  have e : A / √(g2 p) * (A / √(g2 p) ^ 3) * g2 p = (A / √(g2 p)) ^ 2 := by
    have := Real.sq_sqrt (g2_pos p).le
    rw [← this]
    field_simp
    rw [Real.sqrt_sq hs.le]
  have h1 : 0 ≤ A / √(g2 p) * (A / √(g2 p) ^ 3) := by
    rw [show A / √(g2 p) * (A / √(g2 p) ^ 3) = A ^ 2 / √(g2 p) ^ 4 by field_simp]
    positivity
  generalize A / √(g2 p) * (A / √(g2 p) ^ 3) = m at *
  rw [← e]
  nlinarith [mul_nonneg h1 (show 0 ≤ B 0 ^ 2 + B 1 ^ 2 + B 2 ^ 2 by positivity),
    mul_nonneg h1 (sq_nonneg (p 0 * B 0 + p 1 * B 1 + p 2 * B 2))]

theorem jac_turn (A : ℝ) (B p : Vec) : (jac (-A) B (turn A B p)).det = (jac A B p).det := by
  rw [jac_det, jac_det, turn_g2, turn_dot]
  ring

theorem g2_continuous : Continuous g2 := by unfold g2; fun_prop

theorem quot_differentiable (c : ℝ) {d : Vec → ℝ} {p : Vec} (hd : DifferentiableAt ℝ d p) (h0 : d p ≠ 0) :
    DifferentiableAt ℝ (fun p => c / d p) p :=
  (((hasDerivAt_inv h0).comp_hasFDerivAt p hd.hasFDerivAt).const_mul c).differentiableAt

theorem turn_differentiable (A : ℝ) (B : Vec) : Differentiable ℝ (turn A B) := by
  intro p
  have ha : DifferentiableAt ℝ (fun p : Vec => A / √(g2 p)) p := by
    have := (sqrt_hasFDeriv p).differentiableAt
    exact quot_differentiable A this (Real.sqrt_pos.mpr (g2_pos p)).ne'
  have hh := (halfTurn_hasFDeriv A B p).differentiableAt
  have hq : ∀ i, DifferentiableAt ℝ (fun p => halfTurn A B p i) p := fun i => differentiableAt_pi.mp hh i
  have hs : DifferentiableAt ℝ (fun p : Vec => 2 / (1 + (A / √(g2 p) * B 0) ^ 2 + (A / √(g2 p) * B 1) ^ 2 +
      (A / √(g2 p) * B 2) ^ 2)) p := by
    refine quot_differentiable 2 (d := fun p : Vec => 1 + (A / √(g2 p) * B 0) ^ 2 +
      (A / √(g2 p) * B 1) ^ 2 + (A / √(g2 p) * B 2) ^ 2) ?_ (by positivity)
    exact (((differentiableAt_const _).add ((ha.mul_const _).pow 2)).add ((ha.mul_const _).pow 2)).add ((ha.mul_const _).pow 2)
  have hp : ∀ i : Fin 3, DifferentiableAt ℝ (fun p : Vec => p i) p := fun i => differentiableAt_apply i p
  rw [differentiableAt_pi]
  intro i
  fin_cases i
  · exact ((hp 0).add ((hq 1).mul (hs.mul (ha.mul_const _)))).sub ((hq 2).mul (hs.mul (ha.mul_const _)))
  · exact ((hp 1).add ((hq 2).mul (hs.mul (ha.mul_const _)))).sub ((hq 0).mul (hs.mul (ha.mul_const _)))
  · exact ((hp 2).add ((hq 0).mul (hs.mul (ha.mul_const _)))).sub ((hq 1).mul (hs.mul (ha.mul_const _)))

theorem turn_det (A : ℝ) (B p : Vec) : (fderiv ℝ (turn A B) p).det = 1 := by
  have h1 := (halfTurn_hasFDeriv (-A) B (turn A B p)).comp p (turn_differentiable A B p).hasFDerivAt
  have h2 := halfTurn_hasFDeriv A B p
  have e : halfTurn (-A) B ∘ turn A B = halfTurn A B := funext fun p => halfTurn_turn A B p
  rw [e] at h1
  have h3 := congrArg ContinuousLinearMap.det (h1.unique h2)
  have h4 : ∀ M : Matrix (Fin 3) (Fin 3) ℝ, (Matrix.toLin' M).toContinuousLinearMap.det = M.det := fun M => by
    show LinearMap.det _ = _
    exact LinearMap.det_toLin' M
  have h5 : ∀ L L' : Vec →L[ℝ] Vec, (L.comp L').det = L.det * L'.det := fun L L' => LinearMap.det_comp _ _
  rw [h5, h4, h4, jac_turn] at h3
  exact mul_left_cancel₀ (jac_pos A B p).ne' (h3.trans (mul_one _).symm)

theorem turn_measurePreserving (A : ℝ) (B : Vec) : MeasurePreserving (turn A B) volume volume := by
  have hc : Continuous (turn A B) := (turn_differentiable A B).continuous
  refine ⟨hc.measurable, Measure.ext fun s hs => ?_⟩
  rw [Measure.map_apply hc.measurable hs]
  have h1 : turn A B ⁻¹' s = turn (-A) B '' s := by
    ext p
    constructor
    · intro hp
      exact ⟨_, hp, turn_inv A B p⟩
    · rintro ⟨q, hq, rfl⟩
      have := turn_inv (-A) B q
      rw [neg_neg] at this
      show turn A B (turn (-A) B q) ∈ s
      rwa [this]
  rw [h1, ← lintegral_abs_det_fderiv_eq_addHaar_image volume hs
    (fun p _ => ((turn_differentiable (-A) B p).hasFDerivAt).hasFDerivWithinAt)
    (fun p _ q _ h => by
      have h1 := turn_inv (-A) B p
      have h2 := turn_inv (-A) B q
      rw [← h1, h, h2])]
  simp [turn_det]

end Volume

/-! ### Specification -/

/-- Phase space: position `(x, y, xi)` and momentum `(px, py, pz)`. -/
def phase (w : Vec × Vec) : Ph := ⟨w.1 0, w.1 1, w.1 2, w.2 0, w.2 1, w.2 2⟩

/-- Regions of phase space that have a volume. -/
def Region (A : Set Ph) : Prop := MeasurableSet (phase ⁻¹' A)

/-- Volume of a region of phase space (the six-dimensional Lebesgue measure). -/
noncomputable def vol (A : Set Ph) : ENNReal := volume (phase ⁻¹' A)

/-- The map moves the particles that fill a region, one to one, to a region of the same volume. -/
structure Liouville (Φ : Ph → Ph) : Prop where
  bij : Function.Bijective Φ
  region : ∀ A, Region A → Region (Φ '' A)
  vol : ∀ A, Region A → vol (Φ '' A) = vol A

/-- The fields are measurable functions of the position at each time. -/
structure MeasurableFields (fields : List PField) : Prop where
  ex : ∀ t, Measurable fun x : Vec => (felt fields t (phase (x, 0))).ex
  ey : ∀ t, Measurable fun x : Vec => (felt fields t (phase (x, 0))).ey
  ez : ∀ t, Measurable fun x : Vec => (felt fields t (phase (x, 0))).ez
  bx : ∀ t, Measurable fun x : Vec => (felt fields t (phase (x, 0))).bx
  b_y : ∀ t, Measurable fun x : Vec => (felt fields t (phase (x, 0))).b_y
  bz : ∀ t, Measurable fun x : Vec => (felt fields t (phase (x, 0))).bz

/-! ### The parts of a step -/

namespace Volume

/-- Coordinates of a particle. -/
def coords (p : Ph) : Vec × Vec := (![p.x, p.y, p.xi], ![p.px, p.py, p.pz])

theorem phase_coords (p : Ph) : phase (coords p) = p := rfl

theorem coords_phase (w : Vec × Vec) : coords (phase w) = w := by
  refine Prod.ext ?_ ?_ <;> funext i <;> fin_cases i <;> rfl

/-- The map in coordinates. -/
def inCoords (Φ : Ph → Ph) (w : Vec × Vec) : Vec × Vec := coords (Φ (phase w))

theorem liouville_of {Φ Ψ : Ph → Ph} (h1 : ∀ p, Ψ (Φ p) = p) (h2 : ∀ p, Φ (Ψ p) = p)
    (hm : MeasurePreserving (inCoords Ψ) volume volume) : Liouville Φ := by
  have e : ∀ A : Set Ph, phase ⁻¹' (Φ '' A) = inCoords Ψ ⁻¹' (phase ⁻¹' A) := by
    intro A
    ext w
    constructor
    · rintro ⟨p, hp, hw⟩
      show phase (coords (Ψ (phase w))) ∈ A
      rw [phase_coords, ← hw, h1]
      exact hp
    · intro hw
      have hw : Ψ (phase w) ∈ A := hw
      exact ⟨_, hw, h2 _⟩
  refine ⟨⟨fun p q h => ?_, fun p => ⟨_, h2 p⟩⟩, fun A hA => ?_, fun A hA => ?_⟩
  · rw [← h1 p, h, h1]
  · unfold Region
    rw [e]
    exact hm.measurable hA
  · unfold vol
    rw [e]
    exact hm.measure_preimage hA.nullMeasurableSet

theorem inCoords_comp (Φ Ψ : Ph → Ph) : inCoords (fun p => Φ (Ψ p)) = inCoords Φ ∘ inCoords Ψ := rfl

/-- Half a drift is a shear. -/
theorem halfPush1_measurePreserving (k : Const) (dt : ℝ) : MeasurePreserving (inCoords (halfPush1 k dt)) volume volume := by
  have hg : Continuous fun p : Vec => k.c / √(1 + (p 0 ^ 2 + p 1 ^ 2 + p 2 ^ 2)) := by
    refine Continuous.div continuous_const (by fun_prop) fun p => ?_
    exact (Real.sqrt_pos.mpr (by positivity)).ne'
  let s : Vec → Vec := fun p =>
    let cg := k.c / √(1 + (p 0 ^ 2 + p 1 ^ 2 + p 2 ^ 2))
    ![1 / 2 * p 0 * dt * cg, 1 / 2 * p 1 * dt * cg, 1 / 2 * (p 2 * cg - k.c) * dt]
  have hs : Continuous s := by
    refine continuous_pi fun i => ?_
    fin_cases i
    · show Continuous fun p : Vec => 1 / 2 * p 0 * dt * (k.c / √(1 + (p 0 ^ 2 + p 1 ^ 2 + p 2 ^ 2)))
      exact (((continuous_const.mul (continuous_apply 0)).mul continuous_const).mul hg)
    · show Continuous fun p : Vec => 1 / 2 * p 1 * dt * (k.c / √(1 + (p 0 ^ 2 + p 1 ^ 2 + p 2 ^ 2)))
      exact (((continuous_const.mul (continuous_apply 1)).mul continuous_const).mul hg)
    · show Continuous fun p : Vec => 1 / 2 * (p 2 * (k.c / √(1 + (p 0 ^ 2 + p 1 ^ 2 + p 2 ^ 2))) - k.c) * dt
      exact (continuous_const.mul (((continuous_apply 2).mul hg).sub continuous_const)).mul continuous_const
  have h1 : MeasurePreserving (fun w : Vec × Vec => (w.1, w.2 + s w.1)) (volume.prod volume) (volume.prod volume) := by
    refine (MeasurePreserving.id volume).skew_product (g := fun p x => x + s p) ?_ (Filter.Eventually.of_forall fun p => ?_)
    · exact (continuous_snd.add (hs.comp continuous_fst)).measurable
    · exact (measurePreserving_add_right volume (s p)).map_eq
  have h2 := (Measure.measurePreserving_swap (μ := (volume : Measure Vec)) (ν := (volume : Measure Vec))).comp
    (h1.comp Measure.measurePreserving_swap)
  have e : inCoords (halfPush1 k dt) = Prod.swap ∘ (fun w : Vec × Vec => (w.1, w.2 + s w.1)) ∘ Prod.swap := by
    funext w
    refine Prod.ext ?_ ?_ <;> funext i <;> fin_cases i <;> rfl
  rw [e]
  exact h2

theorem turn_continuous (A : ℝ) : Continuous fun w : Vec × Vec => turn A w.1 w.2 := by
  have ha : Continuous fun w : Vec × Vec => A / √(g2 w.2) := by
    refine Continuous.div continuous_const (g2_continuous.comp continuous_snd).sqrt fun w => ?_
    exact (Real.sqrt_pos.mpr (g2_pos _)).ne'
  have hB : ∀ i, Continuous fun w : Vec × Vec => w.1 i := fun i => (continuous_apply i).comp continuous_fst
  have hp : ∀ i, Continuous fun w : Vec × Vec => w.2 i := fun i => (continuous_apply i).comp continuous_snd
  have hq : Continuous fun w : Vec × Vec => halfTurn A w.1 w.2 := by
    refine continuous_pi fun i => ?_
    fin_cases i
    · exact (hp 0).add (ha.mul (((hp 1).mul (hB 2)).sub ((hp 2).mul (hB 1))))
    · exact (hp 1).add (ha.mul (((hp 2).mul (hB 0)).sub ((hp 0).mul (hB 2))))
    · exact (hp 2).add (ha.mul (((hp 0).mul (hB 1)).sub ((hp 1).mul (hB 0))))
  have hq' : ∀ i, Continuous fun w : Vec × Vec => halfTurn A w.1 w.2 i := fun i => (continuous_apply i).comp hq
  have hs : Continuous fun w : Vec × Vec => 2 / (1 + (A / √(g2 w.2) * w.1 0) ^ 2 + (A / √(g2 w.2) * w.1 1) ^ 2 +
      (A / √(g2 w.2) * w.1 2) ^ 2) := by
    refine Continuous.div continuous_const ?_ fun w => by positivity
    exact ((continuous_const.add ((ha.mul (hB 0)).pow 2)).add ((ha.mul (hB 1)).pow 2)).add ((ha.mul (hB 2)).pow 2)
  refine continuous_pi fun i => ?_
  fin_cases i
  · exact ((hp 0).add ((hq' 1).mul (hs.mul (ha.mul (hB 2))))).sub ((hq' 2).mul (hs.mul (ha.mul (hB 1))))
  · exact ((hp 1).add ((hq' 2).mul (hs.mul (ha.mul (hB 0))))).sub ((hq' 0).mul (hs.mul (ha.mul (hB 2))))
  · exact ((hp 2).add ((hq' 0).mul (hs.mul (ha.mul (hB 1))))).sub ((hq' 1).mul (hs.mul (ha.mul (hB 0))))

/-- The change of momentum in fields that depend on the position. -/
noncomputable def kick (k : Const) (fields : List PField) (t dt : ℝ) (p : Ph) : Ph := pushMomentum1 k dt (felt fields t p) p

/-- Half of the change by the electric field. -/
noncomputable def eVec (a : ℝ) (f : EB ℝ) : Vec := ![a * f.ex, a * f.ey, a * f.ez]

/-- Magnetic field. -/
def bVec (f : EB ℝ) : Vec := ![f.bx, f.b_y, f.bz]

theorem pushMomentum1_turn (k : Const) (dt : ℝ) (f : EB ℝ) (w : Vec × Vec) :
    coords (pushMomentum1 k dt f (phase w)) = (w.1, turn (k.qmc * dt / 2 * k.c) (bVec f)
      (w.2 + eVec (k.qmc * dt / 2) f) + eVec (k.qmc * dt / 2) f) := by
  generalize ha : k.qmc * dt / 2 = a
  have hg : ∀ r : ℝ, a * k.c / r = a * (k.c / r) := fun r => by ring
  refine Prod.ext ?_ ?_
  · funext i
    fin_cases i <;> rfl
  · funext i
    fin_cases i <;> simp [coords, pushMomentum1, ha, turn, halfTurn, hg, g2, phase, eVec, bVec] <;> ring

theorem kick_eq (k : Const) (fields : List PField) (t dt : ℝ) : inCoords (kick k fields t dt) = fun w =>
    (w.1, turn (k.qmc * dt / 2 * k.c) (bVec (felt fields t (phase (w.1, 0))))
      (w.2 + eVec (k.qmc * dt / 2) (felt fields t (phase (w.1, 0)))) +
      eVec (k.qmc * dt / 2) (felt fields t (phase (w.1, 0)))) :=
  funext fun w => pushMomentum1_turn k dt (felt fields t (phase w)) w

theorem kick_preserving (A : ℝ) {E B : Vec → Vec} (hE : Measurable E) (hB : Measurable B) :
    MeasurePreserving (fun w : Vec × Vec => (w.1, turn A (B w.1) (w.2 + E w.1) + E w.1)) volume volume := by
  refine (MeasurePreserving.id (volume : Measure Vec)).skew_product (μc := (volume : Measure Vec))
    (g := fun x p => turn A (B x) (p + E x) + E x) ?_ (Filter.Eventually.of_forall fun x => ?_)
  · exact ((turn_continuous A).measurable.comp ((hB.comp measurable_fst).prodMk
      (measurable_snd.add (hE.comp measurable_fst)))).add (hE.comp measurable_fst)
  · exact ((measurePreserving_add_right volume _).comp ((turn_measurePreserving _ _).comp
      (measurePreserving_add_right volume _))).map_eq

theorem kick_measurePreserving (k : Const) {fields : List PField} (hm : MeasurableFields fields) (t dt : ℝ) :
    MeasurePreserving (inCoords (kick k fields t dt)) volume volume := by
  rw [kick_eq]
  refine kick_preserving _ (E := fun x => eVec (k.qmc * dt / 2) (felt fields t (phase (x, 0))))
    (B := fun x => bVec (felt fields t (phase (x, 0)))) ?_ ?_
  · refine measurable_pi_lambda _ fun i => ?_
    fin_cases i
    · exact (hm.ex t).const_mul _
    · exact (hm.ey t).const_mul _
    · exact (hm.ez t).const_mul _
  · refine measurable_pi_lambda _ fun i => ?_
    fin_cases i
    · exact hm.bx t
    · exact hm.b_y t
    · exact hm.bz t

theorem halfPush1_inv (k : Const) (dt : ℝ) (p : Ph) : halfPush1 k (-dt) (halfPush1 k dt p) = p := by
  unfold halfPush1
  ext <;> simp only <;> ring

theorem kick_inv (k : Const) (fields : List PField) (t dt : ℝ) (p : Ph) : kick k fields t (-dt) (kick k fields t dt p) = p := by
  have h : ∀ w, inCoords (kick k fields t (-dt)) (inCoords (kick k fields t dt) w) = w := by
    intro w
    rw [kick_eq, kick_eq]
    refine Prod.ext rfl ?_
    dsimp only
    generalize felt fields t (phase (w.1, 0)) = f
    have e1 : k.qmc * -dt / 2 = -(k.qmc * dt / 2) := by ring
    have e2 : eVec (-(k.qmc * dt / 2)) f = -eVec (k.qmc * dt / 2) f := by
      funext i
      fin_cases i <;> simp [eVec]
    rw [e1, e2, add_neg_cancel_right, neg_mul, turn_inv, add_neg_cancel_right]
  have h1 : coords (kick k fields t (-dt) (kick k fields t dt p)) = coords p := h (coords p)
  have h2 := congrArg phase h1
  rwa [phase_coords, phase_coords] at h2

end Volume

/-- **C154.** One Boris step in any measurable fields moves the particles that fill a region of phase space, one to
one, to a region of the same volume. -/
theorem borisStep_liouville (k : Const) {fields : List PField} (hm : MeasurableFields fields) (t dt : ℝ) :
    Liouville (borisStep k fields t dt) := by
  refine Volume.liouville_of
    (Ψ := fun p => halfPush1 k (-dt) (Volume.kick k fields (t + dt / 2) (-dt) (halfPush1 k (-dt) p))) ?_ ?_ ?_
  · intro p
    show halfPush1 k (-dt) (Volume.kick k fields (t + dt / 2) (-dt) (halfPush1 k (-dt)
      (halfPush1 k dt (Volume.kick k fields (t + dt / 2) dt (halfPush1 k dt p))))) = p
    rw [Volume.halfPush1_inv, Volume.kick_inv, Volume.halfPush1_inv]
  · intro p
    show halfPush1 k dt (Volume.kick k fields (t + dt / 2) dt (halfPush1 k dt
      (halfPush1 k (-dt) (Volume.kick k fields (t + dt / 2) (-dt) (halfPush1 k (-dt) p))))) = p
    have h1 := fun p => Volume.halfPush1_inv k (-dt) p
    have h2 := fun p => Volume.kick_inv k fields (t + dt / 2) (-dt) p
    rw [neg_neg] at h1 h2
    rw [h1, h2, h1]
  · exact (Volume.halfPush1_measurePreserving k (-dt)).comp
      ((Volume.kick_measurePreserving k hm (t + dt / 2) (-dt)).comp (Volume.halfPush1_measurePreserving k (-dt)))

theorem Liouville.comp {Φ Ψ : Ph → Ph} (h : Liouville Φ) (h' : Liouville Ψ) : Liouville (Φ ∘ Ψ) where
  bij := h.bij.comp h'.bij
  region A hA := by rw [Set.image_comp]; exact h.region _ (h'.region A hA)
  vol A hA := by rw [Set.image_comp, h.vol _ (h'.region A hA), h'.vol A hA]

theorem Liouville.id : Liouville _root_.id where
  bij := Function.bijective_id
  region A hA := by rwa [Set.image_id]
  vol A hA := by rw [Set.image_id]

end WakeT.Push
