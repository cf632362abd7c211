import Verif.Element.Symmetry
import Verif.TransferMatrix.Turned

/-! # Turned magnets (C160) -/

set_option linter.unusedSectionVars false

namespace WakeT.Element

open CSR (Elem Calc)
open Bunch (Bunch average init)
open TransferMatrix
open Diag (Diag)
open Matrix

/-- Specification: the bunch turned about the axis by the angle `φ`. -/
noncomputable def turnBunch (φ : ℝ) (b : Bunch) : Bunch :=
  { b with ph := fun i =>
      { b.ph i with
        x := Real.cos φ * (b.ph i).x - Real.sin φ * (b.ph i).y
        y := Real.sin φ * (b.ph i).x + Real.cos φ * (b.ph i).y
        px := Real.cos φ * (b.ph i).px - Real.sin φ * (b.ph i).py
        py := Real.sin φ * (b.ph i).px + Real.cos φ * (b.ph i).py } }

theorem turn_norm {c s : ℝ} (h : c ^ 2 + s ^ 2 = 1) (a b : ℝ) : (c * a - s * b) ^ 2 + (s * a + c * b) ^ 2 = a ^ 2 + b ^ 2 := by
  linear_combination (a ^ 2 + b ^ 2) * h

theorem toOcelot_turn (g : ℝ) {c s : ℝ} (h : c ^ 2 + s ^ 2 = 1) (v : V6) : toOcelot g (turn c s v) = turn c s (toOcelot g v) := by
  have h1 : 1 + turn c s v 1 ^ 2 + turn c s v 3 ^ 2 + turn c s v 5 ^ 2 = 1 + v 1 ^ 2 + v 3 ^ 2 + v 5 ^ 2 := by
    have := turn_norm h (v 1) (v 3)
    show 1 + (c * v 1 - s * v 3) ^ 2 + (s * v 1 + c * v 3) ^ 2 + v 5 ^ 2 = _
    linear_combination this
  funext i
  unfold toOcelot
  rw [h1]
  fin_cases i <;> simp [turn] <;> ring

theorem fromOcelot_turn (g : ℝ) {c s : ℝ} (h : c ^ 2 + s ^ 2 = 1) (v : V6) : fromOcelot g (turn c s v) = turn c s (fromOcelot g v) := by
  funext i
  unfold fromOcelot
  fin_cases i <;> simp [turn]
  · ring
  · ring
  · have h2 := turn_norm h (v 1) (v 3)
    congr 1
    linear_combination (-(√(g ^ 2 - 1)) ^ 2) * h2

theorem localCols_turn {φ : ℝ} {b : Bunch} (h0 : b.thetaRef = 0) (h1 : b.xRef = 0) (i : ℕ) :
    localCols (turnBunch φ b) i = turn (Real.cos φ) (Real.sin φ) (localCols b i) := by
  unfold localCols
  dsimp only
  rw [if_neg (show ¬ (turnBunch φ b).thetaRef ≠ 0 by simp [turnBunch, h0]), if_neg (show ¬ b.thetaRef ≠ 0 by simp [h0])]
  funext r
  fin_cases r <;> simp [turnBunch, Bunch.get6D, turn, h1]

theorem conj_turn (env : Env) {e e' : Elem} (csr csr' : Calc) {b : Bunch} {φ : ℝ} (hc : e.csrOn = false) (hθ : e.theta = 0)
    (h0 : b.thetaRef = 0) (h1 : b.xRef = 0) (he : e'.theta = 0 ∧ e'.length = e.length ∧ e'.nOut = e.nOut ∧ e'.csrOn = e.csrOn ∧
      e'.prints = e.prints ∧ e'.gammaRef = e.gammaRef)
    (hmap : ∀ z g v, transferMap z e'.length (-e'.theta) e'.k1 e'.k2 g e'.order (turn (Real.cos φ) (Real.sin φ) v) =
      turn (Real.cos φ) (Real.sin φ) (transferMap z e.length (-e.theta) e.k1 e.k2 g e.order v)) :
    Conj env e e' csr csr' b (gammaOf e b) (turn (Real.cos φ) (Real.sin φ)) (turnBunch φ) where
  length := he.2.1
  nOut := he.2.2.1
  csrOn := he.2.2.2.1
  prints := he.2.2.2.2.1
  gamma := rfl
  gamma' := by
    unfold gammaOf averageGamma
    rw [he.2.2.2.2.2]
    congr 1
    show average b.n _ b.w = _
    congr 1
    funext i
    rw [localCols_turn h0 h1]
    congr 1
    have := turn_norm (Real.cos_sq_add_sin_sq φ) (localCols b i 1) (localCols b i 3)
    show 1 + (Real.cos φ * localCols b i 1 - Real.sin φ * localCols b i 3) ^ 2 + (Real.sin φ * localCols b i 1 + Real.cos φ * localCols b i 3) ^ 2
      + localCols b i 5 ^ 2 = _
    linear_combination this
  cols i := by rw [localCols_turn h0 h1, toOcelot_turn _ (Real.cos_sq_add_sin_sq φ)]
  map z v := hmap z _ v
  kick h := by rw [hc] at h; cases h
  energy v k := by
    funext r
    fin_cases r <;> simp [turn]
  steps h := by rw [hc] at h; cases h
  create M l := by
    have q1 : ∀ (x : Elem) (g : ℝ), x.theta = 0 → reference (withGamma x g) 0 0 l = (0, 0) := by
      intro x g hx
      unfold reference
      rw [if_neg (show ¬ (withGamma x g).theta ≠ 0 from not_not.mpr hx), Real.sin_zero, mul_zero, add_zero]
    unfold createBunch
    dsimp only
    rw [show (turnBunch φ b).thetaRef = 0 from h0, show (turnBunch φ b).xRef = 0 from h1, h0, h1, q1 e' _ he.1, q1 e _ hθ]
    simp only [fromOcelot_turn _ (Real.cos_sq_add_sin_sq φ)]
    unfold turnBunch init
    simp [turn]
  copy _ := rfl
  take _ _ := rfl

variable (env : Env) {e : Elem} (csr csr' : Calc) {b : Bunch} (d d' : Option Diag) (o : Opts)

/-- **C160.** A drift has no preferred direction: turning the bunch by any angle before or after is the same. -/
theorem drift_turned (hc : e.csrOn = false) (hθ : e.theta = 0) (hk1 : e.k1 = 0) (hk2 : e.k2 = 0) (h0 : b.thetaRef = 0) (h1 : b.xRef = 0)
    (φ : ℝ) :
    (track env e csr' (turnBunch φ b) d' o).bunch = turnBunch φ (track env e csr b d o).bunch ∧
      (track env e csr' (turnBunch φ b) d' o).out = (track env e csr b d o).out.map (List.map (turnBunch φ)) := by
  refine track_conj (conj_turn env csr csr' hc hθ h0 h1 ⟨hθ, rfl, rfl, rfl, rfl, rfl⟩ fun z g v => ?_) d d' o
  rw [hθ, hk1, hk2, neg_zero]
  exact transferMap_drift z _ g _ (Real.cos_sq_add_sin_sq φ) v

/-- **C160.** A quadrupole turned by a right angle is a quadrupole with the opposite gradient. -/
theorem quadrupole_turned (hc : e.csrOn = false) (hθ : e.theta = 0) (hk2 : e.k2 = 0) (h0 : b.thetaRef = 0) (h1 : b.xRef = 0) :
    (track env { e with k1 := -e.k1 } csr' (turnBunch (Real.pi / 2) b) d' o).bunch = turnBunch (Real.pi / 2) (track env e csr b d o).bunch ∧
      (track env { e with k1 := -e.k1 } csr' (turnBunch (Real.pi / 2) b) d' o).out =
        (track env e csr b d o).out.map (List.map (turnBunch (Real.pi / 2))) := by
  refine track_conj (conj_turn env (e' := { e with k1 := -e.k1 }) csr csr' hc hθ h0 h1 ⟨hθ, rfl, rfl, rfl, rfl, rfl⟩ fun z g v => ?_) d d' o
  dsimp only
  rw [hθ, hk2, neg_zero, Real.cos_pi_div_two, Real.sin_pi_div_two]
  exact transferMap_quad z _ e.k1 g _ v

/-- **C160.** A sextupole turned by sixty degrees is a sextupole with the opposite strength. -/
theorem sextupole_turned (hc : e.csrOn = false) (hθ : e.theta = 0) (hk1 : e.k1 = 0) (h0 : b.thetaRef = 0) (h1 : b.xRef = 0) :
    (track env { e with k2 := -e.k2 } csr' (turnBunch (Real.pi / 3) b) d' o).bunch = turnBunch (Real.pi / 3) (track env e csr b d o).bunch ∧
      (track env { e with k2 := -e.k2 } csr' (turnBunch (Real.pi / 3) b) d' o).out =
        (track env e csr b d o).out.map (List.map (turnBunch (Real.pi / 3))) := by
  refine track_conj (conj_turn env (e' := { e with k2 := -e.k2 }) csr csr' hc hθ h0 h1 ⟨hθ, rfl, rfl, rfl, rfl, rfl⟩ fun z g v => ?_) d d' o
  dsimp only
  rw [hθ, hk1, neg_zero, Real.cos_pi_div_three, Real.sin_pi_div_three]
  refine transferMap_sext z _ e.k2 g _ ?_ v
  rw [div_pow, Real.sq_sqrt (by norm_num)]
  norm_num

/-- A quadrupole and a sextupole of second order, and a bunch on the axis. -/
example (b : Bunch) : ∃ e e' : Elem, ∃ b' : Bunch, e.csrOn = false ∧ e.theta = 0 ∧ e.k2 = 0 ∧ e.k1 ≠ 0 ∧ e.order = 2 ∧
    e'.csrOn = false ∧ e'.theta = 0 ∧ e'.k1 = 0 ∧ e'.k2 ≠ 0 ∧ e'.order = 2 ∧ b'.thetaRef = 0 ∧ b'.xRef = 0 ∧ b'.ph = b.ph :=
  ⟨⟨0, 1 / 10, 0, 3, 0, none, false, some 2, 2, true⟩, ⟨1, 1 / 10, 0, 0, 50, none, false, none, 2, true⟩, { b with thetaRef := 0, xRef := 0 },
    rfl, rfl, rfl, by norm_num, rfl, rfl, rfl, rfl, by norm_num, rfl, rfl, rfl, rfl⟩

end WakeT.Element
