import Verif.Element.Lemmas

/-! # Composition lemmas for elements -/

set_option linter.unusedSectionVars false

namespace WakeT.Element

open CSR (Elem Calc Divides)
open Bunch (Bunch)
open TransferMatrix
open Diag (Diag)
open Matrix

theorem iterate_compose (f : ℝ → V6 → V6) (hf : ∀ z1 z2 v, f z2 (f z1 v) = f (z1 + z2) v) (z : ℝ) (v : V6) :
    ∀ n : ℕ, 1 ≤ n → (f z)^[n] v = f (n * z) v
  | 0, h => absurd h (by omega)
  | 1, _ => by simp
  | n + 2, _ => by
    rw [Function.iterate_succ_apply', iterate_compose f hf z v (n + 1) (by omega), hf]
    congr 1
    push_cast
    ring

theorem transferMap_linear {z L theta k1 k2 g : ℝ} {order : ℕ} (h : order ≠ 2) (v : V6) :
    transferMap z L theta k1 k2 g order v = firstOrder z L theta k1 g *ᵥ v := by
  simp [transferMap, h]

theorem transferMap_compose {L theta k1 k2 g : ℝ} {order : ℕ} (h : order ≠ 2) (hL : L ≠ 0)
    (hg : GammaOk g) (z1 z2 : ℝ) (v : V6) :
    transferMap z2 L theta k1 k2 g order (transferMap z1 L theta k1 k2 g order v) =
      transferMap (z1 + z2) L theta k1 k2 g order v := by
  simp only [transferMap_linear h]
  rw [Matrix.mulVec_mulVec, first_order_compose _ _ _ _ _ _ hL hg]

theorem firstOrder_ratio {z L theta L' theta' k1 g : ℝ} (h : theta / L = theta' / L') :
    firstOrder z L theta k1 g = firstOrder z L' theta' k1 g := by
  unfold firstOrder
  rw [h]

/-- Tracking an element whose maps compose: one map over the whole length. -/
theorem finalCols_compose {env : Env} {csr : Calc} {e : Elem} {b : Bunch} (hcsr : e.csrOn = false)
    (hn : e.nOut ≠ some 0)
    (hcomp : ∀ z1 z2 v, transferMap z2 e.length (-e.theta) e.k1 e.k2 (gammaOf e b) e.order
      (transferMap z1 e.length (-e.theta) e.k1 e.k2 (gammaOf e b) e.order v) =
        transferMap (z1 + z2) e.length (-e.theta) e.k1 e.k2 (gammaOf e b) e.order v) (bt : Bool) :
    finalCols env csr e b bt = fun i =>
      transferMap e.length e.length (-e.theta) e.k1 e.k2 (gammaOf e b) e.order
        (toOcelot (gammaOf e b) (localCols b i)) := by
  unfold finalCols
  dsimp only
  rw [trackLoop_linear _ _ { e with gammaRef := some (gammaOf e b) } _ _ _ _ hcsr]
  funext i
  dsimp only
  unfold determineSteps
  dsimp only
  simp only [hcsr, Bool.false_eq_true, if_false]
  rcases h : e.nOut with _ | n
  · rfl
  · have hn1 : 1 ≤ n := by
      rcases Nat.eq_zero_or_pos n with rfl | h'
      · exact absurd h hn
      · exact h'
    dsimp only
    rw [iterate_compose (fun z => transferMap z e.length (-e.theta) e.k1 e.k2 (gammaOf e b) e.order)
      hcomp _ _ n hn1]
    have : (n : ℝ) ≠ 0 := by exact_mod_cast (by omega : n ≠ 0)
    congr 1
    field_simp

theorem finalCols_linear {env : Env} {csr : Calc} {e : Elem} {b : Bunch} (hlin : Linear e)
    (hn : e.nOut ≠ some 0) (hg : GammaOk (gammaOf e b)) (bt : Bool) :
    finalCols env csr e b bt = fun i =>
      firstOrder e.length e.length (-e.theta) e.k1 (gammaOf e b) *ᵥ
        (toOcelot (gammaOf e b) (localCols b i)) := by
  rw [finalCols_compose hlin.csr hn (fun z1 z2 v => transferMap_compose hlin.order hlin.length hg z1 z2 v)]
  funext i
  exact transferMap_linear hlin.order _

theorem stepFits_of_off {env : Env} {csr : Calc} {e : Elem} {b : Bunch} (h : e.csrOn = false) :
    StepFits env csr e b := fun h' => by rw [h] at h'; exact absurd h' Bool.false_ne_true

/-! ### The reference orbit -/

theorem reference_bend {e : Elem} (hL : 0 < e.length) (ht : e.theta ≠ 0) {dist : ℝ} (hd : 0 < dist)
    (t0 x0 : ℝ) : reference e t0 x0 dist = (t0 + e.theta * dist / e.length,
      x0 - e.length / e.theta * (Real.cos (t0 + e.theta * dist / e.length) - Real.cos t0)) := by
  unfold reference
  rw [if_pos ht]
  dsimp only
  have h1 : -(e.theta * dist / e.length) / |e.theta * dist / e.length| * |e.length / e.theta| =
      -(e.length / e.theta) := by
    have h2 : |e.theta * dist / e.length| = |e.theta| * dist / e.length := by
      rw [abs_div, abs_mul, abs_of_pos hd, abs_of_pos hL]
    rw [h2, abs_div, abs_of_pos hL]
    have h3 : |e.theta| ≠ 0 := abs_ne_zero.mpr ht
    have h4 : |e.theta| * |e.theta| = e.theta * e.theta := abs_mul_abs_self _
    field_simp
    rw [neg_inj]
    rw [sq, sq, h4]
  rw [h1]
  congr 1
  ring

theorem reference_part {e : Elem} {f : ℝ} (hf : f ≠ 0) (t0 x0 d : ℝ) :
    reference (part e f) t0 x0 d = reference e t0 x0 d := by
  unfold reference part
  dsimp only
  by_cases h : e.theta = 0
  · simp [h]
  · rw [if_pos (mul_ne_zero hf h), if_pos h]
    have h1 : f * e.theta * d / (f * e.length) = e.theta * d / e.length := by
      rw [mul_assoc, mul_div_mul_left _ _ hf]
    rw [h1, mul_div_mul_left _ _ hf]

theorem reference_add {e : Elem} (hL : 0 < e.length) {d1 d2 : ℝ} (h1 : 0 < d1) (h2 : 0 < d2) (t0 x0 : ℝ) :
    reference e (reference e t0 x0 d1).1 (reference e t0 x0 d1).2 d2 = reference e t0 x0 (d1 + d2) := by
  by_cases h : e.theta = 0
  · simp only [reference, h, ne_eq, not_true_eq_false, if_false]
    congr 1
    ring
  · rw [reference_bend hL h h1, reference_bend hL h h2, reference_bend hL h (add_pos h1 h2)]
    have h3 : t0 + e.theta * d1 / e.length + e.theta * d2 / e.length =
        t0 + e.theta * (d1 + d2) / e.length := by ring
    dsimp only
    rw [h3]
    congr 1
    ring

/-- In the frame of the next element the particles are those at the end of this one. -/
theorem localCols_finish (e : Elem) (b : Bunch) (g : ℝ) (M : Cols) (i : ℕ) :
    localCols (finish e b g M) i = fromOcelot g (M i) := by
  have key : ∀ (t x : ℝ) (v : V6),
      (let u : V6 := fun r => if r = 0 then (if t ≠ 0 then rotXZ t *ᵥ v else v) r + x
          else (if t ≠ 0 then rotXZ t *ᵥ v else v) r
       let u : V6 := fun r => if r = 0 then u r - x else u r
       if t ≠ 0 then rotXZ (-t) *ᵥ u else u) = v := by
    intro t x v
    dsimp only
    have h1 : (fun r : Fin 6 => if r = 0 then
        (if r = 0 then (if t ≠ 0 then rotXZ t *ᵥ v else v) r + x
          else (if t ≠ 0 then rotXZ t *ᵥ v else v) r) - x
        else (if r = 0 then (if t ≠ 0 then rotXZ t *ᵥ v else v) r + x
          else (if t ≠ 0 then rotXZ t *ᵥ v else v) r)) = (if t ≠ 0 then rotXZ t *ᵥ v else v) := by
      funext r
      by_cases hr : r = 0
      · simp only [if_pos hr]; ring
      · simp only [if_neg hr]
    rw [h1]
    by_cases ht : t ≠ 0
    · simp only [if_pos ht]
      exact rotation_back t v
    · simp only [if_neg ht]
  rw [← key (reference e b.thetaRef b.xRef e.length).1 (reference e b.thetaRef b.xRef e.length).2
    (fromOcelot g (M i))]
  unfold localCols
  dsimp only
  have hget : (fun r => (finish e b g M).get6D r i) =
      (fun r : Fin 6 => if r = 0 then (if (reference e b.thetaRef b.xRef e.length).1 ≠ 0 then
          rotXZ (reference e b.thetaRef b.xRef e.length).1 *ᵥ (fromOcelot g (M i)) else fromOcelot g (M i)) r
            + (reference e b.thetaRef b.xRef e.length).2
          else (if (reference e b.thetaRef b.xRef e.length).1 ≠ 0 then
          rotXZ (reference e b.thetaRef b.xRef e.length).1 *ᵥ (fromOcelot g (M i)) else fromOcelot g (M i)) r) := by
    funext r
    fin_cases r <;> rfl
  have hx : (finish e b g M).xRef = (reference e b.thetaRef b.xRef e.length).2 := rfl
  have ht : (finish e b g M).thetaRef = (reference e b.thetaRef b.xRef e.length).1 := rfl
  rw [hx, ht]
  have hget' : ∀ r, (finish e b g M).get6D r i = _ := fun r => congrFun hget r
  simp only [hget']

end WakeT.Element
