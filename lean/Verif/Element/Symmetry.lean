import Verif.Element.Conj
import Verif.TransferMatrix.Mirror
import Verif.CSR.Shift

/-! # Mirrored and shifted bunches in transfer-map elements -/

set_option linter.unusedSectionVars false

namespace WakeT.Element

open CSR (Elem Calc)
open Bunch (Bunch average init)
open TransferMatrix
open Diag (Diag)
open Matrix

/-- Specification: the bunch mirrored horizontally, with its reference orbit. -/
def mirrorX (b : Bunch) : Bunch :=
  { b with ph := fun i => { b.ph i with x := -(b.ph i).x, px := -(b.ph i).px }, xRef := -b.xRef, thetaRef := -b.thetaRef }

/-- Specification: the bunch mirrored vertically. -/
def mirrorY (b : Bunch) : Bunch := { b with ph := fun i => { b.ph i with y := -(b.ph i).y, py := -(b.ph i).py } }

/-- Specification: the bunch moved by `a` along the direction of the reference orbit. -/
noncomputable def moved (a : ℝ) (b : Bunch) : Bunch :=
  { b with ph := fun i => { b.ph i with x := (b.ph i).x + a * Real.sin b.thetaRef, xi := (b.ph i).xi + a * Real.cos b.thetaRef } }

theorem rotXZ_signX (t : ℝ) (v : V6) : rotXZ (-t) *ᵥ signed signX v = signed signX (rotXZ t *ᵥ v) := by
  refine mulVec_signed (fun i j => ?_) v
  unfold rotXZ
  rw [Real.sin_neg, Real.cos_neg]
  fin_cases i <;> fin_cases j <;> simp [signX]

theorem rotXZ_signY (t : ℝ) (v : V6) : rotXZ t *ᵥ signed signY v = signed signY (rotXZ t *ᵥ v) := by
  refine mulVec_signed (fun i j => ?_) v
  unfold rotXZ
  fin_cases i <;> fin_cases j <;> simp [signY]

theorem toOcelot_signX (g : ℝ) (v : V6) : toOcelot g (signed signX v) = signed signX (toOcelot g v) := by
  funext i
  unfold toOcelot signed
  fin_cases i <;> simp [signX] <;> ring

theorem toOcelot_signY (g : ℝ) (v : V6) : toOcelot g (signed signY v) = signed signY (toOcelot g v) := by
  funext i
  unfold toOcelot signed
  fin_cases i <;> simp [signY] <;> ring

theorem fromOcelot_signX (g : ℝ) (v : V6) : fromOcelot g (signed signX v) = signed signX (fromOcelot g v) := by
  funext i
  unfold fromOcelot signed
  fin_cases i <;> simp [signX]

theorem fromOcelot_signY (g : ℝ) (v : V6) : fromOcelot g (signed signY v) = signed signY (fromOcelot g v) := by
  funext i
  unfold fromOcelot signed
  fin_cases i <;> simp [signY]

theorem localCols_mirrorX (b : Bunch) (i : ℕ) : localCols (mirrorX b) i = signed signX (localCols b i) := by
  have hv : (fun r : Fin 6 => if r = 0 then (mirrorX b).get6D r i - (mirrorX b).xRef else (mirrorX b).get6D r i) =
      signed signX fun r => if r = 0 then b.get6D r i - b.xRef else b.get6D r i := by
    funext r
    fin_cases r <;> simp [mirrorX, Bunch.get6D, signed, signX]
    ring
  unfold localCols
  dsimp only
  rw [hv]
  by_cases h : b.thetaRef = 0
  · rw [if_neg (show ¬ (mirrorX b).thetaRef ≠ 0 by simp [mirrorX, h]), if_neg (show ¬ b.thetaRef ≠ 0 by simp [h])]
  · rw [if_pos h, if_pos (by simpa [mirrorX] using h), ← rotXZ_signX]
    rfl

theorem localCols_mirrorY (b : Bunch) (i : ℕ) : localCols (mirrorY b) i = signed signY (localCols b i) := by
  have hv : (fun r : Fin 6 => if r = 0 then (mirrorY b).get6D r i - (mirrorY b).xRef else (mirrorY b).get6D r i) =
      signed signY fun r => if r = 0 then b.get6D r i - b.xRef else b.get6D r i := by
    funext r
    fin_cases r <;> simp [mirrorY, Bunch.get6D, signed, signY]
  unfold localCols
  dsimp only
  rw [hv]
  by_cases h : b.thetaRef = 0
  · rw [if_neg (show ¬ (mirrorY b).thetaRef ≠ 0 by simp [mirrorY, h]), if_neg (show ¬ b.thetaRef ≠ 0 by simp [h])]
  · rw [if_pos h, if_pos (by simpa [mirrorY] using h), ← rotXZ_signY]
    rfl

theorem localCols_moved (a : ℝ) (b : Bunch) (i : ℕ) :
    localCols (moved a b) i = fun r => if r = 4 then localCols b i r + a else localCols b i r := by
  unfold localCols
  dsimp only
  by_cases h : b.thetaRef = 0
  · rw [if_neg (show ¬ (moved a b).thetaRef ≠ 0 by simp [moved, h]), if_neg (show ¬ b.thetaRef ≠ 0 by simp [h])]
    funext r
    fin_cases r <;> simp [moved, Bunch.get6D, h]
  · rw [if_pos h, if_pos (by simpa [moved] using h)]
    have hcs := Real.sin_sq_add_cos_sq b.thetaRef
    funext r
    fin_cases r <;> simp [moved, Bunch.get6D, rotXZ, mulVec, dotProduct, Fin.sum_univ_succ]
    · ring
    · linear_combination a * hcs

theorem gammaOf_congr {e e' : Elem} {b b' : Bunch} (he : e'.gammaRef = e.gammaRef) (hn : b'.n = b.n) (hw : b'.w = b.w)
    (h : ∀ i, localCols b' i 1 ^ 2 = localCols b i 1 ^ 2 ∧ localCols b' i 3 ^ 2 = localCols b i 3 ^ 2 ∧
      localCols b' i 5 ^ 2 = localCols b i 5 ^ 2) : gammaOf e' b' = gammaOf e b := by
  unfold gammaOf averageGamma
  rw [he, hn, hw]
  congr 2
  funext i
  rw [(h i).1, (h i).2.1, (h i).2.2]

theorem reference_mirror (e : Elem) (t x d : ℝ) :
    reference e.mirror (-t) (-x) d = (-(reference e t x d).1, -(reference e t x d).2) := by
  unfold reference
  by_cases h : e.theta = 0
  · rw [if_neg (by simp [CSR.Elem.mirror, h]), if_neg (by simp [h])]
    refine Prod.ext rfl ?_
    dsimp only
    rw [Real.sin_neg]
    ring
  · rw [if_pos (by simpa [CSR.Elem.mirror] using h), if_pos h]
    have h1 : e.mirror.theta * d / e.mirror.length = -(e.theta * d / e.length) := by
      simp only [CSR.Elem.mirror]
      ring
    have h2 : |e.mirror.length / e.mirror.theta| = |e.length / e.theta| := by
      simp only [CSR.Elem.mirror, div_neg, abs_neg]
    dsimp only
    rw [h1, h2, ← neg_add, Real.cos_neg, Real.cos_neg, abs_neg]
    refine Prod.ext rfl ?_
    dsimp only
    ring

/-- A mirrored element. -/
theorem conj_mirrorX (c : ℝ) (div : ℝ → ℝ → ℝ) {nBins : ℕ} (hn : 1 ≤ nBins) (e : Elem) (csr : Calc) (b : Bunch) :
    Conj (csrEnv c div nBins) e e.mirror csr csr.mirror b (gammaOf e b) (signed signX) mirrorX where
  length := rfl
  nOut := rfl
  csrOn := rfl
  prints := rfl
  gamma := rfl
  gamma' := by
    refine gammaOf_congr rfl rfl rfl fun i => ?_
    rw [localCols_mirrorX]
    refine ⟨?_, ?_, ?_⟩ <;> simp [signed, signX]
  cols i := by rw [localCols_mirrorX, toOcelot_signX]
  map z v := transferMap_signX z e.length (-e.theta) e.k1 e.k2 _ e.order v
  kick _ l M j := by
    have h1 : (withGamma e.mirror (gammaOf e b)) = (withGamma e (gammaOf e b)).mirror := rfl
    have h2 : (fun p => signed signX (M p) 4) = fun p => M p 4 := funext fun p => one_mul _
    show ((csr.mirror.add _).applyCsr c nBins _ l _ (fun p => signed signX (M p) 4) _ _).getD _ j = _
    rw [h1, CSR.add_mirror, h2, CSR.applyCsr_mirror _ c hn]
    rfl
  energy v k := by
    funext r
    fin_cases r <;> simp [signed, signX]
  steps _ := by
    have h1 : (withGamma e.mirror (gammaOf e b)) = (withGamma e (gammaOf e b)).mirror := rfl
    unfold Calc.getCsrStep
    rw [h1, CSR.add_mirror, CSR.stepsOf_mirror]
  create M l := by
    have h1 : (withGamma e.mirror (gammaOf e b)) = (withGamma e (gammaOf e b)).mirror := rfl
    unfold createBunch
    dsimp only
    rw [h1, show (mirrorX b).thetaRef = -b.thetaRef from rfl, show (mirrorX b).xRef = -b.xRef from rfl, reference_mirror]
    generalize reference (withGamma e (gammaOf e b)) b.thetaRef b.xRef l = ref
    dsimp only
    have h2 : ∀ i, (if -ref.1 ≠ 0 then rotXZ (-ref.1) *ᵥ fromOcelot (gammaOf e b) (signed signX (M i)) else
        fromOcelot (gammaOf e b) (signed signX (M i))) = signed signX (if ref.1 ≠ 0 then rotXZ ref.1 *ᵥ fromOcelot (gammaOf e b) (M i) else
          fromOcelot (gammaOf e b) (M i)) := by
      intro i
      rw [fromOcelot_signX]
      by_cases h : ref.1 = 0
      · rw [if_neg (by simp [h]), if_neg (by simp [h])]
      · rw [if_pos (by simpa using h), if_pos h, rotXZ_signX]
    simp only [h2]
    unfold mirrorX init
    simp [signed, signX]
    funext i
    ring_nf
  copy _ := rfl
  take _ _ := rfl

/-- A bunch mirrored vertically. -/
theorem conj_mirrorY (c : ℝ) (div : ℝ → ℝ → ℝ) (nBins : ℕ) (e : Elem) (csr : Calc) (b : Bunch) :
    Conj (csrEnv c div nBins) e e csr csr b (gammaOf e b) (signed signY) mirrorY where
  length := rfl
  nOut := rfl
  csrOn := rfl
  prints := rfl
  gamma := rfl
  gamma' := by
    refine gammaOf_congr rfl rfl rfl fun i => ?_
    rw [localCols_mirrorY]
    refine ⟨?_, ?_, ?_⟩ <;> simp [signed, signY]
  cols i := by rw [localCols_mirrorY, toOcelot_signY]
  map z v := transferMap_signY z e.length (-e.theta) e.k1 e.k2 _ e.order v
  kick _ l M j := by
    have h2 : (fun p => signed signY (M p) 4) = fun p => M p 4 := funext fun p => one_mul _
    show ((csr.add _).applyCsr c nBins _ l _ (fun p => signed signY (M p) 4) _ _).getD _ j = _
    rw [h2]
    rfl
  energy v k := by
    funext r
    fin_cases r <;> simp [signed, signY]
  steps _ := rfl
  create M l := by
    unfold createBunch
    dsimp only
    rw [show (mirrorY b).thetaRef = b.thetaRef from rfl, show (mirrorY b).xRef = b.xRef from rfl]
    generalize reference (withGamma e (gammaOf e b)) b.thetaRef b.xRef l = ref
    have h2 : ∀ i, (if ref.1 ≠ 0 then rotXZ ref.1 *ᵥ fromOcelot (gammaOf e b) (signed signY (M i)) else
        fromOcelot (gammaOf e b) (signed signY (M i))) = signed signY (if ref.1 ≠ 0 then rotXZ ref.1 *ᵥ fromOcelot (gammaOf e b) (M i) else
          fromOcelot (gammaOf e b) (M i)) := by
      intro i
      rw [fromOcelot_signY]
      by_cases h : ref.1 = 0
      · rw [if_neg (by simp [h]), if_neg (by simp [h])]
      · rw [if_pos h, if_pos h, rotXZ_signY]
    simp only [h2]
    unfold mirrorY init
    simp [signed, signY]
  copy _ := rfl
  take _ _ := rfl

/-- A bunch moved along the orbit. -/
theorem conj_moved (c : ℝ) (div : ℝ → ℝ → ℝ) (nBins : ℕ) (e : Elem) (csr : Calc) (b : Bunch) (a : ℝ) :
    Conj (csrEnv c div nBins) e e csr csr b (gammaOf e b) (fun v r => if r = 4 then v r + -a else v r) (moved a) where
  length := rfl
  nOut := rfl
  csrOn := rfl
  prints := rfl
  gamma := rfl
  gamma' := by
    refine gammaOf_congr rfl rfl rfl fun i => ?_
    rw [localCols_moved]
    exact ⟨rfl, rfl, rfl⟩
  cols i := by
    rw [localCols_moved]
    funext r
    unfold toOcelot
    fin_cases r <;> simp
    ring
  map z v := transferMap_shift z e.length (-e.theta) e.k1 e.k2 _ e.order v (-a)
  kick _ l M j := by
    show ((csr.add _).applyCsr c nBins _ l _ (fun p => M p 4 + -a) _ _).getD _ j = _
    rw [CSR.applyCsr_shift]
    rfl
  energy v k := by
    funext r
    fin_cases r <;> simp
  steps _ := rfl
  create M l := by
    unfold createBunch
    dsimp only
    rw [show (moved a b).thetaRef = b.thetaRef from rfl, show (moved a b).xRef = b.xRef from rfl]
    generalize reference (withGamma e (gammaOf e b)) b.thetaRef b.xRef l = ref
    have h1 : ∀ v : V6, fromOcelot (gammaOf e b) (fun r => if r = 4 then v r + -a else v r) =
        fun r => if r = 4 then fromOcelot (gammaOf e b) v r + a else fromOcelot (gammaOf e b) v r := by
      intro v
      funext r
      unfold fromOcelot
      fin_cases r <;> simp
      ring
    unfold moved init
    by_cases h : ref.1 = 0
    · simp [h, h1]
    · simp [h, h1, rotXZ, mulVec, dotProduct, Fin.sum_univ_succ]
      funext i
      congr 1 <;> ring
  copy _ := rfl
  take _ _ := rfl

end WakeT.Element
