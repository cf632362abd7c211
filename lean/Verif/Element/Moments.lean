import Verif.Element.Props

/-! # Energy and emittance in magnets (C149, C150) -/

set_option linter.unusedSectionVars false

namespace WakeT.Element

open CSR (Elem Calc)
open Bunch (Bunch)
open TransferMatrix
open Diag (Diag)
open Matrix

/-! ### Specification -/

/-- The Lorentz factor of particle `i`. -/
noncomputable def lorentz (b : Bunch) (i : ℕ) : ℝ := √(1 + (b.ph i).px ^ 2 + (b.ph i).py ^ 2 + (b.ph i).pz ^ 2)

/-- Offset of particle `i` from the reference orbit, in the plane of the bends. -/
noncomputable def across (b : Bunch) (i : ℕ) : ℝ :=
  Real.cos b.thetaRef * ((b.ph i).x - b.xRef) - Real.sin b.thetaRef * (b.ph i).xi

/-- Momentum of particle `i` perpendicular to the reference orbit, in the plane of the bends. -/
noncomputable def acrossP (b : Bunch) (i : ℕ) : ℝ :=
  Real.cos b.thetaRef * (b.ph i).px - Real.sin b.thetaRef * (b.ph i).pz

/-- Momentum of particle `i` along the reference orbit. -/
noncomputable def alongP (b : Bunch) (i : ℕ) : ℝ :=
  Real.sin b.thetaRef * (b.ph i).px + Real.cos b.thetaRef * (b.ph i).pz

/-- Weighted mean over the particles. -/
noncomputable def mean (n : ℕ) (w f : ℕ → ℝ) : ℝ := (∑ i ∈ Finset.range n, w i * f i) / ∑ i ∈ Finset.range n, w i

/-- Square of the normalised rms emittance of the coordinate `u` with the momentum `p`. -/
noncomputable def emittanceSq (n : ℕ) (w u p : ℕ → ℝ) : ℝ :=
  let cov (f g : ℕ → ℝ) := mean n w fun i => (f i - mean n w f) * (g i - mean n w g)
  cov u u * cov p p - cov u p ^ 2

/-! ### Lemmas -/

theorem local_eq (b : Bunch) (i : ℕ) : localCols b i =
    ![across b i, acrossP b i, (b.ph i).y, (b.ph i).py,
      Real.sin b.thetaRef * ((b.ph i).x - b.xRef) + Real.cos b.thetaRef * (b.ph i).xi, alongP b i] := by
  unfold localCols across acrossP alongP
  dsimp only
  by_cases h : b.thetaRef = 0
  · rw [if_neg (by simpa using h), h]
    funext r
    fin_cases r <;> simp [Bunch.get6D]
  · rw [if_pos h]
    funext r
    fin_cases r <;>
      simp [rotXZ, Matrix.mulVec, dotProduct, Fin.sum_univ_succ, Bunch.get6D] <;> ring

theorem lorentz_local (b : Bunch) (i : ℕ) :
    lorentz b i = √(1 + localCols b i 1 ^ 2 + localCols b i 3 ^ 2 + localCols b i 5 ^ 2) := by
  rw [local_eq]
  unfold lorentz acrossP alongP
  congr 1
  have h := Real.sin_sq_add_cos_sq b.thetaRef
  simp
  linear_combination (-((b.ph i).px ^ 2 + (b.ph i).pz ^ 2)) * h

theorem map_energy (z L t k1 k2 g : ℝ) (o : ℕ) (v : V6) : transferMap z L t k1 k2 g o v 5 = v 5 := by
  have h1 : (firstOrder z L t k1 g *ᵥ v) 5 = v 5 := by
    simp [firstOrder, Matrix.mulVec, dotProduct, Fin.sum_univ_succ]
  unfold transferMap
  split_ifs
  · show (firstOrder z L t k1 g *ᵥ v) 5 + _ = _
    rw [h1]
    have : ∀ j k, secondOrder z L t k1 k2 g 5 j k = 0 := fun j k => rfl
    simp [this]
  · exact h1

theorem map_energy_iter (z L t k1 k2 g : ℝ) (o : ℕ) (v : V6) (n : ℕ) :
    (transferMap z L t k1 k2 g o)^[n] v 5 = v 5 := by
  induction n with
  | zero => rfl
  | succ n ih => rw [Function.iterate_succ_apply', map_energy, ih]

theorem lorentz_from {g : ℝ} (hg : 1 < g) (v u : V6) (h5 : u 5 = toOcelot g v 5) (hf : 0 < fromOcelot g u 5) :
    √(1 + fromOcelot g u 1 ^ 2 + fromOcelot g u 3 ^ 2 + fromOcelot g u 5 ^ 2) =
      √(1 + v 1 ^ 2 + v 3 ^ 2 + v 5 ^ 2) := by
  have e5 : fromOcelot g u 5 = √((u 5 * g * √(1 - 1 / g ^ 2) + g) ^ 2 - (u 1 * √(g ^ 2 - 1)) ^ 2 -
      (u 3 * √(g ^ 2 - 1)) ^ 2 - 1) := rfl
  have e1 : fromOcelot g u 1 = u 1 * √(g ^ 2 - 1) := rfl
  have e3 : fromOcelot g u 3 = u 3 * √(g ^ 2 - 1) := rfl
  rw [e5] at hf
  have hpos := Real.sqrt_pos.mp hf
  rw [e5, e1, e3, Real.sq_sqrt hpos.le]
  have hb : 0 < 1 - 1 / g ^ 2 := by
    have : 1 < g ^ 2 := by nlinarith
    rw [sub_pos, div_lt_one (by positivity)]
    exact this
  have hb' := (Real.sqrt_pos.mpr hb).ne'
  have hg' : g ≠ 0 := by linarith
  have et : toOcelot g v 5 = (√(1 + v 1 ^ 2 + v 3 ^ 2 + v 5 ^ 2) - g) / (g * √(1 - 1 / g ^ 2)) := rfl
  have e : u 5 * g * √(1 - 1 / g ^ 2) + g = √(1 + v 1 ^ 2 + v 3 ^ 2 + v 5 ^ 2) := by
    rw [h5, et]
    generalize √(1 - 1 / g ^ 2) = s at hb' ⊢
    field_simp
    ring
  rw [e, Real.sq_sqrt (by positivity)]
  congr 1
  ring

theorem local_create (e : Elem) (b : Bunch) (M : Cols) (d : ℝ) (i : ℕ) :
    localCols (createBunch e b M d) i = M i := by
  have key : ∀ (t x : ℝ) (v : V6),
      (let u : V6 := fun r => if r = 0 then (if t ≠ 0 then rotXZ t *ᵥ v else v) r + x
          else (if t ≠ 0 then rotXZ t *ᵥ v else v) r
       let u : V6 := fun r => if r = 0 then u r - x else u r
       if t ≠ 0 then rotXZ (-t) *ᵥ u else u) = v := by
    intro t x v
    dsimp only
    have h1 : (fun r : Fin 6 => if r = 0 then
        (if r = 0 then (if t ≠ 0 then rotXZ t *ᵥ v else v) r + x
          else (if t ≠ 0 then rotXZ t *ᵥ v else v) r) - x
        else (if r = 0 then (if t ≠ 0 then rotXZ t *ᵥ v else v) r + x
          else (if t ≠ 0 then rotXZ t *ᵥ v else v) r)) = (if t ≠ 0 then rotXZ t *ᵥ v else v) := by
      funext r
      by_cases hr : r = 0
      · simp only [if_pos hr]; ring
      · simp only [if_neg hr]
    rw [h1]
    by_cases ht : t ≠ 0
    · simp only [if_pos ht]
      exact rotation_back t v
    · simp only [if_neg ht]
  rw [← key (reference e b.thetaRef b.xRef d).1 (reference e b.thetaRef b.xRef d).2 (M i)]
  unfold localCols
  dsimp only
  have hget : (fun r => (createBunch e b M d).get6D r i) =
      (fun r : Fin 6 => if r = 0 then (if (reference e b.thetaRef b.xRef d).1 ≠ 0 then
          rotXZ (reference e b.thetaRef b.xRef d).1 *ᵥ (M i) else M i) r
            + (reference e b.thetaRef b.xRef d).2
          else (if (reference e b.thetaRef b.xRef d).1 ≠ 0 then
          rotXZ (reference e b.thetaRef b.xRef d).1 *ᵥ (M i) else M i) r) := by
    funext r
    fin_cases r <;> rfl
  have hx : (createBunch e b M d).xRef = (reference e b.thetaRef b.xRef d).2 := rfl
  have ht : (createBunch e b M d).thetaRef = (reference e b.thetaRef b.xRef d).1 := rfl
  rw [hx, ht]
  have hget' : ∀ r, (createBunch e b M d).get6D r i = _ := fun r => congrFun hget r
  simp only [hget']

/-! ### C149 -/

/-- **C149.** Without CSR no element changes the energy of a particle: drifts, quadrupoles, dipoles, sextupoles and
general elements, to first and to second order, with any reference energy and any number of outputs.  This holds for
the bunch at the end and for all outputs, for the particles that move forward along the reference orbit there (for
the others the code takes the square root of a negative number). -/
theorem magnet_energy (env : Env) (csr : Calc) (e : Elem) (b : Bunch) (d : Option Diag) (o : Opts)
    (hcsr : e.csrOn = false) (ht : Trackable e o) (hb : o.backtrack = false)
    (hno : e.nOut = none → o.outInitial = false) (hg : 1 < gammaOf e b) (i : ℕ) :
    (0 < alongP (track env e csr b d o).bunch i → lorentz (track env e csr b d o).bunch i = lorentz b i) ∧
    ∀ outs, (track env e csr b d o).out = .ok outs → ∀ a ∈ outs, 0 < alongP a i → lorentz a i = lorentz b i := by
  have hlor : ∀ (a : Bunch) (u : V6), localCols a i = fromOcelot (gammaOf e b) u →
      u 5 = toOcelot (gammaOf e b) (localCols b i) 5 → 0 < alongP a i → lorentz a i = lorentz b i := by
    intro a u h1 h2 h3
    have h4 : alongP a i = fromOcelot (gammaOf e b) u 5 := by
      rw [← h1, local_eq]; rfl
    rw [lorentz_local, lorentz_local, h1]
    exact lorentz_from hg _ u h2 (h4 ▸ h3)
  constructor
  · rw [track_finish ht (stepFits_of_off hcsr) hb hno]
    refine hlor _ _ (localCols_finish e b _ _ i) ?_
    unfold finalCols
    rw [trackLoop_linear _ _ { e with gammaRef := some (gammaOf e b) } _ _ _ _ hcsr]
    exact map_energy_iter _ _ _ _ _ _ _ _ _
  · intro outs hout a ha hpos
    rcases hn : e.nOut with _ | N
    · have hi := hno hn
      have : (track env e csr b d o).out = .ok [] := by
        unfold track
        dsimp only
        rw [if_neg (by push Not; exact ⟨ht.nOut, ht.length⟩), if_neg (by
          simp only [Bool.and_eq_true, Bool.not_eq_true', not_and, Bool.not_eq_false]; exact ht.bar)]
        simp only [hi, Bool.false_eq_true, if_false]
        rw [trackLoop_outs]
        simp only [List.nil_append]
        rw [show ∀ l : List ℕ, l.filter (fun i => isOutput _ _ i) = [] from fun l => by
          rw [List.filter_eq_nil_iff]
          intro i _
          unfold isOutput
          rw [determineSteps_none (by exact hn)]
          simp]
        rfl
      rw [this, Except.ok.injEq] at hout
      rw [← hout] at ha
      exact absurd ha (List.not_mem_nil)
    · have hN : 1 ≤ N := by
        rcases Nat.eq_zero_or_pos N with rfl | h
        · exact absurd hn ht.nOut
        · exact h
      obtain ⟨M, -, h, hM⟩ := track_out (d := d) ht hN hn (stepFits_of_off (env := env) (csr := csr) (b := b) hcsr)
      rw [h, Except.ok.injEq] at hout
      rw [← hout, List.mem_append] at ha
      rcases ha with ha | ha
      · split_ifs at ha
        · rw [List.mem_singleton] at ha
          rw [ha]; rfl
        · exact absurd ha (List.not_mem_nil)
      · obtain ⟨k, -, rfl⟩ := List.mem_map.mp ha
        refine hlor _ _ (local_create e b _ _ i) ?_ hpos
        rw [hM hcsr]
        exact map_energy_iter _ _ _ _ _ _ _ _ _

/-- Three particles in a dipole with a quadrupole component, tracked to second order with two outputs. -/
example : ∃ (e : Elem) (o : Opts) (b : Bunch), e.theta ≠ 0 ∧ e.k1 ≠ 0 ∧ e.order = 2 ∧ b.n = 3 ∧ e.csrOn = false ∧
    Trackable e o ∧ o.backtrack = false ∧ (e.nOut = none → o.outInitial = false) ∧ 1 < gammaOf e b := by
  refine ⟨⟨0, 1 / 10, 1 / 5, 2, 3, some 1000, false, some 2, 2, true⟩, ⟨false, true, true⟩,
    { (single 0 1000) with n := 3 }, by norm_num, by norm_num, rfl, rfl, rfl, ⟨by norm_num, by simp, fun _ => rfl⟩,
    rfl, by simp, by norm_num [gammaOf]⟩

/-! ### C150 -/

theorem mean_congr {n : ℕ} {w f g : ℕ → ℝ} (h : ∀ i < n, f i = g i) : mean n w f = mean n w g := by
  unfold mean
  congr 1
  exact Finset.sum_congr rfl fun i hi => by rw [h i (Finset.mem_range.mp hi)]

theorem mean_affine {n : ℕ} {w : ℕ → ℝ} (hw : ∑ i ∈ Finset.range n, w i ≠ 0) (u p : ℕ → ℝ) (a b c : ℝ) :
    mean n w (fun i => a * u i + b * p i + c) = a * mean n w u + b * mean n w p + c := by
  unfold mean
  have : ∑ i ∈ Finset.range n, w i * (a * u i + b * p i + c) = a * ∑ i ∈ Finset.range n, w i * u i +
      b * ∑ i ∈ Finset.range n, w i * p i + c * ∑ i ∈ Finset.range n, w i := by
    rw [Finset.mul_sum, Finset.mul_sum, Finset.mul_sum, ← Finset.sum_add_distrib, ← Finset.sum_add_distrib]
    exact Finset.sum_congr rfl fun i _ => by ring
  rw [this]
  field_simp

theorem mean_quad {n : ℕ} {w : ℕ → ℝ} (f g h : ℕ → ℝ) (a b c : ℝ) :
    mean n w (fun i => a * f i + b * g i + c * h i) = a * mean n w f + b * mean n w g + c * mean n w h := by
  unfold mean
  have : ∑ i ∈ Finset.range n, w i * (a * f i + b * g i + c * h i) = a * ∑ i ∈ Finset.range n, w i * f i +
      b * ∑ i ∈ Finset.range n, w i * g i + c * ∑ i ∈ Finset.range n, w i * h i := by
    rw [Finset.mul_sum, Finset.mul_sum, Finset.mul_sum, ← Finset.sum_add_distrib, ← Finset.sum_add_distrib]
    exact Finset.sum_congr rfl fun i _ => by ring
  rw [this]
  ring

/-- The emittance is invariant under affine maps of unit determinant. -/
theorem emittance_affine {n : ℕ} {w u p u' p' : ℕ → ℝ} {a b c d k l : ℝ} (hdet : a * d - b * c = 1)
    (hu : ∀ i < n, u' i = a * u i + b * p i + k) (hp : ∀ i < n, p' i = c * u i + d * p i + l) :
    emittanceSq n w u' p' = emittanceSq n w u p := by
  by_cases hw : ∑ i ∈ Finset.range n, w i = 0
  · unfold emittanceSq mean
    simp only [hw, div_zero]
  · have mu : mean n w u' = a * mean n w u + b * mean n w p + k := by
      rw [mean_congr hu, mean_affine hw]
    have mp : mean n w p' = c * mean n w u + d * mean n w p + l := by
      rw [mean_congr hp, mean_affine hw]
    unfold emittanceSq
    dsimp only
    have huu := mean_quad (n := n) (w := w) (fun i => (u i - mean n w u) * (u i - mean n w u))
      (fun i => (u i - mean n w u) * (p i - mean n w p)) (fun i => (p i - mean n w p) * (p i - mean n w p))
    have e1 := (mean_congr (w := w) (f := fun i => (u' i - mean n w u') * (u' i - mean n w u')) (g := fun i => a ^ 2 * ((u i - mean n w u) * (u i - mean n w u)) +
        2 * a * b * ((u i - mean n w u) * (p i - mean n w p)) + b ^ 2 * ((p i - mean n w p) * (p i - mean n w p)))
        (fun i hi => by rw [hu i hi, mu]; ring)).trans
      (huu (a ^ 2) (2 * a * b) (b ^ 2))
    have e2 := (mean_congr (w := w) (f := fun i => (p' i - mean n w p') * (p' i - mean n w p')) (g := fun i => c ^ 2 * ((u i - mean n w u) * (u i - mean n w u)) +
        2 * c * d * ((u i - mean n w u) * (p i - mean n w p)) + d ^ 2 * ((p i - mean n w p) * (p i - mean n w p)))
        (fun i hi => by rw [hp i hi, mp]; ring)).trans
      (huu (c ^ 2) (2 * c * d) (d ^ 2))
    have e3 := (mean_congr (w := w) (f := fun i => (u' i - mean n w u') * (p' i - mean n w p')) (g := fun i => a * c * ((u i - mean n w u) * (u i - mean n w u)) +
        (a * d + b * c) * ((u i - mean n w u) * (p i - mean n w p)) + b * d * ((p i - mean n w p) * (p i - mean n w p)))
        (fun i hi => by rw [hu i hi, hp i hi, mu, mp]; ring)).trans
      (huu (a * c) (a * d + b * c) (b * d))
    rw [e1, e2, e3]
    generalize mean n w (fun i => (u i - mean n w u) * (u i - mean n w u)) = A
    generalize mean n w (fun i => (u i - mean n w u) * (p i - mean n w p)) = B
    generalize mean n w (fun i => (p i - mean n w p) * (p i - mean n w p)) = C
    linear_combination (A * C - B ^ 2) * (a * d - b * c + 1) * hdet

/-- **C150.** First-order tracking without CSR keeps the normalised rms emittance of every bunch: in the plane
perpendicular to the bends always (whatever the energy spread, the magnet and the reference energy); in the plane of
the bends, in the frame of the reference orbit, if the element does not bend or if all particles have the same
energy. -/
theorem emittance_kept (env : Env) (csr : Calc) (e : Elem) (b : Bunch) (d : Option Diag) (o : Opts)
    (hlin : Linear e) (ht : Trackable e o) (hb : o.backtrack = false)
    (hno : e.nOut = none → o.outInitial = false) (hg : 1 < gammaOf e b) :
    let b' := (track env e csr b d o).bunch
    emittanceSq b'.n b'.w (fun i => (b'.ph i).y) (fun i => (b'.ph i).py) =
      emittanceSq b.n b.w (fun i => (b.ph i).y) (fun i => (b.ph i).py) ∧
    ((e.theta = 0 ∨ ∃ g, ∀ i < b.n, lorentz b i = g) →
      emittanceSq b'.n b'.w (across b') (acrossP b') = emittanceSq b.n b.w (across b) (acrossP b)) := by
  intro b'
  have hb' : b' = finish e b (gammaOf e b) (fun i => firstOrder e.length e.length (-e.theta) e.k1 (gammaOf e b) *ᵥ
      (toOcelot (gammaOf e b) (localCols b i))) := by
    rw [← finalCols_linear (env := env) (csr := csr) hlin ht.nOut (Or.inr hg) false]
    exact track_finish ht (stepFits_of_off hlin.csr) hb hno
  clear_value b'
  have hl : ∀ i, localCols b' i = fromOcelot (gammaOf e b) (firstOrder e.length e.length (-e.theta) e.k1 (gammaOf e b) *ᵥ
      (toOcelot (gammaOf e b) (localCols b i))) := by
    intro i
    rw [hb']
    exact localCols_finish e b _ _ i
  have hn : b'.n = b.n := by rw [hb']; rfl
  have hw : b'.w = b.w := by rw [hb']; rfl
  set g := gammaOf e b with hgd
  have hs : 0 < √(g ^ 2 - 1) := Real.sqrt_pos.mpr (by nlinarith)
  rw [hn, hw]
  have cs : ∀ k, cosK k e.length * cosK k e.length - sinK k e.length / √(g ^ 2 - 1) *
      (-k * sinK k e.length * √(g ^ 2 - 1)) = 1 := by
    intro k
    have := cosK_sq k e.length
    field_simp
    linear_combination this
  constructor
  · refine emittance_affine (a := cosK (- e.k1) e.length) (b := sinK (-e.k1) e.length / √(g ^ 2 - 1))
      (c := -(-e.k1) * sinK (-e.k1) e.length * √(g ^ 2 - 1)) (d := cosK (-e.k1) e.length) (k := 0) (l := 0) (cs _) ?_ ?_
    · intro i _
      have h1 : (b'.ph i).y = localCols b' i 2 := by rw [local_eq]; rfl
      have h2 : (b.ph i).y = localCols b i 2 := by rw [local_eq]; rfl
      have h3 : (b.ph i).py = localCols b i 3 := by rw [local_eq]; rfl
      rw [h1, h2, h3, hl]
      simp [fromOcelot, toOcelot, firstOrder, Matrix.mulVec, dotProduct, Fin.sum_univ_succ]
      ring
    · intro i _
      have h1 : (b'.ph i).py = localCols b' i 3 := by rw [local_eq]; rfl
      have h2 : (b.ph i).y = localCols b i 2 := by rw [local_eq]; rfl
      have h3 : (b.ph i).py = localCols b i 3 := by rw [local_eq]; rfl
      rw [h1, h2, h3, hl]
      simp [fromOcelot, toOcelot, firstOrder, Matrix.mulVec, dotProduct, Fin.sum_univ_succ]
      field_simp
  · intro hcase
    set R := firstOrder e.length e.length (-e.theta) e.k1 g with hR
    -- the energy enters in the same way for all particles
    obtain ⟨δ, hδ⟩ : ∃ δ, ∀ i < b.n, R 0 5 * toOcelot g (localCols b i) 5 = R 0 5 * δ ∧
        R 1 5 * toOcelot g (localCols b i) 5 = R 1 5 * δ := by
      rcases hcase with h0 | ⟨γ, hγ⟩
      · have h1 : R 0 5 = 0 := by
          simp [hR, firstOrder, h0]
        have h2 : R 1 5 = 0 := by
          simp [hR, firstOrder, h0]
        exact ⟨0, fun i _ => by rw [h1, h2]; simp⟩
      · refine ⟨(γ - g) / (g * √(1 - 1 / g ^ 2)), fun i hi => ?_⟩
        have : toOcelot g (localCols b i) 5 = (γ - g) / (g * √(1 - 1 / g ^ 2)) := by
          rw [← hγ i hi, lorentz_local]; rfl
        rw [this]
        exact ⟨rfl, rfl⟩
    refine emittance_affine (a := R 0 0) (b := R 0 1 / √(g ^ 2 - 1)) (c := R 1 0 * √(g ^ 2 - 1)) (d := R 1 1)
      (k := R 0 5 * δ) (l := R 1 5 * δ * √(g ^ 2 - 1)) (cs (e.k1 + -e.theta / e.length * (-e.theta / e.length))) ?_ ?_
    · intro i hi
      have h1 : across b' i = localCols b' i 0 := by rw [local_eq]; rfl
      have h2 : across b i = localCols b i 0 := by rw [local_eq]; rfl
      have h3 : acrossP b i = localCols b i 1 := by rw [local_eq]; rfl
      rw [h1, h2, h3, hl, ← (hδ i hi).1]
      have : fromOcelot g (R *ᵥ toOcelot g (localCols b i)) 0 = R 0 0 * toOcelot g (localCols b i) 0 +
          R 0 1 * toOcelot g (localCols b i) 1 + R 0 5 * toOcelot g (localCols b i) 5 := by
        show (R *ᵥ toOcelot g (localCols b i)) 0 = _
        simp [hR, firstOrder, Matrix.mulVec, dotProduct, Fin.sum_univ_succ]
        ring
      rw [this]
      show R 0 0 * localCols b i 0 + R 0 1 * (localCols b i 1 / √(g ^ 2 - 1)) + _ = _
      ring
    · intro i hi
      have h1 : acrossP b' i = localCols b' i 1 := by rw [local_eq]; rfl
      have h2 : across b i = localCols b i 0 := by rw [local_eq]; rfl
      have h3 : acrossP b i = localCols b i 1 := by rw [local_eq]; rfl
      rw [h1, h2, h3, hl, ← (hδ i hi).2]
      have : fromOcelot g (R *ᵥ toOcelot g (localCols b i)) 1 = (R 1 0 * toOcelot g (localCols b i) 0 +
          R 1 1 * toOcelot g (localCols b i) 1 + R 1 5 * toOcelot g (localCols b i) 5) * √(g ^ 2 - 1) := by
        show (R *ᵥ toOcelot g (localCols b i)) 1 * √(g ^ 2 - 1) = _
        congr 1
        simp [hR, firstOrder, Matrix.mulVec, dotProduct, Fin.sum_univ_succ]
        ring
      rw [this]
      show (R 1 0 * localCols b i 0 + R 1 1 * (localCols b i 1 / √(g ^ 2 - 1)) + _) * √(g ^ 2 - 1) = _
      field_simp

/-- Two particles with different positions and momenta but of the same energy, in a dipole; the vertical emittance of
the bunch is not zero. -/
example : ∃ (e : Elem) (o : Opts) (b : Bunch), e.theta ≠ 0 ∧ Linear e ∧ Trackable e o ∧ o.backtrack = false ∧
    (e.nOut = none → o.outInitial = false) ∧ 1 < gammaOf e b ∧ (∃ g, ∀ i < b.n, lorentz b i = g) ∧
    emittanceSq b.n b.w (fun i => (b.ph i).y) (fun i => (b.ph i).py) ≠ 0 := by
  refine ⟨⟨0, 1 / 10, 1 / 5, 2, 0, some 1000, false, some 2, 1, true⟩, ⟨false, true, true⟩,
    { (single 0 1000) with
      n := 3
      w := fun _ => 1
      ph := fun i => { ((single 0 1000).ph 0) with
        y := if i = 0 then 1 else 0, py := if i = 2 then -3 else 3, px := 0, pz := 1000 } },
    by norm_num, ⟨by norm_num, rfl, by norm_num⟩, ⟨by norm_num, by simp, fun _ => rfl⟩,
    rfl, by simp, by norm_num [gammaOf], ⟨√(1 + 0 ^ 2 + 3 ^ 2 + 1000 ^ 2), fun i _ => ?_⟩, ?_⟩
  · unfold lorentz
    dsimp only
    split_ifs <;> norm_num
  · simp [emittanceSq, mean, Finset.sum_range_succ]
    norm_num

end WakeT.Element
