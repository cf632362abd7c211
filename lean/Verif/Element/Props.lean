import Verif.Element.Lemmas2
import Verif.CSR.Props

/-! # Properties of beamline elements (C38-C42, C81-C83) -/

set_option linter.unusedSectionVars false

namespace WakeT.Element

open CSR (Elem Calc Divides Op history Identified computeSteps)
open Bunch (Bunch)
open TransferMatrix
open Diag (Diag)
open Matrix

/-! ### C38 -/

/-- The bunch at the end of an element does not depend on the number of outputs, nor on
the initial output (if there are others), the diagnostics or the CSR calculator:
first-order tracking without CSR. -/
theorem n_out_irrelevant (env : Env) (csr csr' : Calc) (e : Elem) (b : Bunch) (d d' : Option Diag)
    (o o' : Opts) (n n' : Option ℕ) (hlin : Linear e) (hg : GammaOk (gammaOf e b))
    (hb : o.backtrack = false) (hb' : o'.backtrack = false)
    (ht : Trackable { e with nOut := n } o) (ht' : Trackable { e with nOut := n' } o')
    (hi : n = none → o.outInitial = false) (hi' : n' = none → o'.outInitial = false) :
    (track env { e with nOut := n } csr b d o).bunch =
      (track env { e with nOut := n' } csr' b d' o').bunch := by
  rw [track_finish ht (stepFits_of_off hlin.csr) hb hi,
    track_finish ht' (stepFits_of_off hlin.csr) hb' hi',
    finalCols_linear (e := { e with nOut := n }) ⟨hlin.order, hlin.csr, hlin.length⟩ ht.nOut hg,
    finalCols_linear (e := { e with nOut := n' }) ⟨hlin.order, hlin.csr, hlin.length⟩ ht'.nOut hg]
  rfl

/-- The same for drifts at second order. -/
theorem n_out_irrelevant_drift (env : Env) (csr csr' : Calc) (e : Elem) (b : Bunch) (d d' : Option Diag)
    (o o' : Opts) (n n' : Option ℕ) (hcsr : e.csrOn = false) (h1 : e.theta = 0) (h2 : e.k1 = 0)
    (h3 : e.k2 = 0) (horder : e.order = 2) (hg : GammaOk (gammaOf e b))
    (hb : o.backtrack = false) (hb' : o'.backtrack = false)
    (ht : Trackable { e with nOut := n } o) (ht' : Trackable { e with nOut := n' } o')
    (hi : n = none → o.outInitial = false) (hi' : n' = none → o'.outInitial = false) :
    (track env { e with nOut := n } csr b d o).bunch =
      (track env { e with nOut := n' } csr' b d' o').bunch := by
  have hcomp : ∀ z1 z2 v, transferMap z2 e.length (-e.theta) e.k1 e.k2 (gammaOf e b) e.order
      (transferMap z1 e.length (-e.theta) e.k1 e.k2 (gammaOf e b) e.order v) =
        transferMap (z1 + z2) e.length (-e.theta) e.k1 e.k2 (gammaOf e b) e.order v := by
    intro z1 z2 v
    rw [h1, h2, h3, horder, neg_zero]
    exact second_order_drift_compose z1 z2 _ _ ht.length hg v
  rw [track_finish ht (stepFits_of_off hcsr) hb hi, track_finish ht' (stepFits_of_off hcsr) hb' hi',
    finalCols_compose (e := { e with nOut := n }) hcsr ht.nOut hcomp,
    finalCols_compose (e := { e with nOut := n' }) hcsr ht'.nOut hcomp]
  rfl

/-- A quadrupole of 0.1 m with reference energy 1000. -/
noncomputable def quad : Elem := ⟨0, 1 / 10, 0, 2, 0, some 1000, false, none, 1, true⟩

example : Linear quad ∧ GammaOk (gammaOf quad b) ∧ Trackable { quad with nOut := some 7 } ⟨false, true, true⟩ ∧
    Trackable { quad with nOut := none } forward :=
  ⟨⟨by simp [quad], rfl, by norm_num [quad]⟩, Or.inr (by norm_num [gammaOf, quad]),
    ⟨by norm_num [quad], by simp, fun _ => rfl⟩, ⟨by norm_num [quad], by simp, fun _ => rfl⟩⟩

/-! ### C39 -/

/-- Tracking with `n_out = N` returns exactly `N` bunches (one more with the initial
bunch), the `k`-th at distance `k L / N` behind the input; with and without CSR, as long as
the CSR step fits (`StepFits`; this holds for the step of a calculator that has not been
cleared, see `step_fits_fresh`). -/
theorem outputs_positions_partial (env : Env) (csr : Calc) (e : Elem) (b : Bunch) (d : Option Diag) (o : Opts)
    (N : ℕ) (hn : e.nOut = some N) (ht : Trackable e o) (hfit : StepFits env csr e b)
    (hb : o.backtrack = false) :
    ∃ outs, (track env e csr b d o).out = .ok ((if o.outInitial then [(b.copy 0).1] else []) ++ outs) ∧
      outs.length = N ∧
      ∀ k (hk : k < outs.length), outs[k].propDistance = b.propDistance + (k + 1) * (e.length / N) := by
  have hN : 1 ≤ N := by
    rcases Nat.eq_zero_or_pos N with rfl | h
    · exact absurd hn ht.nOut
    · exact h
  obtain ⟨M, -, hout, -⟩ := track_out (d := d) ht hN hn hfit
  refine ⟨_, hout, by simp, ?_⟩
  intro k hk
  rw [List.getElem_map, List.getElem_range, hb]
  simp only [createBunch, Bunch.init]
  simp

/-- On a calculator that has not been cleared after elements were added, the step fits. -/
theorem step_fits_fresh (env : Env) (hdiv : ∀ a b, env.div a b = a / b) {a t : ℝ} (ha : 0 < a) (ht : 0 < t)
    (m : ℕ) (es : List Elem) (e : Elem) (b : Bunch) (he : e.Ok)
    (hid : Identified (es ++ [{ e with gammaRef := some (gammaOf e b) }])) :
    StepFits env (history a t (List.replicate m Op.clear ++ es.map Op.add)) e b := by
  intro _
  have h1 := CSR.csr_step_partial a t m (es ++ [{ e with gammaRef := some (gammaOf e b) }]) hid
    (e := { e with gammaRef := some (gammaOf e b) }) (by simp)
  rw [List.map_append, ← List.append_assoc] at h1
  have h2 : history a t (List.replicate m Op.clear ++ es.map Op.add ++
      [Op.add { e with gammaRef := some (gammaOf e b) }]) =
      (history a t (List.replicate m Op.clear ++ es.map Op.add)).add
        { e with gammaRef := some (gammaOf e b) } := by
    simp [history, List.foldl_append, Calc.op]
  rw [List.map_cons, List.map_nil, h2] at h1
  have h3 := CSR.computeSteps_fit ha ht (e := { e with gammaRef := some (gammaOf e b) }) he
  exact ⟨_, h1, h3.2.2.1, hdiv _ _⟩

/-- The `k`-th output is the bunch that has been tracked through the first `k L / N` of
the element (first order, no CSR). -/
theorem output_is_subelement (env : Env) (csr csr' : Calc) (e : Elem) (b : Bunch) (d d' : Option Diag) (o : Opts)
    (N : ℕ) (hn : e.nOut = some N) (ht : Trackable e o) (hlin : Linear e)
    (hg : GammaOk (gammaOf e b)) (hb : o.backtrack = false) :
    ∃ outs, (track env e csr b d o).out = .ok ((if o.outInitial then [(b.copy 0).1] else []) ++ outs) ∧
      outs.length = N ∧
      ∀ k (hk : k < outs.length),
        let r := (track env (part e ((k + 1) / N)) csr' b d' forward).bunch
        SameParticles outs[k] r ∧ outs[k].propDistance = r.propDistance ∧
          outs[k].thetaRef = r.thetaRef ∧ outs[k].xRef = r.xRef := by
  have hN : 1 ≤ N := by
    rcases Nat.eq_zero_or_pos N with rfl | h
    · exact absurd hn ht.nOut
    · exact h
  have hN0 : (N : ℝ) ≠ 0 := by exact_mod_cast (by omega : N ≠ 0)
  obtain ⟨M, -, hout, hM⟩ := track_out (csr := csr) (d := d) ht hN hn (stepFits_of_off hlin.csr)
  refine ⟨_, hout, by simp, ?_⟩
  intro k hk
  have hf : ((k : ℝ) + 1) / N ≠ 0 := div_ne_zero (by positivity) hN0
  set f := ((k : ℝ) + 1) / N with hfdef
  have ht' : Trackable (part e f) forward :=
    ⟨mul_ne_zero hf ht.length, by simp [part], by simp [forward]⟩
  have hlin' : Linear (part e f) :=
    ⟨hlin.order, hlin.csr, mul_ne_zero hf hlin.length⟩
  have hdist : ((k : ℝ) + 1) * (e.length / N) * (if o.backtrack then -1 else 1) = f * e.length := by
    rw [hb, hfdef]; simp; ring
  have hcols : (fun j => fromOcelot (gammaOf e b) (M (k + 1) j)) = fun j => fromOcelot (gammaOf e b)
      (firstOrder (f * e.length) (f * e.length) (-(f * e.theta)) e.k1 (gammaOf e b) *ᵥ
        toOcelot (gammaOf e b) (localCols b j)) := by
    funext j
    rw [hM hlin.csr]
    dsimp only
    rw [iterate_compose
      (fun z => transferMap z e.length (-e.theta) e.k1 e.k2 (gammaOf e b) e.order)
      (fun z1 z2 v => transferMap_compose hlin.order hlin.length hg z1 z2 v) _ _ (k + 1) (by omega)]
    rw [transferMap_linear hlin.order, firstOrder_ratio (L' := f * e.length) (theta' := -(f * e.theta))]
    · congr 3
      push_cast
      rw [hfdef]
      ring
    · rw [neg_div, neg_div, mul_div_mul_left _ _ hf]
  dsimp only
  rw [List.getElem_map, List.getElem_range, hdist, hcols,
    track_finish ht' (stepFits_of_off hlin'.csr) rfl (fun _ => rfl),
    finalCols_linear hlin' (by simp [part]) hg]
  have hr : ∀ t x y, reference (part e f) t x y = reference e t x y :=
    fun t x y => reference_part hf t x y
  unfold finish createBunch
  dsimp only
  rw [hr]
  exact ⟨⟨rfl, rfl, rfl⟩, rfl, rfl, rfl⟩

example : ∃ e : Elem, e.csrOn = true ∧ e.Ok ∧ e.nOut = some 3 ∧
    ∀ b, Identified ([] ++ [{ e with gammaRef := some (gammaOf e b) }]) :=
  ⟨⟨0, 1, 1, 0, 0, none, true, some 3, 1, true⟩, rfl, ⟨by norm_num, by intro n h; simp at h; omega⟩, rfl,
    by intro b x hx y hy _; simp at hx hy; rw [hx, hy]⟩

/-- The claim fails for a calculator that was used and cleared: a dipole of 5 cm behind
one of 1 m and a section without CSR returns no bunch instead of one, and the
particles are not transported at all although the bunch is moved to the end. -/
theorem outputs_stale_violated (env : Env) (hdiv : ∀ a b, env.div a b = a / b) (b : Bunch) (d : Option Diag) :
    let csr := history (1 / 10) (1 / 2000) [Op.add (CSR.dipole 0 1), Op.clear]
    let e := { CSR.dipole 1 (1 / 20) with nOut := some 1 }
    (track env e csr b d forward).out = .ok [] ∧
    finalCols env csr e b false = fun i => toOcelot (gammaOf e b) (localCols b i) := by
  intro csr e
  have hstep : (csr.add { e with gammaRef := some (gammaOf e b) }).getCsrStep
      { e with gammaRef := some (gammaOf e b) } = some (1 / 10) := by
    have h1 := CSR.csr_step_stale (1 / 10) (1 / 2000) (CSR.dipole 0 1) { e with gammaRef := some (gammaOf e b) }
    have h2 : (computeSteps (1 / 10) (1 / 2000) (CSR.dipole 0 1)).1 = 1 / 10 := by
      unfold computeSteps CSR.dipole
      norm_num
    rw [h2] at h1
    exact h1
  have hst : determineSteps env (csr.add { e with gammaRef := some (gammaOf e b) })
      { e with gammaRef := some (gammaOf e b) } = (1 / 10, 0, 0) := by
    have h3 : e.csrOn = true := rfl
    have h4 : e.length = 1 / 20 := rfl
    have h5 : ⌊(1 / 20 / (1 / 10) : ℝ)⌋₊ = 0 := by rw [Nat.floor_eq_zero]; norm_num
    have h6 : e.nOut = some 1 := rfl
    unfold determineSteps
    rw [hstep]
    dsimp only
    rw [h3, h4, h6]
    simp only [if_true, Option.getD_some, hdiv, h5, Nat.zero_div]
  have hcsr' : (if e.csrOn then csr.add { e with gammaRef := some (gammaOf e b) } else csr.clear) =
      csr.add { e with gammaRef := some (gammaOf e b) } := rfl
  constructor
  · have ht : Trackable e forward := ⟨by norm_num [e, CSR.dipole], by simp [e], by simp [forward]⟩
    unfold track
    dsimp only
    rw [if_neg (by push Not; exact ⟨ht.nOut, ht.length⟩), if_neg (by simp [forward])]
    change Except.ok (trackLoop env (csr.add { e with gammaRef := some (gammaOf e b) })
      { e with gammaRef := some (gammaOf e b) } (gammaOf e b) b false
      (determineSteps env (csr.add { e with gammaRef := some (gammaOf e b) })
        { e with gammaRef := some (gammaOf e b) })
      (determineSteps env (csr.add { e with gammaRef := some (gammaOf e b) })
        { e with gammaRef := some (gammaOf e b) }).2.1 _).outs = _
    rw [hst]
    rfl
  · unfold finalCols
    dsimp only
    rw [hcsr', hst]
    rfl

/-- The claim fails in floating-point arithmetic: an arbitrarily small error of the
quotient of length and step makes a dipole of 1.1 m with five outputs return seven (in
binary64 arithmetic this happens: `int(1.1 / (0.22 / 3))` is 14). -/
theorem outputs_rounding_violated (ε : ℝ) (hε : 0 < ε) : ∃ env : Env,
    (∀ a b, |env.div a b - a / b| ≤ ε * |a / b|) ∧ ∀ (b : Bunch) (d : Option Diag),
      ∃ outs, (track env { CSR.dipole 0 (11 / 10) with nOut := some 5 }
        (Calc.new (1 / 10) (1 / 2000)) b d forward).out = .ok outs ∧ outs.length = 7 := by
  obtain ⟨δ, hδ0, hδ1, hδε⟩ : ∃ δ : ℝ, 0 < δ ∧ δ ≤ 1 / 100 ∧ δ ≤ ε :=
    ⟨min ε (1 / 100), lt_min hε (by norm_num), min_le_right _ _, min_le_left _ _⟩
  refine ⟨⟨1, fun a b => a / b * (1 - δ), fun _ _ _ _ _ _ _ _ => 0⟩, ?_, ?_⟩
  · intro a b
    have : a / b * (1 - δ) - a / b = -(δ * (a / b)) := by ring
    rw [this, abs_neg, abs_mul, abs_of_pos hδ0]
    exact mul_le_mul_of_nonneg_right hδε (abs_nonneg _)
  intro b d
  set env : Env := ⟨1, fun a b => a / b * (1 - δ), fun _ _ _ _ _ _ _ _ => 0⟩ with henv
  set e : Elem := { CSR.dipole 0 (11 / 10) with nOut := some 5 } with he
  set e' : Elem := { e with gammaRef := some (gammaOf e b) } with he'
  set csr := Calc.new (1 / 10) (1 / 2000) with hcsr
  have hstep : (csr.add e').getCsrStep e' = some (11 / 150) := by
    have h1 : (csr.add e').getCsrStep e' = some (computeSteps (1 / 10) (1 / 2000) e').1 := by
      simp [Calc.getCsrStep, Calc.stepsOf, CSR.indexOf, hcsr, Calc.new]
    have h2 : ⌈(11 / 5 : ℝ)⌉₊ = 3 := by rw [Nat.ceil_eq_iff (by norm_num)]; norm_num
    have h3 : (computeSteps (1 / 10) (1 / 2000) e').1 = 11 / 150 := by
      have h4 : e'.nOut = some 5 := rfl
      have h5 : e'.length = 11 / 10 := rfl
      unfold computeSteps
      rw [h4, h5]
      dsimp only
      have h6 : (11 / 10 : ℝ) / (5 : ℕ) / (1 / 10) = 11 / 5 := by norm_num
      rw [h6, h2]
      norm_num
    rw [h1, h3]
  have hst : determineSteps env (csr.add e') e' = (11 / 150, 14, 2) := by
    have h3 : e'.csrOn = true := rfl
    have h4 : e'.nOut = some 5 := rfl
    have h5 : e'.length = 11 / 10 := rfl
    unfold determineSteps
    simp only [h3, if_true, hstep, h4, h5, Option.getD_some, henv]
    have h6 : ⌊(11 / 10 : ℝ) / (11 / 150) * (1 - δ)⌋₊ = 14 := by
      rw [Nat.floor_eq_iff (by norm_num; linarith)]
      constructor <;> norm_num <;> linarith
    rw [h6]
  refine ⟨(trackLoop env (csr.add e') e' (gammaOf e b) b false (11 / 150, 14, 2) 14
      ⟨fun i => toOcelot (gammaOf e b) (localCols b i), [], d⟩).outs, ?_, ?_⟩
  · unfold track
    dsimp only
    rw [if_neg (by push Not; exact ⟨by simp [he], by norm_num [he, CSR.dipole]⟩), if_neg (by simp [forward])]
    change Except.ok (trackLoop env (csr.add e') e' (gammaOf e b) b false
      (determineSteps env (csr.add e') e') (determineSteps env (csr.add e') e').2.1 _).outs = _
    rw [hst]
    rfl
  · rw [trackLoop_outs, List.nil_append, List.length_map]
    rfl

/-! ### C40 -/

/-- Partial: after tracking, the bunch has been advanced by the length of the element and
its particles are those of the last output, if outputs were requested; without any output
(and without the initial one) it is advanced as well.  Missing: the initial output alone,
for which the claim fails (`bunch_updated_violated`). -/
theorem bunch_updated_partial (env : Env) (csr : Calc) (e : Elem) (b : Bunch) (d : Option Diag) (o : Opts)
    (ht : Trackable e o) (hfit : StepFits env csr e b) (hb : o.backtrack = false)
    (hno : e.nOut = none → o.outInitial = false) :
    (track env e csr b d o).bunch.propDistance = b.propDistance + e.length ∧
    (∀ outs last, (track env e csr b d o).out = .ok outs → outs.getLast? = some last →
      SameParticles (track env e csr b d o).bunch last ∧
      (track env e csr b d o).bunch.propDistance = last.propDistance ∧
      (track env e csr b d o).bunch.thetaRef = last.thetaRef ∧
      (track env e csr b d o).bunch.xRef = last.xRef) := by
  constructor
  · rw [track_finish ht hfit hb hno]
    rfl
  · intro outs last hout hlast
    have hw : last.w = b.w := by
      rcases hn : e.nOut with _ | N
      · obtain ⟨M, hM, h⟩ := track_bunch_out hout
        unfold track at hout
        dsimp only at hout
        rw [if_neg (by push Not; exact ⟨ht.nOut, ht.length⟩), if_neg (by
          simp only [Bool.and_eq_true, Bool.not_eq_true', not_and, Bool.not_eq_false]; exact ht.bar)] at hout
        simp only [hno hn, Bool.false_eq_true, if_false] at hout
        rw [trackLoop_outs, List.nil_append] at hout
        rw [show ∀ l : List ℕ, l.filter (fun i => isOutput _ _ i) = [] from fun l => by
          rw [List.filter_eq_nil_iff]
          intro i _
          unfold isOutput
          rw [determineSteps_none (by exact hn)]
          simp] at hout
        simp only [List.map_nil, Except.ok.injEq] at hout
        subst hout
        simp at hlast
      · have hN : 1 ≤ N := by
          rcases Nat.eq_zero_or_pos N with rfl | h
          · exact absurd hn ht.nOut
          · exact h
        obtain ⟨Ms, -, hout', -⟩ := track_out (d := d) ht hN hn hfit
        rw [hout] at hout'
        injection hout' with hout'
        have hm : last ∈ outs := List.mem_of_getLast? hlast
        rw [hout'] at hm
        rcases List.mem_append.mp hm with h | h
        · split_ifs at h
          · simp only [List.mem_singleton] at h
            rw [h]; rfl
          · simp at h
        · obtain ⟨k, -, rfl⟩ := List.mem_map.mp h
          rfl
    obtain ⟨M, -, h⟩ := track_bunch_out hout
    rw [h]
    unfold updateBunch
    rw [hlast]
    exact ⟨⟨rfl, rfl, hw.symm⟩, rfl, rfl, rfl⟩

/-- With the initial output and no others the bunch stays where it was. -/
theorem bunch_updated_violated (env : Env) (csr : Calc) (e : Elem) (b : Bunch) (d : Option Diag) (o : Opts)
    (ht : Trackable e o) (hn : e.nOut = none) (hi : o.outInitial = true) :
    (track env e csr b d o).bunch = b := by
  have hout : (track env e csr b d o).out = .ok [(b.copy 0).1] := by
    unfold track
    dsimp only
    rw [if_neg (by push Not; exact ⟨ht.nOut, ht.length⟩), if_neg (by
      simp only [Bool.and_eq_true, Bool.not_eq_true', not_and, Bool.not_eq_false]; exact ht.bar)]
    simp only [hi, if_true]
    rw [trackLoop_outs]
    rw [show ∀ l : List ℕ, l.filter (fun i => isOutput _ _ i) = [] from fun l => by
      rw [List.filter_eq_nil_iff]
      intro i _
      unfold isOutput
      rw [determineSteps_none (by exact hn)]
      simp]
    rfl
  obtain ⟨M, -, h⟩ := track_bunch_out hout
  rw [h]
  rfl

/-- ... although it should have moved by the length of the element. -/
example : ∃ (e : Elem) (o : Opts), Trackable e o ∧ e.nOut = none ∧ o.outInitial = true ∧ e.length ≠ 0 :=
  ⟨quad, ⟨false, true, true⟩, ⟨by norm_num [quad], by simp [quad], fun _ => rfl⟩, rfl, rfl, by norm_num [quad]⟩

/-! ### C41 -/

/-- Tracking through a list of elements one after another. -/
noncomputable def trackAll (env : Env) : List Elem → Calc → Bunch → Bunch
  | [], _, b => b
  | e :: es, csr, b => trackAll env es (track env e csr b none forward).csr
      (track env e csr b none forward).bunch

/-- The reference orbit behind an element depends on the geometry only: on length and
angle, and on the orbit before. -/
theorem reference_orbit (env : Env) (csr : Calc) (e : Elem) (b : Bunch) (d : Option Diag) (o : Opts)
    (ht : Trackable e o) (hfit : StepFits env csr e b) (hb : o.backtrack = false)
    (hno : e.nOut = none → o.outInitial = false) :
    (track env e csr b d o).bunch.thetaRef = b.thetaRef + e.theta ∧
    (0 < e.length → e.theta ≠ 0 → (track env e csr b d o).bunch.xRef = b.xRef +
      e.length / e.theta * (Real.cos b.thetaRef - Real.cos (b.thetaRef + e.theta))) ∧
    (e.theta = 0 → (track env e csr b d o).bunch.xRef = b.xRef + e.length * Real.sin b.thetaRef) := by
  rw [track_finish ht hfit hb hno]
  have h1 : (finish e b (gammaOf e b) (finalCols env csr e b false)).thetaRef =
      (reference e b.thetaRef b.xRef e.length).1 := rfl
  have h2 : (finish e b (gammaOf e b) (finalCols env csr e b false)).xRef =
      (reference e b.thetaRef b.xRef e.length).2 := rfl
  rw [h1, h2]
  refine ⟨?_, ?_, ?_⟩
  · unfold reference
    split_ifs with h
    · dsimp only
      rw [mul_div_assoc, div_self ht.length, mul_one]
    · push Not at h
      simp [h]
  · intro hL h
    rw [reference_bend hL h hL]
    dsimp only
    rw [mul_div_assoc, div_self ht.length, mul_one]
    ring
  · intro h
    simp [reference, h]

/-- Splitting an element does not change the reference orbit behind it. -/
theorem reference_split (env : Env) (csr csr1 csr2 : Calc) (e : Elem) (b : Bunch) (f : ℝ)
    (hL : 0 < e.length) (h0 : 0 < f) (h1 : f < 1) (hcsr : e.csrOn = false) (hn : e.nOut = none) :
    let b1 := (track env (part e f) csr1 b none forward).bunch
    let b2 := (track env (part e (1 - f)) csr2 b1 none forward).bunch
    b2.thetaRef = (track env e csr b none forward).bunch.thetaRef ∧
    b2.xRef = (track env e csr b none forward).bunch.xRef := by
  intro b1 b2
  have ht : Trackable e forward := ⟨hL.ne', by rw [hn]; simp, by simp [forward]⟩
  have ht1 : Trackable (part e f) forward := ⟨(mul_pos h0 hL).ne', by simp [part, hn], by simp [forward]⟩
  have ht2 : Trackable (part e (1 - f)) forward :=
    ⟨(mul_pos (by linarith) hL).ne', by simp [part, hn], by simp [forward]⟩
  have e1 : b1 = finish (part e f) b _ _ := track_finish ht1 (stepFits_of_off hcsr) rfl (fun _ => rfl)
  have e2 : b2 = finish (part e (1 - f)) b1 _ _ := track_finish ht2 (stepFits_of_off hcsr) rfl (fun _ => rfl)
  have r1 : (b1.thetaRef, b1.xRef) = reference e b.thetaRef b.xRef (f * e.length) := by
    rw [e1]; exact reference_part h0.ne' _ _ _
  have r2 : (b2.thetaRef, b2.xRef) = reference e b1.thetaRef b1.xRef ((1 - f) * e.length) := by
    rw [e2]; exact reference_part (by linarith) _ _ _
  have r3 := reference_add hL (mul_pos h0 hL) (mul_pos (by linarith : 0 < 1 - f) hL) b.thetaRef b.xRef
  rw [← r1] at r3
  dsimp only at r3
  rw [← r2] at r3
  have r4 : f * e.length + (1 - f) * e.length = e.length := by ring
  rw [r4] at r3
  rw [track_finish ht (stepFits_of_off hcsr) rfl (fun _ => rfl)]
  exact ⟨congrArg Prod.fst r3, congrArg Prod.snd r3⟩

/-- A dipole or (with angle 0) a drift. -/
noncomputable def bend (L theta : ℝ) : Elem := ⟨0, L, theta, 0, 0, none, false, none, 2, true⟩

/-- A symmetric chicane of four dipoles closes: the reference orbit returns to the axis
with zero angle, for every angle and all lengths. -/
theorem chicane_closes (env : Env) (csr : Calc) (b : Bunch) (L theta d m : ℝ) (hL : 0 < L) (hd : 0 < d)
    (hm : 0 < m) (h0 : b.thetaRef = 0) :
    let r := trackAll env [bend L theta, bend d 0, bend L (-theta), bend m 0, bend L (-theta),
      bend d 0, bend L theta] csr b
    r.thetaRef = 0 ∧ r.xRef = b.xRef := by
  have step : ∀ (l t : ℝ), 0 < l → ∀ (c : Calc) (b : Bunch),
      (track env (bend l t) c b none forward).bunch.thetaRef = b.thetaRef + t ∧
      (track env (bend l t) c b none forward).bunch.xRef = b.xRef +
        (if t = 0 then l * Real.sin b.thetaRef
          else l / t * (Real.cos b.thetaRef - Real.cos (b.thetaRef + t))) := by
    intro l t hl c b
    have ht : Trackable (bend l t) forward := ⟨hl.ne', by simp [bend], by simp [forward]⟩
    obtain ⟨a1, a2, a3⟩ := reference_orbit env c (bend l t) b none forward ht (stepFits_of_off rfl) rfl (fun _ => rfl)
    refine ⟨a1, ?_⟩
    split_ifs with h
    · exact a3 h
    · exact a2 hl h
  intro r
  have hr : r = trackAll env [bend L theta, bend d 0, bend L (-theta), bend m 0, bend L (-theta),
      bend d 0, bend L theta] csr b := rfl
  simp only [trackAll] at hr
  rw [hr]
  simp only [(step _ _ hL _ _).1, (step _ _ hd _ _).1, (step _ _ hm _ _).1, (step _ _ hL _ _).2,
    (step _ _ hd _ _).2, (step _ _ hm _ _).2, h0]
  by_cases h : theta = 0
  · simp [h]
  · simp [h, neg_eq_zero]
    field_simp
    ring

/-! ### C42 -/

/-- Partial: an element with given reference energy and without CSR can be reused; what
was tracked through it before does not matter.  Missing: elements that take the reference
energy from the bunch, for which the claim fails (`element_reuse_violated`), and CSR. -/
theorem element_reuse_partial (env : Env) (e : Elem) (g : ℝ) (hg : e.gammaRef = some g) (hcsr : e.csrOn = false)
    (uses : List (Calc × Bunch × Option Diag × Opts)) (csr csr' : Calc) (b : Bunch) (d : Option Diag) (o : Opts) :
    let e' := uses.foldl (fun e u => (track env e u.1 u.2.1 u.2.2.1 u.2.2.2).elem) e
    (track env e' csr' b d o).bunch = (track env e csr b d o).bunch ∧
    (track env e' csr' b d o).out = (track env e csr b d o).out ∧
    (track env e' csr' b d o).diag = (track env e csr b d o).diag := by
  have hel : ∀ (c : Calc) (b : Bunch) (d : Option Diag) (o : Opts), (track env e c b d o).elem = e := by
    intro c b d o
    have h1 : ({ e with gammaRef := some (e.gammaRef.getD (averageGamma b)) } : Elem) = e := by
      rcases e with ⟨⟩
      simp only [Elem.mk.injEq, true_and, and_true] at hg ⊢
      simp [hg]
    rw [track_elem]
    exact h1
  have he' : uses.foldl (fun e u => (track env e u.1 u.2.1 u.2.2.1 u.2.2.2).elem) e = e := by
    induction uses with
    | nil => rfl
    | cons u us ih => rw [List.foldl_cons, hel]; exact ih
  intro e'
  have he'' : e' = e := he'
  rw [he'']
  have hd : ∀ c c' : Calc, determineSteps env c { e with gammaRef := some (gammaOf e b) } =
      determineSteps env c' { e with gammaRef := some (gammaOf e b) } := by
    intro c c'
    unfold determineSteps
    simp [hcsr]
  have hl : ∀ (c c' : Calc) (bt : Bool) (st : ℝ × ℕ × ℕ) (n : ℕ) (s : Loop),
      trackLoop env c { e with gammaRef := some (gammaOf e b) } (gammaOf e b) b bt st n s =
      trackLoop env c' { e with gammaRef := some (gammaOf e b) } (gammaOf e b) b bt st n s := by
    intro c c' bt st n s
    induction n with
    | zero => rfl
    | succ n ih =>
      rw [trackLoop, trackLoop, ih]
      unfold trackStep
      simp [hcsr]
  have hmain : ∀ c c' : Calc, (track env e c b d o).bunch = (track env e c' b d o).bunch ∧
      (track env e c b d o).out = (track env e c' b d o).out ∧
      (track env e c b d o).diag = (track env e c' b d o).diag := by
    intro c c'
    unfold track
    dsimp only
    by_cases h1 : e.nOut = some 0 ∨ e.length = 0
    · simp only [if_pos h1, and_self]
    · simp only [if_neg h1]
      by_cases h2 : (o.bar && !e.prints) = true
      · simp only [if_pos h2, and_self]
      · simp only [if_neg h2]
        have hd' := hd (if e.csrOn then c.add { e with gammaRef := some (gammaOf e b) } else c.clear)
          (if e.csrOn then c'.add { e with gammaRef := some (gammaOf e b) } else c'.clear)
        have hl' := hl (if e.csrOn then c.add { e with gammaRef := some (gammaOf e b) } else c.clear)
          (if e.csrOn then c'.add { e with gammaRef := some (gammaOf e b) } else c'.clear)
        unfold gammaOf at hd' hl'
        rw [hd', hl']
        exact ⟨rfl, rfl, rfl⟩
  exact hmain csr' csr

/-- A bunch of one particle with the given momenta. -/
noncomputable def single (px pz : ℝ) : Bunch :=
  (Bunch.init 1 (fun _ => 1) (fun _ => ⟨0, 0, 0, px, 0, pz⟩) none 0 0 none (some "b") (-1) 1 0).1

theorem gamma_single (px pz : ℝ) : averageGamma (single px pz) = √(1 + px ^ 2 + pz ^ 2) := by
  simp [averageGamma, Bunch.average, single, Bunch.init, localCols, Bunch.get6D]

/-- First-order drift of a particle that starts on axis. -/
theorem drift_single (env : Env) (csr : Calc) (e : Elem) (he : e.theta = 0) (hk : e.k1 = 0)
    (hlin : Linear e) (hn : e.nOut = none) (px pz : ℝ) (hg : GammaOk (gammaOf e (single px pz))) :
    ((track env e csr (single px pz) none forward).bunch.ph 0).x =
      e.length * (px / √(gammaOf e (single px pz) ^ 2 - 1)) := by
  rw [track_finish ⟨hlin.length, by rw [hn]; simp, by simp [forward]⟩ (stepFits_of_off hlin.csr) rfl
    (fun _ => rfl), finalCols_linear hlin (by rw [hn]; simp) hg]
  have h1 : (single px pz).thetaRef = 0 := rfl
  have h2 : (single px pz).xRef = 0 := rfl
  have h3 : toOcelot (gammaOf e (single px pz)) (localCols (single px pz) 0) 0 = 0 := by
    simp [toOcelot, localCols, single, Bunch.init, Bunch.get6D]
  have h4 : toOcelot (gammaOf e (single px pz)) (localCols (single px pz) 0) 1 =
      px / √(gammaOf e (single px pz) ^ 2 - 1) := by
    simp [toOcelot, localCols, single, Bunch.init, Bunch.get6D]
  generalize hg' : gammaOf e (single px pz) = g at *
  simp only [finish, createBunch, Bunch.init, reference, he, ne_eq, not_true_eq_false, if_false, h1, h2]
  rw [firstOrder_mulVec]
  simp [fromOcelot, hk, h3, h4, neg_zero]

/-- A drift without given reference energy: a bunch that was tracked before changes the
result for the next one. -/
theorem element_reuse_violated (env : Env) (csr : Calc) :
    ∃ (e : Elem) (b b' : Bunch), e.gammaRef = none ∧ Linear e ∧ Trackable e forward ∧
      (track env (track env e csr b' none forward).elem (track env e csr b' none forward).csr b none forward).bunch ≠
        (track env e csr b none forward).bunch := by
  set e : Elem := ⟨0, 1, 0, 0, 0, none, false, none, 1, true⟩ with he
  have hlin : Linear e := ⟨by simp [he], rfl, by norm_num [he]⟩
  have h2 : √(1 + (1 : ℝ) ^ 2 + √2 ^ 2) = 2 := by
    rw [Real.sq_sqrt (by norm_num), show (1 + 1 ^ 2 + 2 : ℝ) = 2 ^ 2 by norm_num, Real.sqrt_sq (by norm_num)]
  have h3 : √(1 + (0 : ℝ) ^ 2 + √8 ^ 2) = 3 := by
    rw [Real.sq_sqrt (by norm_num), show (1 + 0 ^ 2 + 8 : ℝ) = 3 ^ 2 by norm_num, Real.sqrt_sq (by norm_num)]
  have hgb : gammaOf e (single 1 √2) = 2 := by rw [gammaOf, he]; simp only [Option.getD_none]; rw [gamma_single, h2]
  have hgb' : averageGamma (single 0 √8) = 3 := by rw [gamma_single, h3]
  refine ⟨e, single 1 √2, single 0 √8, rfl, hlin, ⟨by norm_num [he], by simp [he], by simp [forward]⟩, ?_⟩
  have hel : (track env e csr (single 0 √8) none forward).elem = { e with gammaRef := some 3 } := by
    unfold track
    dsimp only
    rw [if_neg (by push Not; exact ⟨by simp [he], by norm_num [he]⟩), if_neg (by simp [forward])]
    simp only [he, Option.getD_none, hgb']
  intro hcon
  have hx := congrArg (fun b : Bunch => (b.ph 0).x) hcon
  beta_reduce at hx
  rw [hel, drift_single env csr e rfl rfl hlin rfl 1 √2 (by rw [hgb]; exact Or.inr (by norm_num)),
    drift_single env _ { e with gammaRef := some 3 } rfl rfl ⟨hlin.order, hlin.csr, hlin.length⟩ rfl 1 √2
      (Or.inr (by simp only [gammaOf, Option.getD_some]; norm_num)), hgb] at hx
  simp only [gammaOf, Option.getD_some, he, one_mul] at hx
  norm_num at hx

/-! ### C81: splitting an element -/

/-- Tracking through two parts of an element gives the same bunch as tracking through the
whole one: first order, given reference energy, no CSR, provided that every particle still
moves forward where the element is cut. -/
theorem split_element (env : Env) (csr csr1 csr2 : Calc) (e : Elem) (b : Bunch) (f g : ℝ) (hlin : Linear e)
    (hn : e.nOut = none) (hL : 0 < e.length) (h0 : 0 < f) (h1 : f < 1) (hgam : e.gammaRef = some g)
    (hg : 1 < g)
    (hfwd : ∀ i, 0 < localCols (track env (part e f) csr1 b none forward).bunch i 5) :
    (track env (part e (1 - f)) csr2 (track env (part e f) csr1 b none forward).bunch none forward).bunch =
      (track env e csr b none forward).bunch := by
  have hlin1 : Linear (part e f) := ⟨hlin.order, hlin.csr, (mul_pos h0 hL).ne'⟩
  have hlin2 : Linear (part e (1 - f)) := ⟨hlin.order, hlin.csr, (mul_pos (by linarith) hL).ne'⟩
  have ht : Trackable e forward := ⟨hL.ne', by rw [hn]; simp, by simp [forward]⟩
  have ht1 : Trackable (part e f) forward := ⟨hlin1.length, by simp [part, hn], by simp [forward]⟩
  have ht2 : Trackable (part e (1 - f)) forward := ⟨hlin2.length, by simp [part, hn], by simp [forward]⟩
  have hga : ∀ x b, gammaOf (part e x) b = g := fun x b => by simp [gammaOf, part, hgam]
  have hga0 : ∀ b, gammaOf e b = g := fun b => by simp [gammaOf, hgam]
  have hG : GammaOk g := Or.inr hg
  have e1 : (track env (part e f) csr1 b none forward).bunch = finish (part e f) b g (fun i =>
      firstOrder (f * e.length) e.length (-e.theta) e.k1 g *ᵥ toOcelot g (localCols b i)) := by
    rw [track_finish ht1 (stepFits_of_off hlin.csr) rfl (fun _ => rfl),
      finalCols_linear hlin1 ht1.nOut (by rw [hga]; exact hG), hga]
    have := firstOrder_ratio (z := f * e.length) (k1 := e.k1) (g := g) (L := f * e.length)
      (theta := -(f * e.theta)) (L' := e.length) (theta' := -e.theta)
      (by rw [neg_div, neg_div, mul_div_mul_left _ _ h0.ne'])
    simp only [part, this]
  rw [e1] at hfwd ⊢
  set M : Cols := fun i => firstOrder (f * e.length) e.length (-e.theta) e.k1 g *ᵥ toOcelot g (localCols b i) with hM
  have hback : ∀ i, toOcelot g (localCols (finish (part e f) b g M) i) = M i := by
    intro i
    have hf := hfwd i
    rw [localCols_finish] at hf ⊢
    have h5 : M i 5 = toOcelot g (localCols b i) 5 := by
      rw [hM]
      simp only
      rw [firstOrder_mulVec]
      rfl
    apply ocelot_roundtrip' g hg
    · rw [h5]
      have hb0 : (0 : ℝ) < g * √(1 - 1 / g ^ 2) := by
        apply mul_pos (by linarith) (Real.sqrt_pos.mpr _)
        rw [sub_pos, div_lt_one (by positivity)]
        nlinarith
      have : toOcelot g (localCols b i) 5 * g * √(1 - 1 / g ^ 2) + g =
          √(1 + localCols b i 1 ^ 2 + localCols b i 3 ^ 2 + localCols b i 5 ^ 2) := by
        have h6 : toOcelot g (localCols b i) 5 =
            (√(1 + localCols b i 1 ^ 2 + localCols b i 3 ^ 2 + localCols b i 5 ^ 2) - g) / (g * √(1 - 1 / g ^ 2)) := rfl
        rw [h6, mul_assoc, div_mul_cancel₀ _ hb0.ne']
        ring
      rw [this]
      exact Real.sqrt_nonneg _
    · have h6 : fromOcelot g (M i) 5 = √((M i 5 * g * √(1 - 1 / g ^ 2) + g) ^ 2
          - (M i 1 * √(g ^ 2 - 1)) ^ 2 - (M i 3 * √(g ^ 2 - 1)) ^ 2 - 1) := rfl
      rw [h6, Real.sqrt_pos] at hf
      have h7 : √(g ^ 2 - 1) ^ 2 = g ^ 2 - 1 := Real.sq_sqrt (by nlinarith)
      nlinarith [hf, h7]
  rw [track_finish ht2 (stepFits_of_off hlin.csr) rfl (fun _ => rfl),
    finalCols_linear hlin2 ht2.nOut (by rw [hga]; exact hG), hga,
    track_finish ht (stepFits_of_off hlin.csr) rfl (fun _ => rfl),
    finalCols_linear hlin ht.nOut (by rw [hga0]; exact hG), hga0]
  have hcols : (fun i => firstOrder (part e (1 - f)).length (part e (1 - f)).length (-(part e (1 - f)).theta)
      (part e (1 - f)).k1 g *ᵥ toOcelot g (localCols (finish (part e f) b g M) i)) =
      fun i => firstOrder e.length e.length (-e.theta) e.k1 g *ᵥ toOcelot g (localCols b i) := by
    funext i
    rw [hback, hM]
    simp only [part]
    rw [firstOrder_ratio (L := (1 - f) * e.length) (theta := -((1 - f) * e.theta)) (L' := e.length)
      (theta' := -e.theta) (by rw [neg_div, neg_div, mul_div_mul_left _ _ (by linarith)]),
      Matrix.mulVec_mulVec, ← first_order_compose _ _ _ _ _ _ hL.ne' hG]
    congr 2
    ring
  rw [hcols]
  have hr1 : ∀ t x y, reference (part e f) t x y = reference e t x y := fun t x y => reference_part h0.ne' t x y
  have hr2 : ∀ t x y, reference (part e (1 - f)) t x y = reference e t x y :=
    fun t x y => reference_part (by linarith) t x y
  have hr3 := reference_add hL (mul_pos h0 hL) (mul_pos (by linarith : 0 < 1 - f) hL) b.thetaRef b.xRef
  have hr4 : f * e.length + (1 - f) * e.length = e.length := by ring
  rw [hr4] at hr3
  have hl1 : (part e f).length = f * e.length := rfl
  have hl2 : (part e (1 - f)).length = (1 - f) * e.length := rfl
  have hp : b.propDistance + f * e.length + (1 - f) * e.length = b.propDistance + e.length := by ring
  unfold finish createBunch
  simp only [hr1, hr2, hl1, hl2, Bunch.init]
  rw [hr3, hp]

/-- Not vacuous: a particle on axis moves forward all along. -/
example (env : Env) (csr : Calc) :
    0 < localCols (track env (part quad (1 / 2)) csr (single 0 √8) none forward).bunch 0 5 := by
  have hlin1 : Linear (part quad (1 / 2)) := ⟨by simp [part, quad], rfl, by norm_num [part, quad]⟩
  have hg : gammaOf (part quad (1 / 2)) (single 0 √8) = 1000 := rfl
  rw [track_finish ⟨hlin1.length, by simp [part, quad], by simp [forward]⟩ (stepFits_of_off rfl) rfl (fun _ => rfl),
    localCols_finish, finalCols_linear hlin1 (by simp [part, quad]) (by rw [hg]; exact Or.inr (by norm_num)), hg]
  beta_reduce
  rw [firstOrder_mulVec]
  have h0 : localCols (single 0 √8) 0 = ![0, 0, 0, 0, 0, √8] := by
    funext r
    fin_cases r <;> simp [localCols, single, Bunch.init, Bunch.get6D]
  have hb0 : (0 : ℝ) < 1000 * √(1 - 1 / 1000 ^ 2) := by
    apply mul_pos (by norm_num) (Real.sqrt_pos.mpr _)
    norm_num
  have h5 : √(1 + (0 : ℝ) ^ 2 + 0 ^ 2 + √8 ^ 2) = 3 := by
    rw [Real.sq_sqrt (by norm_num), show (1 + 0 ^ 2 + 0 ^ 2 + 8 : ℝ) = 3 ^ 2 by norm_num, Real.sqrt_sq (by norm_num)]
  have hto : toOcelot 1000 ![0, 0, 0, 0, 0, √8] = ![0, 0, 0, 0, 0, (3 - 1000) / (1000 * √(1 - 1 / 1000 ^ 2))] := by
    funext r
    fin_cases r
    · rfl
    · simp [toOcelot]
    · rfl
    · simp [toOcelot]
    · simp [toOcelot]
    · change (√(1 + (0 : ℝ) ^ 2 + 0 ^ 2 + √8 ^ 2) - 1000) / (1000 * √(1 - 1 / 1000 ^ 2)) = _
      rw [h5]
      rfl
  rw [h0, hto]
  have hth : (part quad (1 / 2)).theta = 0 := by simp [part, quad]
  simp only [hth, neg_zero, zero_div, mul_zero, zero_mul, add_zero, zero_add, fromOcelot]
  change 0 < √((_ * 1000 * √(1 - 1 / 1000 ^ 2) + 1000) ^ 2 - _ - _ - 1)
  rw [Real.sqrt_pos]
  simp only [Matrix.cons_val]
  rw [mul_assoc, div_mul_cancel₀ _ hb0.ne']
  norm_num

/-! ### C82: default options -/

/-- Partial: a trackable element returns its outputs and never raises.  Missing: elements of the
base class with the progress bar, which is on by default (`generic_element_violated`). -/
theorem track_returns_partial (env : Env) (csr : Calc) (e : Elem) (b : Bunch) (d : Option Diag) (o : Opts)
    (ht : Trackable e o) : ∃ outs, (track env e csr b d o).out = .ok outs := by
  unfold track
  dsimp only
  rw [if_neg (by push Not; exact ⟨ht.nOut, ht.length⟩), if_neg (by
    simp only [Bool.and_eq_true, Bool.not_eq_true', not_and, Bool.not_eq_false]; exact ht.bar)]
  exact ⟨_, rfl⟩

/-- A generic `TMElement` with default options raises `NotImplementedError`; the bunch is
untouched, but the element has stored its energy. -/
theorem generic_element_violated (env : Env) (csr : Calc) (e : Elem) (b : Bunch) (d : Option Diag) (o : Opts)
    (hL : e.length ≠ 0) (hn : e.nOut ≠ some 0) (hp : e.prints = false) (ho : o.bar = true) :
    (track env e csr b d o).out = .error .notImplemented ∧ (track env e csr b d o).bunch = b ∧
      (track env e csr b d o).elem.gammaRef = some (gammaOf e b) := by
  unfold track
  dsimp only
  rw [if_neg (by push Not; exact ⟨hn, hL⟩), if_pos (by simp [ho, hp])]
  exact ⟨rfl, rfl, rfl⟩

example : ∃ e : Elem, e.length ≠ 0 ∧ e.nOut ≠ some 0 ∧ e.prints = false :=
  ⟨{ quad with prints := false }, by norm_num [quad], by simp [quad], rfl⟩

/-! ### C83: backtracking -/

/-- Without outputs the option `backtrack` has no effect on the tracked bunch. -/
theorem backtrack_ignored (env : Env) (csr : Calc) (e : Elem) (b : Bunch) (d : Option Diag) (o : Opts)
    (ht : Trackable e o) (hcsr : e.csrOn = false) (hn : e.nOut = none) (hi : o.outInitial = false) :
    (track env e csr b d { o with backtrack := true }).bunch =
      (track env e csr b d { o with backtrack := false }).bunch := by
  have hout : ∀ bt, (track env e csr b d { o with backtrack := bt }).out = .ok [] := by
    intro bt
    unfold track
    dsimp only
    rw [if_neg (by push Not; exact ⟨ht.nOut, ht.length⟩), if_neg (by
      simp only [Bool.and_eq_true, Bool.not_eq_true', not_and, Bool.not_eq_false]; exact ht.bar)]
    simp only [hi, Bool.false_eq_true, if_false]
    rw [trackLoop_outs]
    rw [show ∀ l : List ℕ, l.filter (fun i => isOutput _ _ i) = [] from fun l => by
      rw [List.filter_eq_nil_iff]
      intro i _
      unfold isOutput
      rw [determineSteps_none (by exact hn)]
      simp]
    rfl
  have hcols : finalCols env csr e b true = finalCols env csr e b false := by
    unfold finalCols
    dsimp only
    rw [trackLoop_linear _ _ { e with gammaRef := some (gammaOf e b) } _ _ _ _ hcsr,
      trackLoop_linear _ _ { e with gammaRef := some (gammaOf e b) } _ _ _ _ hcsr]
  obtain ⟨M, hM, h⟩ := track_bunch_out (hout true)
  obtain ⟨M', hM', h'⟩ := track_bunch_out (hout false)
  rw [h, h', hM, hM']
  change updateBunch e (gammaOf e b) b (finalCols env csr e b true) [] = _
  rw [hcols]

/-- Tracking backwards does not undo tracking: the bunch ends two lengths away. -/
theorem backtrack_violated (env : Env) (csr csr' : Calc) (e : Elem) (b : Bunch)
    (hL : e.length ≠ 0) (hcsr : e.csrOn = false) (hn : e.nOut = none) :
    (track env e csr' (track env e csr b none forward).bunch none { forward with backtrack := true }).bunch.propDistance
      = b.propDistance + 2 * e.length ∧
    (track env e csr' (track env e csr b none forward).bunch none { forward with backtrack := true }).bunch ≠ b := by
  have ht : ∀ o : Opts, o.bar = false → Trackable e o := fun o ho =>
    ⟨hL, by rw [hn]; simp, by simp [ho]⟩
  have h1 : (track env e csr' (track env e csr b none forward).bunch none
      { forward with backtrack := true }).bunch.propDistance = b.propDistance + 2 * e.length := by
    rw [backtrack_ignored env csr' e _ none forward (ht _ rfl) hcsr hn rfl]
    have a := (bunch_updated_partial env csr' e (track env e csr b none forward).bunch none
      { forward with backtrack := false } (ht _ rfl) (stepFits_of_off hcsr) rfl (fun _ => rfl)).1
    have c := (bunch_updated_partial env csr e b none forward (ht _ rfl) (stepFits_of_off hcsr) rfl (fun _ => rfl)).1
    rw [a, c]
    ring
  refine ⟨h1, fun h => ?_⟩
  rw [h] at h1
  have : e.length = 0 := by linarith
  exact hL this

example : quad.length ≠ 0 ∧ quad.csrOn = false ∧ quad.nOut = none := ⟨by norm_num [quad], rfl, rfl⟩

end WakeT.Element
