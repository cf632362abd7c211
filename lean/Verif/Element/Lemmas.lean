import Verif.Element.Spec
import Verif.CSR.Lemmas
import Verif.TransferMatrix.PropsSecond

/-! # Lemmas on tracking through elements -/

set_option linter.unusedSectionVars false

namespace WakeT.Element

open CSR (Elem Calc Divides)
open Bunch (Bunch)
open TransferMatrix
open Diag (Diag)

section loop

variable (env : Env) (csr : Calc) (e : Elem) (g : ℝ) (b : Bunch) (bt : Bool) (st : ℝ × ℕ × ℕ)

/-- Signed distance after step `i`. -/
noncomputable def dist (bt : Bool) (l : ℝ) (i : ℕ) : ℝ := (i + 1) * l * (if bt then -1 else 1)

theorem trackStep_M (i : ℕ) (s s' : Loop) (h : s.M = s'.M) :
    (trackStep env csr e g b bt st i s).M = (trackStep env csr e g b bt st i s').M := by
  unfold trackStep
  dsimp only
  rw [h]
  split_ifs <;> rfl

theorem trackLoop_M (n : ℕ) (s s' : Loop) (h : s.M = s'.M) :
    (trackLoop env csr e g b bt st n s).M = (trackLoop env csr e g b bt st n s').M := by
  induction n with
  | zero => exact h
  | succ n ih => exact trackStep_M env csr e g b bt st n _ _ ih

theorem trackStep_outs (i : ℕ) (s : Loop) :
    (trackStep env csr e g b bt st i s).outs = s.outs ++
      if isOutput st.2.1 st.2.2 i then
        [createBunch e b (fun j => fromOcelot g ((trackStep env csr e g b bt st i s).M j))
          (dist bt st.1 i)]
      else [] := by
  unfold trackStep dist
  dsimp only
  by_cases h : isOutput st.2.1 st.2.2 i = true
  · simp only [if_pos h]
  · simp only [if_neg h, List.append_nil]

theorem trackLoop_outs (m : ℕ) (s : Loop) :
    (trackLoop env csr e g b bt st m s).outs = s.outs ++
      ((List.range m).filter (fun i => isOutput st.2.1 st.2.2 i)).map (fun i =>
        createBunch e b (fun j => fromOcelot g ((trackLoop env csr e g b bt st (i + 1) s).M j))
          (dist bt st.1 i)) := by
  induction m with
  | zero => simp [trackLoop]
  | succ m ih =>
    rw [trackLoop, trackStep_outs, ih, List.range_succ, List.filter_append, List.map_append,
      List.append_assoc]
    congr 2
    by_cases h : isOutput st.2.1 st.2.2 m = true
    · simp [h, trackLoop]
    · simp [h]

theorem trackLoop_linear (hcsr : e.csrOn = false) (n : ℕ) (s : Loop) :
    (trackLoop env csr e g b bt st n s).M = fun j =>
      (transferMap st.1 e.length (-e.theta) e.k1 e.k2 g e.order)^[n] (s.M j) := by
  induction n with
  | zero => rfl
  | succ n ih =>
    funext j
    rw [Function.iterate_succ_apply', trackLoop]
    unfold trackStep
    dsimp only
    rw [ih]
    simp only [hcsr, Bool.false_eq_true, if_false]
    split_ifs <;> rfl

end loop

/-! ### Output steps -/

theorem isOutput_iff {n f i : ℕ} (hi : i < f * n) : isOutput (f * n) f i = true ↔ f ∣ i + 1 := by
  have hf : f ≠ 0 := by rintro rfl; simp at hi
  unfold isOutput
  simp only [ne_eq, hf, not_false_eq_true, true_and, decide_eq_true_eq]
  rw [← Nat.dvd_iff_mod_eq_zero]
  have h1 : f * n - 1 - i = f * n - (i + 1) := by omega
  rw [h1]
  constructor
  · intro h
    have := (Nat.dvd_sub_iff_right (by omega : i + 1 ≤ f * n) (dvd_mul_right f n)).mp h
    exact this
  · intro h
    exact (Nat.dvd_sub_iff_right (by omega : i + 1 ≤ f * n) (dvd_mul_right f n)).mpr h

theorem filter_multiples (f N : ℕ) (hf : 1 ≤ f) :
    (List.range (f * N)).filter (fun i => decide (f ∣ i + 1)) =
      (List.range N).map (fun k => f * (k + 1) - 1) := by
  induction N with
  | zero => simp
  | succ N ih =>
    rw [Nat.mul_succ, List.range_add, List.filter_append, ih, List.range_succ, List.map_append,
      List.filter_map]
    congr 1
    have h1 : (List.range f).filter ((fun i => decide (f ∣ i + 1)) ∘ fun x => f * N + x) = [f - 1] := by
      obtain ⟨f', rfl⟩ : ∃ f', f = f' + 1 := ⟨f - 1, by omega⟩
      rw [List.range_succ, List.filter_append]
      have h2 : (List.range f').filter ((fun i => decide (f' + 1 ∣ i + 1)) ∘ fun x => (f' + 1) * N + x) = [] := by
        rw [List.filter_eq_nil_iff]
        intro x hx
        rw [List.mem_range] at hx
        simp only [Function.comp, decide_eq_true_eq]
        rw [Nat.add_assoc, Nat.dvd_add_right (dvd_mul_right _ _)]
        intro h
        exact absurd (Nat.le_of_dvd (by omega) h) (by omega)
      rw [h2, List.nil_append]
      simp [Nat.add_assoc]
    rw [h1]
    simp only [List.map_cons, List.map_nil, List.cons.injEq, and_true]
    have : f * (N + 1) = f * N + f := Nat.mul_succ f N
    omega

theorem outputSteps (f N : ℕ) (hf : 1 ≤ f) :
    (List.range (f * N)).filter (fun i => isOutput (f * N) f i) =
      (List.range N).map (fun k => f * (k + 1) - 1) := by
  rw [← filter_multiples f N hf]
  apply List.filter_congr
  intro i hi
  rw [List.mem_range] at hi
  rw [Bool.eq_iff_iff, isOutput_iff hi, decide_eq_true_eq]

/-- The steps when they fit: `N` groups of `f` steps. -/
theorem determineSteps_fit {env : Env} {csr : Calc} {e : Elem} {b : Bunch} {N : ℕ} (hN : 1 ≤ N)
    (hL : e.length ≠ 0) (hn : e.nOut = some N) (hfit : StepFits env csr e b)
    (csr' : Calc) (hc : e.csrOn = true → csr' = csr.add { e with gammaRef := some (gammaOf e b) }) :
    ∃ f : ℕ, 1 ≤ f ∧ ∃ l : ℝ, f * l = e.length / N ∧ determineSteps env csr' e = (l, f * N, f) := by
  have hN0 : (N : ℝ) ≠ 0 := by exact_mod_cast (by omega : N ≠ 0)
  unfold determineSteps
  by_cases h : e.csrOn = true
  · obtain ⟨step, h1, ⟨m, hm, h2⟩, h3⟩ := hfit h
    rw [hn, Option.getD_some] at h2
    refine ⟨m, hm, step, h2, ?_⟩
    rw [← hc h] at h1
    simp only [h, if_true, h1, Option.getD_some, hn]
    have hstep : step ≠ 0 := by
      rintro rfl
      rw [mul_zero] at h2
      exact (div_ne_zero hL hN0) h2.symm
    have h4 : e.length / step = ((m * N : ℕ) : ℝ) := by
      rw [div_eq_iff hstep]
      push_cast
      field_simp at h2
      linear_combination -h2
    rw [h3, h4, Nat.floor_natCast, Nat.mul_div_cancel _ hN]
  · refine ⟨1, le_refl 1, e.length / N, by simp, ?_⟩
    simp [h, hn]

theorem determineSteps_none {env : Env} {csr : Calc} {e : Elem} (hn : e.nOut = none) :
    (determineSteps env csr e).2.2 = 0 := by
  unfold determineSteps
  by_cases h : e.csrOn = true <;> simp [h, hn]

/-! ### The result of a call -/

/-- Matrix of the bunch at the end of the element. -/
noncomputable def finalCols (env : Env) (csr : Calc) (e : Elem) (b : Bunch) (bt : Bool) : Cols :=
  let e' : Elem := { e with gammaRef := some (gammaOf e b) }
  let csr' := if e.csrOn then csr.add e' else csr.clear
  let st := determineSteps env csr' e'
  (trackLoop env csr' e' (gammaOf e b) b bt st st.2.1
    ⟨fun i => toOcelot (gammaOf e b) (localCols b i), [], none⟩).M

theorem createBunch_gammaRef (e : Elem) (g : Option ℝ) (b : Bunch) (M : Cols) (d : ℝ) :
    createBunch { e with gammaRef := g } b M d = createBunch e b M d := rfl

theorem stepFits_gammaRef {env : Env} {csr : Calc} {e : Elem} {b : Bunch} :
    StepFits env csr e b → StepFits env csr { e with gammaRef := some (gammaOf e b) } b := id

/-- Outputs of the element. -/
theorem track_out {env : Env} {csr : Calc} {e : Elem} {b : Bunch} {d : Option Diag} {o : Opts}
    {N : ℕ} (ht : Trackable e o) (hN : 1 ≤ N) (hn : e.nOut = some N) (hfit : StepFits env csr e b) :
    ∃ M : ℕ → Cols, M N = finalCols env csr e b o.backtrack ∧
      (track env e csr b d o).out = .ok ((if o.outInitial then [(b.copy 0).1] else []) ++
        (List.range N).map fun k => createBunch e b (fun j => fromOcelot (gammaOf e b) (M (k + 1) j))
          ((k + 1) * (e.length / N) * (if o.backtrack then -1 else 1))) ∧
      (e.csrOn = false → ∀ k, M k = fun j =>
        (transferMap (e.length / N) e.length (-e.theta) e.k1 e.k2 (gammaOf e b) e.order)^[k]
          (toOcelot (gammaOf e b) (localCols b j))) := by
  set e' : Elem := { e with gammaRef := some (gammaOf e b) } with he'
  set csr' := (if e.csrOn then csr.add e' else csr.clear) with hcsr'
  obtain ⟨f, hf, l, hl, hst⟩ := determineSteps_fit (e := e') (b := b) hN ht.length hn hfit csr'
    (by intro h; have h : e.csrOn = true := h; rw [hcsr', if_pos h]; rfl)
  set s0 : Loop := (if o.outInitial then
      ⟨fun i => toOcelot (gammaOf e b) (localCols b i), [(b.copy 0).1],
        writeOne env d 0 (l / env.c) (b.copy 0).1⟩
    else ⟨fun i => toOcelot (gammaOf e b) (localCols b i), [], d⟩) with hs0
  have hM0 : s0.M = fun i => toOcelot (gammaOf e b) (localCols b i) := by
    rw [hs0]; split_ifs <;> rfl
  have hout : (track env e csr b d o).out =
      .ok (trackLoop env csr' e' (gammaOf e b) b o.backtrack (l, f * N, f) (f * N) s0).outs := by
    unfold track
    dsimp only
    rw [if_neg (by push Not; exact ⟨ht.nOut, ht.length⟩), if_neg (by
      simp only [Bool.and_eq_true, Bool.not_eq_true', not_and, Bool.not_eq_false]; exact ht.bar)]
    change Except.ok (trackLoop env csr' e' (gammaOf e b) b o.backtrack (determineSteps env csr' e')
      (determineSteps env csr' e').2.1 (if o.outInitial then
        ⟨fun i => toOcelot (gammaOf e b) (localCols b i), [(b.copy 0).1],
          writeOne env d 0 ((determineSteps env csr' e').1 / env.c) (b.copy 0).1⟩
      else ⟨fun i => toOcelot (gammaOf e b) (localCols b i), [], d⟩)).outs = _
    rw [hst]
  refine ⟨fun k => (trackLoop env csr' e' (gammaOf e b) b o.backtrack (l, f * N, f) (f * k) s0).M,
    ?_, ?_, ?_⟩
  · unfold finalCols
    dsimp only
    change _ = (trackLoop env csr' e' (gammaOf e b) b o.backtrack (determineSteps env csr' e')
      (determineSteps env csr' e').2.1 _).M
    rw [hst]
    exact trackLoop_M _ _ _ _ _ _ _ _ _ _ hM0
  · rw [hout, trackLoop_outs]
    congr 1
    rw [outputSteps f N hf, List.map_map]
    congr 1
    · rw [hs0]; split_ifs <;> rfl
    · apply List.map_congr_left
      intro k hk
      have h1 : f * (k + 1) - 1 + 1 = f * (k + 1) := Nat.sub_add_cancel (Nat.mul_pos hf (Nat.succ_pos k))
      simp only [Function.comp]
      rw [h1]
      unfold dist
      have h2 : ((f * (k + 1) - 1 : ℕ) : ℝ) + 1 = f * (k + 1) := by exact_mod_cast congrArg (Nat.cast (R := ℝ)) h1
      rw [h2]
      have h3 : (f : ℝ) * (k + 1) * l = (k + 1) * (e.length / N) := by
        have hl : (f : ℝ) * l = e.length / N := hl
        linear_combination ((k : ℝ) + 1) * hl
      rw [h3]
      rfl
  · intro hc k
    have hf1 : f = 1 ∧ l = e.length / N := by
      have hc' : e'.csrOn = false := hc
      have hn' : e'.nOut = some N := hn
      have h2 := hst
      unfold determineSteps at h2
      simp only [hc', Bool.false_eq_true, if_false, hn', Prod.mk.injEq] at h2
      exact ⟨h2.2.2.symm, h2.1.symm⟩
    obtain ⟨rfl, rfl⟩ := hf1
    simp only [one_mul]
    rw [trackLoop_linear env csr' e' _ _ _ _ hc, hM0]

/-- The bunch at the end of the element. -/
noncomputable def finish (e : Elem) (b : Bunch) (g : ℝ) (M : Cols) : Bunch :=
  let last := createBunch e b (fun i => fromOcelot g (M i)) e.length
  { b with ph := last.ph, propDistance := last.propDistance
           thetaRef := last.thetaRef, xRef := last.xRef }

/-- A call only changes the reference energy of the element. -/
theorem track_elem (env : Env) (csr : Calc) (e : Elem) (b : Bunch) (d : Option Diag) (o : Opts) :
    (track env e csr b d o).elem = { e with gammaRef := some (gammaOf e b) } := by
  unfold track
  dsimp only
  by_cases h1 : e.nOut = some 0 ∨ e.length = 0
  · rw [if_pos h1]; rfl
  · rw [if_neg h1]
    by_cases h2 : (o.bar && !e.prints) = true
    · rw [if_pos h2]; rfl
    · rw [if_neg h2]; rfl

theorem track_bunch_out {env : Env} {csr : Calc} {e : Elem} {b : Bunch} {d : Option Diag} {o : Opts}
    {outs : List Bunch} (hout : (track env e csr b d o).out = .ok outs) :
    ∃ M : Cols, M = finalCols env csr e b o.backtrack ∧
      (track env e csr b d o).bunch = updateBunch e (gammaOf e b) b M outs := by
  unfold track at hout ⊢
  dsimp only at hout ⊢
  by_cases h1 : e.nOut = some 0 ∨ e.length = 0
  · simp only [if_pos h1, reduceCtorEq] at hout
  · simp only [if_neg h1] at hout ⊢
    by_cases h2 : (o.bar && !e.prints) = true
    · simp only [if_pos h2, reduceCtorEq] at hout
    · simp only [if_neg h2, Except.ok.injEq] at hout ⊢
      subst hout
      refine ⟨_, ?_, rfl⟩
      apply trackLoop_M
      split_ifs <;> rfl

theorem track_finish {env : Env} {csr : Calc} {e : Elem} {b : Bunch} {d : Option Diag} {o : Opts}
    (ht : Trackable e o) (hfit : StepFits env csr e b) (hb : o.backtrack = false)
    (hno : e.nOut = none → o.outInitial = false) :
    (track env e csr b d o).bunch = finish e b (gammaOf e b) (finalCols env csr e b false) := by
  rcases hn : e.nOut with _ | N
  · -- no outputs
    have hi := hno hn
    have hout : (track env e csr b d o).out = .ok [] := by
      unfold track
      dsimp only
      rw [if_neg (by push Not; exact ⟨ht.nOut, ht.length⟩), if_neg (by
        simp only [Bool.and_eq_true, Bool.not_eq_true', not_and, Bool.not_eq_false]; exact ht.bar)]
      simp only [hi, Bool.false_eq_true, if_false]
      rw [trackLoop_outs]
      simp only [List.nil_append]
      rw [show ∀ l : List ℕ, l.filter (fun i => isOutput _ _ i) = [] from fun l => by
        rw [List.filter_eq_nil_iff]
        intro i _
        unfold isOutput
        rw [determineSteps_none (by exact hn)]
        simp]
      rfl
    obtain ⟨M, rfl, h⟩ := track_bunch_out hout
    rw [h, hb]
    rfl
  · have hN : 1 ≤ N := by
      rcases Nat.eq_zero_or_pos N with rfl | h
      · exact absurd hn ht.nOut
      · exact h
    obtain ⟨Ms, hM, hout, -⟩ := track_out (d := d) ht hN hn hfit
    obtain ⟨M, rfl, h⟩ := track_bunch_out hout
    rw [h]
    unfold updateBunch
    obtain ⟨N', rfl⟩ : ∃ N', N = N' + 1 := ⟨N - 1, by omega⟩
    rw [List.range_succ, List.map_append, ← List.append_assoc]
    simp only [List.map_cons, List.map_nil, List.getLast?_append, List.getLast?_singleton,
      Option.some_or]
    have h4 : ((N' : ℝ) + 1) * (e.length / ((N' + 1 : ℕ) : ℝ)) * (if o.backtrack then -1 else 1) = e.length := by
      have : ((N' : ℝ) + 1) ≠ 0 := by positivity
      rw [hb]
      push_cast
      field_simp
    rw [h4, hM, hb]
    rfl

end WakeT.Element
