import Verif.Element.Props
import Verif.CSR.KernelProps

/-!
# Tracking with the modelled CSR calculation

`TMElement.track` with `CSRCalculator.apply_csr` in place of the parameter `kick`.
-/

set_option linter.unusedSectionVars false

namespace WakeT.Element

open CSR (Elem Calc Divides history Op Occurs)
open Bunch (Bunch)
open TransferMatrix
open Diag (Diag)
open Matrix

/-- The environment in which the change of the relative momentum is that of `apply_csr`
(tm_elements.py 160-162, csr.py 56-128); `nBins` is the setting `n_bins`.  An exception of
`apply_csr` is not passed on: there is none by `CSR.apply_csr_defined`. -/
noncomputable def csrEnv (c : ℝ) (div : ℝ → ℝ → ℝ) (nBins : ℕ) : Env where
  c := c
  div := div
  kick csr e γ q n l M j := ((csr.applyCsr c nBins e l γ (fun p => M p 4) q n).getD fun _ => 0) j

theorem trackLoop_zero_kick (env : Env) (csr : Calc) (e : Elem) (g : ℝ) (b : Bunch) (bt : Bool)
    (st : ℝ × ℕ × ℕ) (hk : ∀ l M j, env.kick csr e g b.q b.n l M j = 0) (n : ℕ) (s : Loop) :
    (trackLoop env csr e g b bt st n s).M = fun j =>
      (transferMap st.1 e.length (-e.theta) e.k1 e.k2 g e.order)^[n] (s.M j) := by
  induction n with
  | zero => rfl
  | succ n ih =>
    funext j
    rw [Function.iterate_succ_apply', trackLoop]
    unfold trackStep
    dsimp only
    rw [ih]
    simp only [hk, add_zero, ite_self]
    split_ifs <;> rfl

theorem finalCols_zero_kick {env : Env} {csr : Calc} {e : Elem} {b : Bunch}
    (hc : e.csrOn = true) (hfit : StepFits env csr e b) (hn : e.nOut ≠ some 0) (hL : e.length ≠ 0)
    (hk : ∀ l M j, env.kick (csr.add { e with gammaRef := some (gammaOf e b) })
      { e with gammaRef := some (gammaOf e b) } (gammaOf e b) b.q b.n l M j = 0)
    (hcomp : ∀ z1 z2 v, transferMap z2 e.length (-e.theta) e.k1 e.k2 (gammaOf e b) e.order
      (transferMap z1 e.length (-e.theta) e.k1 e.k2 (gammaOf e b) e.order v) =
        transferMap (z1 + z2) e.length (-e.theta) e.k1 e.k2 (gammaOf e b) e.order v) (bt : Bool) :
    finalCols env csr e b bt = fun i =>
      transferMap e.length e.length (-e.theta) e.k1 e.k2 (gammaOf e b) e.order
        (toOcelot (gammaOf e b) (localCols b i)) := by
  unfold finalCols
  dsimp only
  simp only [if_pos hc]
  rw [trackLoop_zero_kick _ _ _ _ _ _ _ hk]
  funext i
  obtain ⟨step, h1, ⟨m, hm, h2⟩, h3⟩ := hfit hc
  have hN : 1 ≤ e.nOut.getD 1 := by
    rcases h : e.nOut with _ | n
    · simp
    · rw [h] at hn
      rcases Nat.eq_zero_or_pos n with rfl | h'
      · exact absurd rfl hn
      · exact h'
  have hN0 : ((e.nOut.getD 1 : ℕ) : ℝ) ≠ 0 := by exact_mod_cast (by omega : e.nOut.getD 1 ≠ 0)
  have hstep : step ≠ 0 := by
    rintro rfl
    rw [mul_zero] at h2
    exact (div_ne_zero hL hN0) h2.symm
  have h4 : e.length / step = ((m * e.nOut.getD 1 : ℕ) : ℝ) := by
    rw [div_eq_iff hstep]
    push_cast
    rw [eq_div_iff hN0] at h2
    linear_combination -h2
  set csr2 := csr.add { e with gammaRef := some (gammaOf e b) } with hcsr2
  have h1' : csr2.getCsrStep { e with gammaRef := some (gammaOf e b) } = some step := h1
  have hst : (determineSteps env csr2 { e with gammaRef := some (gammaOf e b) }).1 = step ∧
      (determineSteps env csr2 { e with gammaRef := some (gammaOf e b) }).2.1 = m * e.nOut.getD 1 := by
    unfold determineSteps
    dsimp only
    rw [if_pos hc, h1', Option.getD_some, h3, h4, Nat.floor_natCast]
    exact ⟨rfl, rfl⟩
  rw [hst.1, hst.2]
  dsimp only
  rw [iterate_compose (fun z => transferMap z e.length (-e.theta) e.k1 e.k2 (gammaOf e b) e.order)
      hcomp _ _ _ (Nat.mul_pos hm hN)]
  congr 1
  rw [← h4]
  field_simp

/-- In a beamline without bends, switching CSR on does not change what comes out of an element. -/
theorem straight_track (c : ℝ) (div : ℝ → ℝ → ℝ) {nBins : ℕ} (hn : 1 ≤ nBins) {s t : ℝ} (hs : 0 < s)
    (ht : 0 < t) (ops : List Op) (hok : ∀ x, Occurs ops x → x.Ok ∧ x.theta = 0) (csr' : Calc)
    (e : Elem) (he : e.Ok) (hθ : e.theta = 0) (ho : e.order ≠ 2) (b : Bunch) (hγ : 1 < gammaOf e b)
    (d d' : Option Diag) (o : Opts) (hbar : o.bar = true → e.prints = true) (hb : o.backtrack = false)
    (hno : e.nOut = none → o.outInitial = false)
    (hfit : StepFits (csrEnv c div nBins) (history s t ops) e b) :
    (track (csrEnv c div nBins) e (history s t ops) b d o).bunch =
      (track (csrEnv c div nBins) { e with csrOn := false } csr' b d' o).bunch := by
  have hL := he.1.ne'
  have hn0 : e.nOut ≠ some 0 := fun h => absurd (he.2 0 h) (by norm_num)
  have hg : GammaOk (gammaOf e b) := Or.inr hγ
  have hT : Trackable e o := ⟨hL, hn0, hbar⟩
  have hT' : Trackable { e with csrOn := false } o := ⟨hL, hn0, hbar⟩
  rw [track_finish hT hfit hb hno, track_finish hT' (stepFits_of_off rfl) hb hno]
  have hcomp := fun z1 z2 v => transferMap_compose (theta := -e.theta) (k1 := e.k1) (k2 := e.k2) ho hL hg z1 z2 v
  have hon : finalCols (csrEnv c div nBins) (history s t ops) e b false =
      finalCols (csrEnv c div nBins) csr' { e with csrOn := false } b false := by
    rw [finalCols_compose (e := { e with csrOn := false }) rfl hn0 hcomp]
    rcases hc : e.csrOn with _ | _
    · rw [finalCols_compose hc hn0 hcomp]
      rfl
    · refine finalCols_zero_kick hc hfit hn0 hL ?_ hcomp false
      intro l M j
      have hH : (history s t ops).add { e with gammaRef := some (gammaOf e b) } =
          history s t (ops ++ [.add { e with gammaRef := some (gammaOf e b) }]) := by
        simp [history, List.foldl_append, Calc.op]
      have hall : ∀ x, Occurs (ops ++ [.add { e with gammaRef := some (gammaOf e b) }]) x →
          x.Ok ∧ x.theta = 0 := by
        intro x hx
        rcases List.mem_append.mp hx with hx | hx
        · exact hok x hx
        · simp only [List.mem_singleton, Op.add.injEq] at hx
          subst hx
          exact ⟨he, hθ⟩
      rw [hH]
      unfold csrEnv
      dsimp only
      cases hk : (history s t (ops ++ [.add { e with gammaRef := some (gammaOf e b) }])).applyCsr c nBins
          { e with gammaRef := some (gammaOf e b) } l (gammaOf e b) (fun p => M p 4) b.q b.n with
      | none => rfl
      | some k =>
        exact CSR.straight_no_csr hs ht _ (fun x hx => (hall x hx).1) (fun x hx => (hall x hx).2) c hn _ l hγ _ _ _ hk j
  rw [hon]
  rfl

/-- A quadrupole with CSR, after another one. -/
example (b : Bunch) (c : ℝ) : ∃ (e : Elem) (ops : List Op), e.csrOn = true ∧ e.k1 ≠ 0 ∧ ops ≠ [] ∧
    (∀ x, Occurs ops x → x.Ok ∧ x.theta = 0) ∧ e.Ok ∧ e.theta = 0 ∧ e.order ≠ 2 ∧ 1 < gammaOf e b ∧
    StepFits (csrEnv c (fun a b => a / b) 100) (history (1 / 100) (1 / 1000) ops) e b := by
  refine ⟨⟨1, 1 / 10, 0, 2, 0, some 1000, true, some 3, 1, true⟩,
    List.replicate 0 .clear ++ [⟨0, 1 / 5, 0, -2, 0, some 1000, true, none, 1, true⟩].map .add,
    rfl, by norm_num, by simp, ?_, ⟨by norm_num, ?_⟩, rfl, by norm_num, by norm_num [gammaOf], ?_⟩
  · intro x hx
    simp [Occurs] at hx
    subst hx
    exact ⟨⟨by norm_num, by simp⟩, rfl⟩
  · intro n hn
    simp at hn
    omega
  · refine step_fits_fresh _ (fun _ _ => rfl) (by norm_num) (by norm_num) 0 _ _ b ⟨by norm_num, ?_⟩ ?_
    · intro n hn
      simp at hn
      omega
    · intro x hx y hy hxy
      simp at hx hy
      rcases hx with rfl | rfl <;> rcases hy with rfl | rfl <;> simp_all

end WakeT.Element
