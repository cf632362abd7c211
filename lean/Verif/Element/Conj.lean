import Verif.Element.Csr
import Verif.CSR.Symmetry

/-! # Symmetries of transfer-map elements

A change of the bunch that is a change `S` of the coordinates in the frame of the element, with which
the maps of the element commute, commutes with tracking. -/

set_option linter.unusedSectionVars false

namespace WakeT.Element

open CSR (Elem Calc)
open Bunch (Bunch average)
open TransferMatrix
open Diag (Diag)
open Matrix

/-- The element with its reference energy set. -/
noncomputable def withGamma (e : Elem) (g : ℝ) : Elem := { e with gammaRef := some g }

/-- What `track` takes from the last output. -/
def takeFrom (b last : Bunch) : Bunch :=
  { b with n := last.n, ph := last.ph, propDistance := last.propDistance, thetaRef := last.thetaRef, xRef := last.xRef }

/-- The conditions, for the element `e` and its counterpart `e'` in calculators `csr` and `csr'`. -/
structure Conj (env : Env) (e e' : Elem) (csr csr' : Calc) (b : Bunch) (g : ℝ) (S : V6 → V6) (B : Bunch → Bunch) : Prop where
  length : e'.length = e.length
  nOut : e'.nOut = e.nOut
  csrOn : e'.csrOn = e.csrOn
  prints : e'.prints = e.prints
  gamma : gammaOf e b = g
  gamma' : gammaOf e' (B b) = g
  cols : ∀ i, toOcelot g (localCols (B b) i) = S (toOcelot g (localCols b i))
  map : ∀ z v, transferMap z e'.length (-e'.theta) e'.k1 e'.k2 g e'.order (S v) =
    S (transferMap z e.length (-e.theta) e.k1 e.k2 g e.order v)
  kick : e.csrOn = true → ∀ l M j, env.kick (csr'.add (withGamma e' g)) (withGamma e' g) g (B b).q (B b).n l (fun i => S (M i)) j =
    env.kick (csr.add (withGamma e g)) (withGamma e g) g b.q b.n l M j
  energy : ∀ (v : V6) (k : ℝ), S (fun r => if r = 5 then v r + k else v r) = fun r => if r = 5 then S v r + k else S v r
  steps : e.csrOn = true → (csr'.add (withGamma e' g)).getCsrStep (withGamma e' g) = (csr.add (withGamma e g)).getCsrStep (withGamma e g)
  create : ∀ (M : Cols) (l : ℝ), createBunch (withGamma e' g) (B b) (fun j => fromOcelot g (S (M j))) l =
    B (createBunch (withGamma e g) b (fun j => fromOcelot g (M j)) l)
  copy : ∀ b, ((B b).copy 0).1 = B (b.copy 0).1
  take : ∀ b last, takeFrom (B b) (B last) = B (takeFrom b last)

variable {env : Env} {e e' : Elem} {csr csr' : Calc} {b : Bunch} {g : ℝ} {S : V6 → V6} {B : Bunch → Bunch}

theorem Conj.steps_eq (h : Conj env e e' csr csr' b g S B) :
    determineSteps env (if e.csrOn then csr'.add (withGamma e' g) else csr'.clear) (withGamma e' g) =
      determineSteps env (if e.csrOn then csr.add (withGamma e g) else csr.clear) (withGamma e g) := by
  unfold determineSteps
  have h1 : (withGamma e' g).csrOn = e.csrOn := h.csrOn
  have h2 : (withGamma e g).csrOn = e.csrOn := rfl
  have h3 : (withGamma e' g).nOut = e.nOut := h.nOut
  have h4 : (withGamma e g).nOut = e.nOut := rfl
  have h5 : (withGamma e' g).length = e.length := h.length
  have h6 : (withGamma e g).length = e.length := rfl
  dsimp only
  rw [h1, h2, h3, h4, h5, h6]
  cases hc : e.csrOn with
  | false => rfl
  | true =>
    simp only [if_true]
    rw [h.steps hc]

theorem Conj.loop (h : Conj env e e' csr csr' b g S B) (bt : Bool) (steps : ℝ × ℕ × ℕ) (n : ℕ) {s s' : Loop}
    (hM : s'.M = fun i => S (s.M i)) (ho : s'.outs = s.outs.map B) :
    (trackLoop env (if e.csrOn then csr'.add (withGamma e' g) else csr'.clear) (withGamma e' g) g (B b) bt steps n s').M =
        (fun i => S ((trackLoop env (if e.csrOn then csr.add (withGamma e g) else csr.clear) (withGamma e g) g b bt steps n s).M i)) ∧
      (trackLoop env (if e.csrOn then csr'.add (withGamma e' g) else csr'.clear) (withGamma e' g) g (B b) bt steps n s').outs =
        (trackLoop env (if e.csrOn then csr.add (withGamma e g) else csr.clear) (withGamma e g) g b bt steps n s).outs.map B := by
  induction n with
  | zero => exact ⟨hM, ho⟩
  | succ n ih =>
    rw [trackLoop, trackLoop]
    generalize trackLoop env (if e.csrOn then csr'.add (withGamma e' g) else csr'.clear) (withGamma e' g) g (B b) bt steps n s' = t' at ih ⊢
    generalize trackLoop env (if e.csrOn then csr.add (withGamma e g) else csr.clear) (withGamma e g) g b bt steps n s = t at ih ⊢
    obtain ⟨i1, i2⟩ := ih
    have h1 : (withGamma e' g).csrOn = e.csrOn := h.csrOn
    have h2 : (withGamma e g).csrOn = e.csrOn := rfl
    have hM : (trackStep env (if e.csrOn then csr'.add (withGamma e' g) else csr'.clear) (withGamma e' g) g (B b) bt steps n t').M =
        fun i => S ((trackStep env (if e.csrOn then csr.add (withGamma e g) else csr.clear) (withGamma e g) g b bt steps n t).M i) := by
      have hm : (fun j => transferMap steps.1 (withGamma e' g).length (-(withGamma e' g).theta) (withGamma e' g).k1 (withGamma e' g).k2 g
          (withGamma e' g).order (t'.M j)) = fun j => S (transferMap steps.1 (withGamma e g).length (-(withGamma e g).theta) (withGamma e g).k1
            (withGamma e g).k2 g (withGamma e g).order (t.M j)) := by
        funext j
        rw [i1]
        exact h.map _ _
      unfold trackStep
      extract_lets lS lC M1 M2 N M1' M2' N'
      have hM1 : M1 = fun j => S (M1' j) := hm
      have hM2 : M2 = fun j => S (M2' j) := by
        cases hc : e.csrOn with
        | false =>
          have q1 : M2 = M1 := if_neg (by rw [h1, hc]; exact Bool.false_ne_true)
          have q2 : M2' = M1' := if_neg (by rw [h2, hc]; exact Bool.false_ne_true)
          rw [q1, q2, hM1]
        | true =>
          have q1 : M2 = fun j r => if r = 5 then M1 j r + env.kick (csr'.add (withGamma e' g)) (withGamma e' g) g (B b).q (B b).n lC M1 j
              else M1 j r := by
            have : M2 = if (withGamma e' g).csrOn = true then fun j r => if r = 5 then M1 j r + env.kick (if e.csrOn = true then
              csr'.add (withGamma e' g) else csr'.clear) (withGamma e' g) g (B b).q (B b).n lC M1 j else M1 j r else M1 := rfl
            rw [this, h1, hc]
            rfl
          have q2 : M2' = fun j r => if r = 5 then M1' j r + env.kick (csr.add (withGamma e g)) (withGamma e g) g b.q b.n lC M1' j
              else M1' j r := by
            have : M2' = if (withGamma e g).csrOn = true then fun j r => if r = 5 then M1' j r + env.kick (if e.csrOn = true then
              csr.add (withGamma e g) else csr.clear) (withGamma e g) g b.q b.n lC M1' j else M1' j r else M1' := rfl
            rw [this, h2, hc]
            rfl
          rw [q1, q2, hM1]
          funext j
          rw [h.kick hc]
          exact (h.energy _ _).symm
      split_ifs <;> exact hM2
    refine ⟨hM, ?_⟩
    rw [trackStep_outs, trackStep_outs, hM, List.map_append, i2]
    by_cases hout : isOutput steps.2.1 steps.2.2 n = true
    · rw [if_pos hout, if_pos hout]
      exact congrArg (fun x => List.map B t.outs ++ [x]) (h.create _ _)
    · rw [if_neg hout, if_neg hout]
      rfl

/-- Tracking commutes with the change of the bunch. -/
theorem track_conj (h : Conj env e e' csr csr' b g S B) (d d' : Option Diag) (o : Opts) :
    (track env e' csr' (B b) d' o).bunch = B (track env e csr b d o).bunch ∧
      (track env e' csr' (B b) d' o).out = (track env e csr b d o).out.map (List.map B) := by
  have hs := h.steps_eq
  have hl := h.loop o.backtrack
  have hg : e'.gammaRef.getD (averageGamma (B b)) = g := h.gamma'
  have hg' : e.gammaRef.getD (averageGamma b) = g := h.gamma
  have hgo : ({ e with gammaRef := some g } : Elem) = withGamma e g := rfl
  have hgo' : ({ e' with gammaRef := some g } : Elem) = withGamma e' g := rfl
  unfold track
  simp only [hg, hg', hgo, hgo']
  rw [h.csrOn, h.length, h.nOut, h.prints, hs]
  by_cases h0 : e.nOut = some 0 ∨ e.length = 0
  · simp only [if_pos h0]
    exact ⟨trivial, rfl⟩
  simp only [if_neg h0]
  by_cases hb : (o.bar && !e.prints) = true
  · simp only [if_pos hb]
    exact ⟨trivial, rfl⟩
  simp only [if_neg hb]
  generalize determineSteps env (if e.csrOn then csr.add (withGamma e g) else csr.clear) (withGamma e g) = steps
  have hc : (fun i => toOcelot g (localCols (B b) i)) = fun i => S (toOcelot g (localCols b i)) := funext h.cols
  rw [hc]
  set s : Loop := if o.outInitial = true then ⟨fun i => toOcelot g (localCols b i), [(b.copy 0).1], writeOne env d 0 (steps.1 / env.c) (b.copy 0).1⟩
    else ⟨fun i => toOcelot g (localCols b i), [], d⟩ with hsd
  set s' : Loop := if o.outInitial = true then ⟨fun i => S (toOcelot g (localCols b i)), [((B b).copy 0).1],
    writeOne env d' 0 (steps.1 / env.c) ((B b).copy 0).1⟩ else ⟨fun i => S (toOcelot g (localCols b i)), [], d'⟩ with hsd'
  have e1 : s'.M = fun i => S (s.M i) := by
    rw [hsd, hsd']
    split_ifs <;> rfl
  have e2 : s'.outs = s.outs.map B := by
    rw [hsd, hsd']
    split_ifs
    · show [_] = [_]
      rw [h.copy]
    · rfl
  obtain ⟨l1, l2⟩ := hl steps steps.2.1 e1 e2
  refine ⟨?_, congrArg Except.ok l2⟩
  generalize trackLoop env (if e.csrOn then csr'.add (withGamma e' g) else csr'.clear) (withGamma e' g) g (B b) o.backtrack steps steps.2.1 s' = t' at l1 l2 ⊢
  generalize trackLoop env (if e.csrOn then csr.add (withGamma e g) else csr.clear) (withGamma e g) g b o.backtrack steps steps.2.1 s = t at l1 l2 ⊢
  unfold updateBunch
  rw [l2, l1, List.getLast?_map]
  cases t.outs.getLast? with
  | none =>
    dsimp only [Option.map]
    rw [h.create, show (withGamma e' g).length = e.length from h.length]
    exact h.take _ _
  | some x =>
    dsimp only [Option.map]
    rw [h.copy]
    exact h.take _ _

end WakeT.Element
