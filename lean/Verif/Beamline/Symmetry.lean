import Verif.Beamline.Model
import Verif.Element.Symmetry

/-! # Symmetries of beamlines (C158, C159) -/

set_option linter.unusedSectionVars false

namespace WakeT.Beamline

open CSR (Elem Calc)
open Bunch (Bunch)
open Diag (Diag)
open Element (Env Err Opts Result track csrEnv Conj mirrorX mirrorY moved)

/-- Two states of the program that differ by changes of the elements, the calculator and the bunch. -/
structure Related (E : Elem → Elem) (C : Calc → Calc) (B : Bunch → Bunch) (w w' : World) : Prop where
  elems : ∀ i, w'.elems i = E (w.elems i)
  csr : w'.csr = C w.csr
  bunch : w'.bunch = B w.bunch

theorem track_csr (env : Env) (csr : Calc) (e : Elem) (b : Bunch) (d : Option Diag) (o : Opts) :
    (track env e csr b d o).csr = if e.csrOn then csr.add (Element.withGamma e (Element.gammaOf e b)) else csr.clear := by
  unfold track
  dsimp only
  split_ifs <;> rfl

variable {env : Env} {bar : Bool} {E : Elem → Elem} {C : Calc → Calc} {B : Bunch → Bunch}

theorem lineLoop_related (h : ∀ e csr b, ∃ S, Conj env e (E e) csr (C csr) b (Element.gammaOf e b) S B)
    (hE : ∀ e g, Element.withGamma (E e) g = E (Element.withGamma e g))
    (hC : ∀ csr e, (C csr).add (E e) = C (csr.add e)) (hC' : ∀ csr, (C csr).clear = C csr.clear) (ids : List ℕ) :
    ∀ (w w' : World) (acc : List Bunch), Related E C B w w' →
      Related E C B (lineLoop (ids.map (tm env bar)) w acc).1 (lineLoop (ids.map (tm env bar)) w' (acc.map B)).1 ∧
      (lineLoop (ids.map (tm env bar)) w' (acc.map B)).2 = (lineLoop (ids.map (tm env bar)) w acc).2.map (List.map B) := by
  induction ids with
  | nil => exact fun w w' acc hw => ⟨hw, rfl⟩
  | cons i ids ih =>
    intro w w' acc hw
    obtain ⟨S, hS⟩ := h (w.elems i) w.csr w.bunch
    obtain ⟨t1, t2⟩ := Element.track_conj hS w.diag w'.diag ⟨false, false, bar⟩
    have t3 := track_csr env w.csr (w.elems i) w.bunch w.diag ⟨false, false, bar⟩
    have t3' := track_csr env (C w.csr) (E (w.elems i)) (B w.bunch) w'.diag ⟨false, false, bar⟩
    have t4 := Element.track_elem env w.csr (w.elems i) w.bunch w.diag ⟨false, false, bar⟩
    have t4' := Element.track_elem env (C w.csr) (E (w.elems i)) (B w.bunch) w'.diag ⟨false, false, bar⟩
    rw [hS.gamma', hS.csrOn, hE, hC, hC'] at t3'
    have hrel : Related E C B (tm env bar i w).1 (tm env bar i w').1 := by
      unfold tm
      dsimp only
      rw [hw.elems, hw.csr, hw.bunch]
      refine ⟨fun j => ?_, ?_, t1⟩
      · dsimp only
        by_cases hj : j = i
        · subst hj
          rw [Function.update_self, Function.update_self, t4', t4]
          rw [hS.gamma']
          exact hE _ _
        · rw [Function.update_of_ne hj, Function.update_of_ne hj, hw.elems]
      · dsimp only
        rw [t3, t3']
        split_ifs <;> rfl
    have hout : (tm env bar i w').2 = (tm env bar i w).2.map (List.map B) := by
      unfold tm
      dsimp only
      rw [hw.elems, hw.csr, hw.bunch]
      exact t2
    rw [List.map_cons, lineLoop, lineLoop]
    revert hrel hout
    generalize tm env bar i w = x
    generalize tm env bar i w' = x'
    obtain ⟨w1, r⟩ := x
    obtain ⟨w1', r'⟩ := x'
    intro hrel hout
    dsimp only at hrel hout
    subst hout
    cases r with
    | error x => exact ⟨hrel, rfl⟩
    | ok outs =>
      have := ih w1 w1' (acc ++ outs) hrel
      rw [List.map_append] at this
      exact this

/-- Specification: everything mirrored horizontally. -/
def World.mirrorX (w : World) : World :=
  { w with elems := fun i => (w.elems i).mirror, csr := w.csr.mirror, bunch := Element.mirrorX w.bunch }

/-- Specification: the bunch mirrored vertically. -/
def World.mirrorY (w : World) : World := { w with bunch := Element.mirrorY w.bunch }

/-- Specification: the bunch moved along the reference orbit. -/
noncomputable def World.moved (a : ℝ) (w : World) : World := { w with bunch := Element.moved a w.bunch }

variable (c : ℝ) (div : ℝ → ℝ → ℝ) (ids : List ℕ) (w : World) (opmd opmd' : Bool) (d d' : Option Diag)

/-- **C158.** In the mirrored beamline (all bends to the other side, sextupoles with the opposite sign), the
mirrored bunch becomes the mirror image of what the bunch becomes in the beamline, in all outputs, with
CSR and to second order. -/
theorem line_mirrorX {nBins : ℕ} (hn : 1 ≤ nBins) :
    (trackLine (csrEnv c div nBins) bar ids w.mirrorX opmd' d').1.bunch = mirrorX (trackLine (csrEnv c div nBins) bar ids w opmd d).1.bunch ∧
    (trackLine (csrEnv c div nBins) bar ids w.mirrorX opmd' d').2 = (trackLine (csrEnv c div nBins) bar ids w opmd d).2.map (List.map mirrorX) := by
  obtain ⟨h1, h2⟩ := lineLoop_related (env := csrEnv c div nBins) (bar := bar) (E := CSR.Elem.mirror) (C := CSR.Calc.mirror) (B := Element.mirrorX)
    (fun e csr b => ⟨_, Element.conj_mirrorX c div hn e csr b⟩) (fun _ _ => rfl) CSR.add_mirror (fun _ => rfl) ids
    { w with diag := if opmd then some (d.getD Diag.new) else none } { w.mirrorX with diag := if opmd' then some (d'.getD Diag.new) else none } []
    ⟨fun _ => rfl, rfl, rfl⟩
  exact ⟨h1.bunch, h2⟩

/-- **C158.** A bunch mirrored vertically becomes the mirror image in the same beamline. -/
theorem line_mirrorY (nBins : ℕ) :
    (trackLine (csrEnv c div nBins) bar ids w.mirrorY opmd' d').1.bunch = mirrorY (trackLine (csrEnv c div nBins) bar ids w opmd d).1.bunch ∧
    (trackLine (csrEnv c div nBins) bar ids w.mirrorY opmd' d').2 = (trackLine (csrEnv c div nBins) bar ids w opmd d).2.map (List.map mirrorY) := by
  obtain ⟨h1, h2⟩ := lineLoop_related (env := csrEnv c div nBins) (bar := bar) (E := id) (C := id) (B := Element.mirrorY)
    (fun e csr b => ⟨_, Element.conj_mirrorY c div nBins e csr b⟩) (fun _ _ => rfl) (fun _ _ => rfl) (fun _ => rfl) ids
    { w with diag := if opmd then some (d.getD Diag.new) else none } { w.mirrorY with diag := if opmd' then some (d'.getD Diag.new) else none } []
    ⟨fun _ => rfl, rfl, rfl⟩
  exact ⟨h1.bunch, h2⟩

/-- **C159.** A bunch that is moved along the reference orbit at the start of a beamline is moved along
the reference orbit by the same distance in all outputs, with CSR and to second order, and nothing
else changes. -/
theorem line_moved (nBins : ℕ) (a : ℝ) :
    (trackLine (csrEnv c div nBins) bar ids (w.moved a) opmd' d').1.bunch = moved a (trackLine (csrEnv c div nBins) bar ids w opmd d).1.bunch ∧
    (trackLine (csrEnv c div nBins) bar ids (w.moved a) opmd' d').2 = (trackLine (csrEnv c div nBins) bar ids w opmd d).2.map (List.map (moved a)) := by
  obtain ⟨h1, h2⟩ := lineLoop_related (env := csrEnv c div nBins) (bar := bar) (E := id) (C := id) (B := Element.moved a)
    (fun e csr b => ⟨_, Element.conj_moved c div nBins e csr b a⟩) (fun _ _ => rfl) (fun _ _ => rfl) (fun _ => rfl) ids
    { w with diag := if opmd then some (d.getD Diag.new) else none } { w.moved a with diag := if opmd' then some (d'.getD Diag.new) else none } []
    ⟨fun _ => rfl, rfl, rfl⟩
  exact ⟨h1.bunch, h2⟩

/-- A bend with CSR followed by a sextupole: the mirrored beamline is another one, and a fresh calculator
is its own mirror image. -/
example (b : Bunch) (hb : b.thetaRef = 0) : ∃ w : World, w.bunch = b ∧ (w.mirrorX.elems 0).theta ≠ (w.elems 0).theta ∧
    (w.mirrorX.elems 1).k2 ≠ (w.elems 1).k2 ∧ w.mirrorX.csr = w.csr ∧ (w.elems 0).csrOn = true ∧
    ∀ i, ((w.moved 1).bunch.ph i).xi = (b.ph i).xi + 1 := by
  refine ⟨⟨fun i => if i = 0 then ⟨0, 1 / 5, 1 / 10, 0, 0, none, true, some 2, 2, true⟩ else ⟨1, 1 / 10, 0, 0, 50, none, true, none, 2, true⟩,
    CSR.Calc.new (1 / 10) (1 / 100), b, none⟩, rfl, ?_, ?_, rfl, rfl, fun i => ?_⟩
  · norm_num [World.mirrorX, CSR.Elem.mirror]
  · norm_num [World.mirrorX, CSR.Elem.mirror]
  · simp [World.moved, Element.moved, hb]

end WakeT.Beamline
