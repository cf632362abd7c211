import Verif.Element.Model
import Verif.CSR.Spec
import Verif.TransferMatrix.Spec

/-! # Specification vocabulary for beamline elements -/

set_option linter.unusedSectionVars false

namespace WakeT.Element

open CSR (Elem Calc Divides)
open Bunch (Bunch)
open TransferMatrix (V6 GammaOk)
open Diag (Diag)

/-- Reference energy used when a bunch is tracked through an element: the given one, or
the average energy of the bunch. -/
noncomputable def gammaOf (e : Elem) (b : Bunch) : ℝ := e.gammaRef.getD (averageGamma b)

/-- An element without collective effects that is tracked to first order. -/
structure Linear (e : Elem) : Prop where
  order : e.order ≠ 2
  csr : e.csrOn = false
  length : e.length ≠ 0

/-- The element can be tracked: positive length, at least one output if outputs are
requested, and a class that can be printed if this is asked for. -/
structure Trackable (e : Elem) (o : Opts) : Prop where
  length : e.length ≠ 0
  nOut : e.nOut ≠ some 0
  bar : o.bar = true → e.prints = true

/-- With CSR, the calculator has a step for the element that divides the distance between
outputs (the element itself without outputs) into a whole number of steps, and the
quotient of length and step is not rounded.  Nothing is required without CSR. -/
def StepFits (env : Env) (csr : Calc) (e : Elem) (b : Bunch) : Prop :=
  e.csrOn = true → ∃ step,
    (csr.add { e with gammaRef := some (gammaOf e b) }).getCsrStep e = some step ∧
    Divides step (e.length / (e.nOut.getD 1 : ℕ)) ∧ env.div e.length step = e.length / step

/-- A part of an element, with the fraction `f` of its length, without outputs. -/
noncomputable def part (e : Elem) (f : ℝ) : Elem :=
  { e with length := f * e.length, theta := f * e.theta, nOut := none }

/-- Two bunches have the same particles. -/
def SameParticles (a b : Bunch) : Prop := a.n = b.n ∧ a.ph = b.ph ∧ a.w = b.w

/-- Options of plain forward tracking. -/
def forward : Opts := ⟨false, false, false⟩

end WakeT.Element
