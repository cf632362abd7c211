import Verif.CSR.Model

/-! # Specification vocabulary for the CSR calculator -/

set_option linter.unusedSectionVars false

namespace WakeT.CSR

/-- Operations on the calculator. -/
inductive Op
  | add (e : Elem)
  | clear

/-- Effect of one operation. -/
noncomputable def Calc.op (c : Calc) : Op → Calc
  | .add e => c.add e
  | .clear => c.clear

/-- A calculator after a history of operations. -/
noncomputable def history (csrStep csrTrajStep : ℝ) (ops : List Op) : Calc :=
  ops.foldl Calc.op (Calc.new csrStep csrTrajStep)

/-- Elements added since the last clear, in order. -/
def lattice (ops : List Op) : List Elem :=
  ops.foldl (fun l o => match o with | .add e => l ++ [e] | .clear => []) []

/-- Elements that occur in a history. -/
def Occurs (ops : List Op) (e : Elem) : Prop := Op.add e ∈ ops

/-- An element for which the steps are defined. -/
def Elem.Ok (e : Elem) : Prop := 0 < e.length ∧ ∀ n, e.nOut = some n → 1 ≤ n

/-- Objects are told apart by their identity. -/
def Identified (es : List Elem) : Prop := ∀ a ∈ es, ∀ b ∈ es, a.id = b.id → a = b

/-- `d` divides `x` into a whole number of steps. -/
def Divides (d x : ℝ) : Prop := ∃ m : ℕ, 1 ≤ m ∧ m * d = x

/-- A unit vector. -/
def Unit (v : Fin 3 → ℝ) : Prop := v 0 ^ 2 + v 1 ^ 2 + v 2 ^ 2 = 1

end WakeT.CSR
