import Verif.Tracker.Model

/-!
# Specification vocabulary for the tracker

Definitions used in the statements of the tracker properties.  They only look
at the log of events (which event happened, on which object, when), not at the
internal variables of the tracker.
-/

set_option linter.unusedSectionVars false

namespace WakeT.Tracker

variable {K F σ : Type*} [Field K] [LinearOrder K] [IsStrictOrderedRing K]
  [LinearOrder F]

/-- Time at which an event leaves the object it acts on. -/
def Ev.time : Ev K → K
  | .push _ _ t dt => t + dt
  | .update _ t => t
  | .diag t => t

/-- Rank of an event among events of the same time: pushes due by the clock of
the bunch, then field updates, then diagnostics (with the pushes they force). -/
def Ev.rank : Ev K → ℕ
  | .push false _ _ _ => 0
  | .update _ _ => 1
  | .push true _ _ _ => 2
  | .diag _ => 2

/-- The pushes of bunch `i`, as (start time, duration), in order. -/
def pushesOf (i : ℕ) (log : List (Ev K)) : List (K × K) :=
  log.filterMap fun
    | .push _ j t dt => if j = i then some (t, dt) else none
    | _ => none

/-- The times of the updates of field `j`, in order. -/
def updateTimes (j : ℕ) (log : List (Ev K)) : List K :=
  log.filterMap fun
    | .update j' t => if j' = j then some t else none
    | _ => none

/-- The times of the diagnostics, in order. -/
def diagTimes (log : List (Ev K)) : List K :=
  log.filterMap fun
    | .diag t => some t
    | _ => none

/-- `Tiles a l b`: the intervals of `l` start at `a`, each starts where the
previous one ended, and the last one ends at `b`. -/
def Tiles : K → List (K × K) → K → Prop
  | a, [], b => a = b
  | a, (t, dt) :: l, b => t = a ∧ Tiles (a + dt) l b

/-- All time steps handed to the tracker are positive, as the documentation of
`Tracker` demands (tracker.py 47-51), and the final time is not negative. -/
structure Cfg.Positive (c : Cfg K F σ) : Prop where
  tFinal : 0 < c.tFinal
  bunch : ∀ i < c.nBunch, ∀ d, c.dtBunch i = some d → 0 < d
  auto : ∀ w i, 0 < c.autoDt w i
  field : ∀ j < c.nField, 0 < c.dtField j

end WakeT.Tracker
