import Verif.Bunch.Model
import Verif.Push.Spec

/-! # Specification vocabulary for bunches -/

set_option linter.unusedSectionVars false

namespace WakeT.Bunch

open Fields (EB)
open Push (Ph PField Sched)

/-- A call of `evolve`. -/
structure EvolveCall where
  fields : List PField
  sch : Sched
  t : ℝ
  dt : ℝ
  pusher : String

/-- One of the two pushers. -/
def EvolveCall.Known (cl : EvolveCall) : Prop := cl.pusher = "rk4" ∨ cl.pusher = "boris"

/-- Successive calls of `evolve`, up to the first exception. -/
noncomputable def Bunch.run (c : ℝ) (b : Bunch) : List EvolveCall → Bunch × Option Err
  | [] => (b, none)
  | cl :: l =>
    match b.evolve c cl.fields cl.sch cl.t cl.dt cl.pusher with
    | (b', none) => b'.run c l
    | (b', some e) => (b', some e)

/-- Total time of a list of calls. -/
def total (calls : List EvolveCall) : ℝ := (calls.map EvolveCall.dt).sum

/-- What a user reads from a bunch, except `tags`, `t_flight` and `z_injection`:
number of particles, coordinates and weights of all particles, propagation
distance, reference orbit, name and species. -/
def SameData (b b' : Bunch) : Prop :=
  b.n = b'.n ∧ (∀ i < b.n, b.ph i = b'.ph i ∧ b.w i = b'.w i) ∧
  b.propDistance = b'.propDistance ∧ b.xRef = b'.xRef ∧ b.thetaRef = b'.thetaRef ∧
  b.name = b'.name ∧ b.qSpecies = b'.qSpecies ∧ b.mSpecies = b'.mSpecies

/-- Everything a user reads from a bunch. -/
def SameBunch (b b' : Bunch) : Prop :=
  SameData b b' ∧ b.tags = b'.tags ∧ b.tFlight = b'.tFlight ∧ b.zInjection = b'.zInjection

/-- The preallocated arrays, where present, have one entry per particle. -/
def Bunch.Fits (b : Bunch) : Prop :=
  (∀ a ∈ b.fieldArrays, a.1 = b.n) ∧ (∀ a ∈ b.rk4Arrays, a.1 = b.n)

/-- Total weight. -/
def Bunch.weight (b : Bunch) : ℝ := ∑ i ∈ Finset.range b.n, b.w i

/-- Weighted mean of `xi`. -/
noncomputable def Bunch.meanXi (b : Bunch) : ℝ :=
  (∑ i ∈ Finset.range b.n, b.w i * (b.ph i).xi) / b.weight

/-- The head of the bunch, in the laboratory, is behind `z`. -/
def Bunch.HeadBehind (b : Bunch) (z : ℝ) : Prop := ∀ i < b.n, (b.ph i).xi + b.propDistance < z

/-- A creation of a bunch: with or without a given name, or as a copy. -/
inductive Creation
  | unnamed
  | named (s : String)
  | copyOf (b : Bunch)

/-- The names given to the unnamed bunches of a sequence of creations, starting
with the value `k` of the counter. -/
noncomputable def unnamedNames (k : ℕ) : List Creation → List String
  | [] => []
  | .unnamed :: l =>
    let r := init 0 (fun _ => 0) (fun _ => ⟨0, 0, 0, 0, 0, 0⟩) none 0 0 none none 0 0 k
    r.1.name :: unnamedNames r.2 l
  | .named s :: l =>
    unnamedNames (init 0 (fun _ => 0) (fun _ => ⟨0, 0, 0, 0, 0, 0⟩) none 0 0 none (some s) 0 0 k).2 l
  | .copyOf b :: l => unnamedNames (b.copy k).2 l

end WakeT.Bunch
