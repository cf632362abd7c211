import Mathlib.Logic.Function.Basic
import Mathlib.Data.List.Perm.Basic
import Mathlib.Data.List.Range

/-!
# Parallel loops over particles

`for i in prange(n)` (numba, imported in `wake_t/utilities/numba.py` 5-8) executes its
iterations in an unspecified order.  A loop is modelled as a fold of its body
over the list of indices in the order in which they happen to be executed.

Simplification: in `prange` iterations are atomic; `interleaving_irrelevant`
below shows that finer interleavings of the memory accesses of different
iterations change nothing.  Particle quantities that the code keeps in
several arrays are kept in one array of records.
-/

namespace WakeT

/-- Execute `body i` on the state for all `i` of `ord`, in this order. -/
def prange {S : Type*} (ord : List ℕ) (body : ℕ → S → S) (s : S) : S :=
  ord.foldl (fun s i => body i s) s

/-- The state change of an iteration that replaces entry `i` of an array by a
function of this entry. -/
def at1 {P : Type*} (f : ℕ → P → P) (i : ℕ) (a : ℕ → P) : ℕ → P :=
  Function.update a i (f i (a i))

/-- Specification: an order of execution of the iterations `0 .. n-1`. -/
def IsSchedule (ord : List ℕ) (n : ℕ) : Prop := ord.Perm (List.range n)

theorem IsSchedule.nodup {ord : List ℕ} {n : ℕ} (h : IsSchedule ord n) : ord.Nodup :=
  h.nodup_iff.mpr List.nodup_range

theorem IsSchedule.mem {ord : List ℕ} {n i : ℕ} (h : IsSchedule ord n) : i ∈ ord ↔ i < n := by
  rw [h.mem_iff, List.mem_range]

theorem isSchedule_range (n : ℕ) : IsSchedule (List.range n) n := List.Perm.refl _

/-- A loop of independent iterations maps the array. -/
theorem prange_at1 {P : Type*} (f : ℕ → P → P) {ord : List ℕ} (hn : ord.Nodup) (a : ℕ → P)
    (i : ℕ) : prange ord (at1 f) a i = if i ∈ ord then f i (a i) else a i := by
  unfold prange
  induction ord generalizing a with
  | nil => simp
  | cons j l ih =>
    rw [List.nodup_cons] at hn
    rw [List.foldl_cons, ih hn.2]
    by_cases hij : i = j
    · subst hij; simp [hn.1, at1]
    · simp [at1, Function.update_of_ne hij, hij]

theorem prange_schedule {P : Type*} (f : ℕ → P → P) {ord : List ℕ} {n : ℕ}
    (h : IsSchedule ord n) (a : ℕ → P) (i : ℕ) :
    prange ord (at1 f) a i = if i < n then f i (a i) else a i := by
  rw [prange_at1 f h.nodup]; simp only [h.mem]

/-! ### Interleavings inside iterations -/

/-- Execute a trace of elementary steps; the step `(i, f)` belongs to iteration
`i` and changes the data of particle `i` (and the private variables of the
iteration, which can be kept in the same entry). -/
def runTrace {P : Type*} (tr : List (ℕ × (P → P))) (a : ℕ → P) : ℕ → P :=
  tr.foldl (fun a e => Function.update a e.1 (e.2 (a e.1))) a

/-- The steps of iteration `i`, in order. -/
def stepsOf {P : Type*} (i : ℕ) (tr : List (ℕ × (P → P))) : List (P → P) :=
  tr.filterMap fun e => if e.1 = i then some e.2 else none

theorem runTrace_apply {P : Type*} (tr : List (ℕ × (P → P))) (a : ℕ → P) (i : ℕ) :
    runTrace tr a i = (stepsOf i tr).foldl (fun v f => f v) (a i) := by
  unfold runTrace stepsOf
  induction tr generalizing a with
  | nil => rfl
  | cons e l ih =>
    rw [List.foldl_cons, ih]
    by_cases h : e.1 = i
    · subst h; simp
    · have h' : i ≠ e.1 := fun h' => h h'.symm
      simp [h, Function.update_of_ne h']

/-- Two executions that perform the same steps for every particle, in whatever
interleaving, give the same arrays. -/
theorem interleaving_irrelevant {P : Type*} (tr tr' : List (ℕ × (P → P)))
    (h : ∀ i, stepsOf i tr = stepsOf i tr') (a : ℕ → P) : runTrace tr a = runTrace tr' a := by
  funext i; rw [runTrace_apply, runTrace_apply, h]

example : runTrace [(0, (· + 1)), (1, (· * 2)), (0, (· * 3))] (fun i => i + 5) =
    runTrace [(1, (· * 2)), (0, (· + 1)), (0, (· * 3))] (fun i => i + 5) :=
  interleaving_irrelevant _ _ (fun i => by
    match i with
    | 0 => rfl
    | 1 => rfl
    | n + 2 => rfl) _

end WakeT
