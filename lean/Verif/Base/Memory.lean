import Mathlib.Data.Real.Basic

/-!
# Arrays in a common memory

Arrays over the particles have a number; the memory holds the contents of all of them.  Used where arrays of the code are handed
over as arguments and overwritten in place, so that arrays that are not distinct would interfere.
-/

namespace WakeT.Base

/-- Entries of all arrays for one particle: number of the array and value (numpy arrays such as those of plasma_particles.py 52-56,
particle_bunch.py 95-101). -/
abbrev Row := ℕ → ℝ

/-- The memory: particle and entries (plasma_particles.py 52-56, particle_bunch.py 95-101). -/
abbrev Mem := ℕ → Row

/-- An array as a function of the particle (as read in plasma_push/ab5.py 104-110). -/
def Mem.arr (m : Mem) (a : ℕ) : ℕ → ℝ := fun i => m i a

/-- `a[i] = v` (as in plasma_push/ab5.py 104-110, runge_kutta_4.py 127-148). -/
def Row.set (e : Row) (a : ℕ) (v : ℝ) : Row := fun b => if b = a then v else e b

/-- `a[:] = v` (as in plasma_push/ab5.py 49-56). -/
def Mem.write (m : Mem) (a : ℕ) (v : ℕ → ℝ) : Mem := fun i => (m i).set a (v i)

/-- State of the allocation: number of the next array and contents of the memory (plasma_particles.py 52-57,
particle_bunch.py 345-381). -/
structure Heap where
  next : ℕ
  mem : Mem

/-- A new array (`np.linspace`, `np.zeros`, `np.ones`, `deepcopy`) (plasma_particles.py 52-57, particle_bunch.py 308-314). -/
def newArray (v : ℕ → ℝ) : StateM Heap ℕ := fun h => (h.next, ⟨h.next + 1, h.mem.write h.next v⟩)

/-- `np.zeros(n)` (plasma_particles.py 79-85, particle_bunch.py 348-379). -/
def zeros : StateM Heap ℕ := newArray fun _ => 0

theorem set_self (e : Row) (a : ℕ) (v : ℝ) : e.set a v a = v := if_pos rfl

theorem set_ne (e : Row) {a b : ℕ} (v : ℝ) (h : b ≠ a) : e.set a v b = e b := if_neg h

end WakeT.Base
