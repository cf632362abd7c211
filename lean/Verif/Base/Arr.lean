/-!
# Two-dimensional arrays with checked reads

numba does not check indices, and a negative index wraps around to the end of
the array.  The model returns `none` for every index outside `0 <= i < ni`,
`0 <= j < nj`, so that a theorem `= some v` states that neither happens.
-/

namespace WakeT

/-- A 2D array of shape `(ni, nj)`. -/
structure Arr (V : Type _) where
  ni : Nat
  nj : Nat
  val : Int → Int → V

/-- `a[i, j]`; `none` outside the array. A numpy array access, as in particles/interpolation.py
64-79, where numba does not check bounds. -/
def Arr.get {V : Type _} (a : Arr V) (i j : Int) : Option V :=
  if 0 ≤ i ∧ i < a.ni ∧ 0 ≤ j ∧ j < a.nj then some (a.val i j) else none

theorem Arr.get_some {V : Type _} (a : Arr V) {i j : Int} (h1 : 0 ≤ i) (h2 : i < a.ni)
    (h3 : 0 ≤ j) (h4 : j < a.nj) : a.get i j = some (a.val i j) := by
  unfold Arr.get; rw [if_pos ⟨h1, h2, h3, h4⟩]

end WakeT
