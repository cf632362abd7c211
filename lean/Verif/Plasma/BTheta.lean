import Verif.Plasma.Model

/-!
# Model of `b_theta.py`: azimuthal magnetic field of the plasma

File: `wake_t/physics_models/plasma_wakefields/qs_rz_baxevanis/b_theta.py`.  As in
`Verif.Plasma.Model`, arrays indexed by `idx[k]` are functions of the sorted position `k`.
-/

set_option linter.unusedSectionVars false

namespace WakeT.Plasma

/-- The values of one plasma particle that enter the magnetic field (b_theta.py 147-148). -/
structure BPart where
  r : ℝ
  pr : ℝ
  q : ℝ
  gamma : ℝ
  psi : ℝ
  drPsi : ℝ
  dxiPsi : ℝ
  bTheta0 : ℝ
  nablaA2 : ℝ

namespace BPart
variable (p : BPart)

/-- `A_i` (b_theta.py 212-215, 248-255). -/
noncomputable def A : ℝ := p.q * (1 / (p.r * (1 + p.psi)))

/-- `B_i` (b_theta.py 248-261). -/
noncomputable def B : ℝ :=
  let a := 1 + p.psi
  let a2 := a * a
  let a3 := a2 * a
  let b := 1 / (p.r * a)
  let c := 1 / (p.r * a2)
  let pr2 := p.pr * p.pr
  p.q * (-(p.gamma * p.drPsi) * c + pr2 * p.drPsi / (p.r * a3) + p.pr * p.dxiPsi * c +
    pr2 / (p.r * p.r * a2) + p.bTheta0 * b + p.nablaA2 * c * (1 / 2))

/-- `C_i` (b_theta.py 262). -/
noncomputable def C : ℝ :=
  let a := 1 + p.psi
  let c := 1 / (p.r * (a * a))
  p.q * (p.pr * p.pr * c - (p.gamma / a - 1) / p.r)

/-- One step of the recurrence for `K, U` (b_theta.py 217-223) on the pair `(K, U)`. -/
noncomputable def hom (x : ℝ × ℝ) : ℝ × ℝ :=
  let l := 1 + 1 / 2 * p.A * p.r
  let m := 1 / 2 * p.A / p.r
  let n := -(1 / 2) * p.A * p.r ^ 3
  let o := 1 - 1 / 2 * p.A * p.r
  (l * x.1 + m * x.2, n * x.1 + o * x.2)

/-- One step of the recurrence for `T, P` (b_theta.py 264-271) on the pair `(T, P)`. -/
noncomputable def step (x : ℝ × ℝ) : ℝ × ℝ :=
  let l := 1 + 1 / 2 * p.A * p.r
  let m := 1 / 2 * p.A / p.r
  let n := -(1 / 2) * p.A * p.r ^ 3
  let o := 1 - 1 / 2 * p.A * p.r
  (l * x.1 + m * x.2 + 1 / 2 * p.B + 1 / 4 * p.A * p.C,
   n * x.1 + o * x.2 + p.r * (p.C - 1 / 2 * p.B * p.r - 1 / 4 * p.A * p.C * p.r))

/-- One inward step of the recurrence for `K, U` in `calculate_ai_bi_from_edge`
(b_theta.py 392-400). -/
noncomputable def homIn (x : ℝ × ℝ) : ℝ × ℝ :=
  let a := 1 + p.psi
  let l := 1 - 1 / 2 * p.q / a
  let m := -(1 / 2) * p.q / (a * p.r ^ 2)
  let n := 1 / 2 * p.q / a * p.r ^ 2
  let o := 1 + 1 / 2 * p.q / a
  (l * x.1 + m * x.2, n * x.1 + o * x.2)

/-- One inward step of the recurrence for `T, P` (b_theta.py 441-448). -/
noncomputable def stepIn (x : ℝ × ℝ) : ℝ × ℝ :=
  let a := 1 + p.psi
  let l := 1 - 1 / 2 * p.q / a
  let m := -(1 / 2) * p.q / (a * p.r ^ 2)
  let n := 1 / 2 * p.q / a * p.r ^ 2
  let o := 1 + 1 / 2 * p.q / a
  (l * x.1 + m * x.2 - 1 / 2 * p.B + 1 / 4 * p.A * p.C,
   n * x.1 + o * x.2 - p.r * (p.C - 1 / 2 * p.B * p.r + 1 / 4 * p.A * p.C * p.r))

end BPart

/-- `f (x (j-1)) ∘ ... ∘ f (x 0)`: the value carried by a loop after `j` iterations. -/
def run {X Y : Type} (f : X → Y → Y) (x : ℕ → X) (y : Y) : ℕ → Y
  | 0 => y
  | j + 1 => f (x j) (run f x y j)

/-- The test whether a value may be stored (b_theta.py 299-300, 470-471): arguments `T_old, K_old,
P_old, U_old`. -/
noncomputable def precise (t k p u : ℝ) : Bool :=
  open Classical in
  decide (|t + k| ≥ 1 / 2 * |t - k|) && decide (|p + u| ≥ 1 / 2 * |p - u|)

/-- The loop over `range(start, n)` that stores values until the test fails (b_theta.py 286-308): from
position `i`, with `m` positions left, the first position that fails, or the end. -/
def stopAt (pass : ℕ → Bool) : ℕ → ℕ → ℕ
  | 0, i => i
  | m + 1, i => if pass i then stopAt pass m (i + 1) else i

/-- Local variables of the `while` loops (b_theta.py 233-316, 410-485). -/
structure BState where
  start : ℕ
  im1 : ℝ × ℝ
  TP : ℕ → ℝ × ℝ
  a0 : ℝ

/-- The result: `T`, `P` (as pairs, by sorted position) and `a_0`. -/
structure BResult where
  ab : ℕ → ℝ × ℝ
  a0 : ℝ

/-! ### From the axis -/

section Axis
variable (ok : ℝ → ℝ → ℝ → ℝ → Bool) (n : ℕ) (p : ℕ → BPart)

/-- `(K, U)` after `j` iterations of the first loop (b_theta.py 199-200, 206-229); `K[idx[k]]`,
`U[idx[k]]` is its value for `j = k + 1`. -/
noncomputable def KU (j : ℕ) : ℝ × ℝ := run BPart.hom p (1, 0) j

/-- One iteration of the `while` loop (b_theta.py 235-316).  `ok` is the precision test. -/
noncomputable def axisIter (s : BState) : BState :=
  let tp := fun j => run BPart.step (fun k => p (s.start + k)) s.im1 j
  let TP := fun i => if s.start ≤ i ∧ i < n then tp (i + 1 - s.start) else s.TP i
  let im1 := tp (n - s.start)
  let diff := -im1.1 / (KU p n).1
  let pass := fun i => decide (i = s.start) || decide (i = n - 1) ||
    ok (TP i).1 ((KU p (i + 1)).1 * diff) (TP i).2 ((KU p (i + 1)).2 * diff)
  let stop := stopAt pass (n - s.start) s.start
  let TP' := fun i => if s.start ≤ i ∧ i < stop then
    ((TP i).1 + (KU p (i + 1)).1 * diff, (TP i).2 + (KU p (i + 1)).2 * diff) else TP i
  { start := stop
    im1 := if stop < n then TP' (stop - 1) else im1
    TP := TP'
    a0 := s.a0 + diff }

/-- The `while` loop (b_theta.py 233-316), with at most `fuel` iterations; `none` if it has not ended
by then. -/
noncomputable def axisLoop : ℕ → BState → Option BState
  | 0, s => if s.start < n then none else some s
  | f + 1, s => if s.start < n then axisLoop f (axisIter ok n p s) else some s

/-- `calculate_ai_bi_from_axis` (b_theta.py 147-318). -/
noncomputable def aiBiFromAxis (fuel : ℕ) : Option BResult :=
  (axisLoop ok n p fuel ⟨0, (0, 0), fun _ => (0, 0), 0⟩).map fun s => ⟨s.TP, s.a0⟩

end Axis

/-! ### From the edge -/

section Edge
variable (ok : ℝ → ℝ → ℝ → ℝ → Bool) (n : ℕ) (p : ℕ → BPart)

/-- The particle `idx[-1-i_sort]`. -/
def rev (k : ℕ) : BPart := p (n - 1 - k)

/-- `(K_ip1, U_ip1)` after `j` iterations (b_theta.py 380-381, 386-406); `K[idx[-1-k]]` is its value for
`j = k` (the value before the step is stored, 402-403). -/
noncomputable def KUin (j : ℕ) : ℝ × ℝ := run BPart.homIn (rev n p) (0, 1) j

/-- One iteration of the `while` loop (b_theta.py 412-485).  `TP` is indexed by `i_sort`, i.e. counted
from the edge; `a0` is not used. -/
noncomputable def edgeIter (s : BState) : BState :=
  let tp := fun j => run BPart.stepIn (fun k => rev n p (s.start + k)) s.im1 j
  let TP := fun i => if s.start ≤ i ∧ i < n then tp (i - s.start) else s.TP i
  let im1 := tp (n - s.start)
  let diff := -im1.2 / (KUin n p n).2
  let pass := fun i => decide (i = s.start) ||
    ok (TP i).1 ((KUin n p i).1 * diff) (TP i).2 ((KUin n p i).2 * diff)
  let stop := stopAt pass (n - s.start) s.start
  let TP' := fun i => if s.start ≤ i ∧ i < stop then
    ((TP i).1 + (KUin n p i).1 * diff, (TP i).2 + (KUin n p i).2 * diff) else TP i
  { start := stop
    im1 := if stop < n then
        ((TP' stop).1 + (KUin n p stop).1 * diff, (TP' stop).2 + (KUin n p stop).2 * diff)
      else (im1.1 + (KUin n p n).1 * diff, im1.2 + (KUin n p n).2 * diff)
    TP := TP'
    a0 := 0 }

/-- The `while` loop (b_theta.py 410-485). -/
noncomputable def edgeLoop : ℕ → BState → Option BState
  | 0, s => if s.start < n then none else some s
  | f + 1, s => if s.start < n then edgeLoop f (edgeIter ok n p s) else some s

/-- `calculate_ai_bi_from_edge` (b_theta.py 321-488); the arrays are returned by sorted position. -/
noncomputable def aiBiFromEdge (fuel : ℕ) : Option BResult :=
  (edgeLoop ok n p fuel ⟨0, (0, 0), fun _ => (0, 0), 0⟩).map fun s =>
    ⟨fun k => s.TP (n - 1 - k), s.im1.1⟩

end Edge

/-! ### The field -/

/-- `calculate_b_theta` (b_theta.py 86-143): values written to `b_theta[k+2, 2:2+n_points]`. -/
noncomputable def calculateBTheta (ok : ℝ → ℝ → ℝ → ℝ → Bool) (rFld : List ℝ) (n : ℕ)
    (p : ℕ → BPart) (fuel : ℕ) : Option (List ℝ) :=
  (aiBiFromAxis ok n p fuel).map fun res =>
    gridLoop n (fun k => (p k).r) (fun (k : ℤ) rj =>
      if k = -1 then res.a0 * rj
      else (res.ab k.toNat).1 * rj + (res.ab k.toNat).2 / rj) 0 rFld

/-- `calculate_b_theta_at_particles` (b_theta.py 13-82): `b_theta_pp[idx[k]]`. -/
noncomputable def bThetaAt (n : ℕ) (p : ℕ → BPart) (drP : ℝ) (res : BResult) (k : ℕ) : ℝ :=
  let rk := (p k).r
  let rLeft := if 0 < k then ((p (k - 1)).r + rk) / 2 else 0
  let left := if 0 < k then (res.ab (k - 1)).1 * rLeft + (res.ab (k - 1)).2 / rLeft else 0
  let rNext := if k + 1 < n then (p (k + 1)).r else rk + drP / 2
  let rRight := (rk + rNext) / 2
  let right := (res.ab k).1 * rRight + (res.ab k).2 / rRight
  let b := (right - left) / (rRight - rLeft)
  let a := left - b * rLeft
  Slice.limit3 (a + b * rk)

end WakeT.Plasma
