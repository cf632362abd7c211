import Verif.CSR.Model
import Mathlib.Analysis.SpecialFunctions.Trigonometric.Arctan
import Mathlib.Analysis.SpecialFunctions.Pow.Real
import Mathlib.Algebra.BigOperators.Intervals

/-!
# Model of the CSR kernel and of the energy change

`wake_t/physics_models/collective_effects/csr.py` 56-128 and 193-374.

Array operations are written entry by entry.  Divisions by zero give `inf` or `nan` in numpy
without an error; here they give zero, so the theorems are about cases without them.
-/

set_option linter.unusedSectionVars false

namespace WakeT.CSR

open Finset

/-- `np.dot` of two vectors (csr.py 310-312, 354-372). -/
def dot (u v : Fin 3 → ℝ) : ℝ := u 0 * v 0 + u 1 * v 1 + u 2 * v 2

/-- `beta` (csr.py 261-263, 344-347). -/
noncomputable def betaOf (γ : ℝ) : ℝ := √(1 - 1 / γ ^ 2)

/-- `R` (csr.py 271-277). -/
noncomputable def chord (traj : ℕ → Pt) (i k : ℕ) : ℝ :=
  √(((traj i).pos 0 - (traj k).pos 0) * ((traj i).pos 0 - (traj k).pos 0)
    + ((traj i).pos 1 - (traj k).pos 1) * ((traj i).pos 1 - (traj k).pos 1)
    + ((traj i).pos 2 - (traj k).pos 2) * ((traj i).pos 2 - (traj k).pos 2))

/-- `K` at the trajectory point `k` seen from `i`, before it is integrated (csr.py 304-314). -/
noncomputable def kernelAt (traj : ℕ → Pt) (γ : ℝ) (i k : ℕ) : ℝ :=
  let gInv := 1 / γ ^ 2                                                           -- 261
  let βsq := 1 - gInv                                                             -- 262
  let β := betaOf γ
  let R := chord traj i k
  let rInv := 1 / R                                                               -- 305
  let n : Fin 3 → ℝ := fun a => ((traj i).pos a - (traj k).pos a) * rInv          -- 306-308
  let x := dot n (traj k).tan                                                     -- 310
  let w := retarded traj β i k                                                    -- 279
  (β * (x - dot n (traj i).tan) - βsq * (1 - dot (traj k).tan (traj i).tan) - gInv) * rInv
    - (1 - β * x) / w * gInv                                                      -- 311-314

/-- The contribution of the interval from point `k` to the next one (csr.py 317-318).  For the
last point `k = i - 1` the next value of `K` is missing and the next value of `s` is zero. -/
noncomputable def kernelSeg (traj : ℕ → Pt) (γ : ℝ) (i k : ℕ) : ℝ :=
  if k + 1 < i then
    (kernelAt traj γ i k + kernelAt traj γ i (k + 1))
      * (1 / 2 * (((traj (k + 1)).s - (traj i).s) - ((traj k).s - (traj i).s)))
  else kernelAt traj γ i k * (1 / 2 * (0 - ((traj k).s - (traj i).s)))

/-- The integrated kernel of `_calculate_kernel_long_range` at point `k` (csr.py 316-321). -/
noncomputable def longRange (traj : ℕ → Pt) (γ : ℝ) (i k : ℕ) : ℝ :=
  ∑ m ∈ Ico k i, kernelSeg traj γ i m

/-- `Rv1` (csr.py 350). -/
def entryVec (traj : ℕ → Pt) (i : ℕ) : Fin 3 → ℝ := fun a => (traj i).pos a - (traj 0).pos a

/-- `winfms1` (csr.py 354). -/
noncomputable def entryLen (traj : ℕ → Pt) (i : ℕ) : ℝ := dot (entryVec traj i) (traj 0).tan

/-- `aup` (csr.py 356). -/
noncomputable def entryAcross (traj : ℕ → Pt) (i : ℕ) : Fin 3 → ℝ :=
  fun a => -entryVec traj i a + entryLen traj i * (traj 0).tan a

/-- `winf` (csr.py 351, 362). -/
noncomputable def wInf (traj : ℕ → Pt) (i : ℕ) : ℝ :=
  ((traj 0).s - (traj i).s) + entryLen traj i

/-- `a2` (csr.py 357). -/
noncomputable def entryA2 (traj : ℕ → Pt) (i : ℕ) : ℝ := dot (entryAcross traj i) (entryAcross traj i)

/-- `s` as a function of `w` (csr.py 363-364). -/
noncomputable def shortS (traj : ℕ → Pt) (γ : ℝ) (i : ℕ) (w : ℝ) : ℝ :=
  wInf traj i + γ * (γ * (w - wInf traj i)
    - betaOf γ * √(γ ^ 2 * (w - wInf traj i) ^ 2 + entryA2 traj i))

/-- `R` as a function of `w` (csr.py 365). -/
noncomputable def shortR (traj : ℕ → Pt) (γ : ℝ) (i : ℕ) (w : ℝ) : ℝ := (w - shortS traj γ i w) / betaOf γ

/-- `uup` (csr.py 360); not used if `a = 0`. -/
noncomputable def entryUnit (traj : ℕ → Pt) (i : ℕ) : Fin 3 → ℝ :=
  fun a => entryAcross traj i a / √(entryA2 traj i)

open Classical in
/-- `_calculate_kernel_short_range` (csr.py 323-374) at `w`, where `w0` and `w1` are the first two
entries of `w_range`. -/
noncomputable def shortRange (traj : ℕ → Pt) (γ : ℝ) (i : ℕ) (w0 w1 w : ℝ) : ℝ :=
  let β := betaOf γ
  let c := dot (traj 0).tan (traj i).tan
  let winf := wInf traj i
  let s := shortS traj γ i w
  let s0 := shortS traj γ i w0
  let R := shortR traj γ i w
  let R0 := shortR traj γ i w0
  let KS := β * (1 - c) * Real.log (R0 / R)
    - ((1 - 1 / γ ^ 2) * c - 1) * Real.log ((winf - s + R) / (winf - s0 + R0))
    + 1 / γ ^ 2 * Real.log (w0 / w)                                               -- 367-370
  if entryA2 traj i / shortR traj γ i w1 ^ 2 > 1e-7 then                          -- 371
    KS - β * dot (entryUnit traj i) (traj i).tan
      * (Real.arctan ((s0 - winf) / √(entryA2 traj i)) - Real.arctan ((s - winf) / √(entryA2 traj i)))
  else KS

/-- `np.interp(x, xp, fp)` for increasing `xp` with `n ≥ 1` entries (csr.py 125, 229, 231). -/
noncomputable def npInterp (xp fp : ℕ → ℝ) (n : ℕ) (x : ℝ) : ℝ :=
  match lastBelow xp x n with
  | none => fp 0
  | some j =>
    if j + 1 = n then fp j
    else fp j + (fp (j + 1) - fp j) / (xp (j + 1) - xp j) * (x - xp j)

/-- `np.diff(f, append=0)` for an array of `n` entries (csr.py 234). -/
def diff0 (n : ℕ) (f : ℕ → ℝ) (l : ℕ) : ℝ := (if l + 1 < n then f (l + 1) else 0) - f l

/-- `np.min` of the entries `j .. i - 1` (csr.py 222). -/
noncomputable def minOn (w : ℕ → ℝ) (j i : ℕ) : ℝ :=
  (List.range (i - j)).foldl (fun m k => min m (w (j + k))) (w j)

open Classical in
/-- `np.where(w_range < w_min)[0][-1]` (csr.py 224). -/
noncomputable def lastStrict (w : ℕ → ℝ) (wMin : ℝ) (n : ℕ) : ℕ :=
  (((List.range n).filter fun l => w l < wMin).getLast?).getD 0

/-- First trajectory point of the long-range kernel (csr.py 265, 282-293, with the default
arguments of 376-377). -/
noncomputable def firstPoint (traj : ℕ → Pt) (γ wMin : ℝ) (i : ℕ) : ℕ :=
  kernelStart traj (betaOf γ) wMin i (estimateStart traj (betaOf γ) wMin i 1000 10)

open Classical in
/-- `KS` at entry `l` of `w_range` (csr.py 216-231). -/
noncomputable def kernelSum (traj : ℕ → Pt) (γ : ℝ) (i nBins : ℕ) (h : ℝ) (l : ℕ) : ℝ :=
  let wr : ℕ → ℝ := fun l => ((l : ℝ) - nBins) * h                                -- 216
  let j := firstPoint traj γ (wr 0) i                                             -- 219
  let w : ℕ → ℝ := fun k => retarded traj (betaOf γ) i (j + k)
  let KS : ℕ → ℝ := fun k => longRange traj γ i (j + k)
  let wMin := minOn (retarded traj (betaOf γ) i) j i                              -- 222
  if wr 0 < wMin then                                                             -- 223
    let m := lastStrict wr wMin nBins                                             -- 224
    let w1 := if 0 < m then wr 1 else wMin
    let sr := shortRange traj γ i (wr 0) w1                                       -- 225-226
    if l ≤ m then (sr wMin - sr (wr l)) + KS 0                                    -- 227-229
    else npInterp w KS (i - j) (wr l)
  else npInterp w KS (i - j) (wr l)                                               -- 231

/-- `_calculate_kernel` (csr.py 193-235); `c` is the speed of light. -/
noncomputable def kernel (c : ℝ) (traj : ℕ → Pt) (γ : ℝ) (i nBins : ℕ) (h : ℝ) (l : ℕ) : ℝ :=
  diff0 nBins (diff0 nBins (kernelSum traj γ i nBins h)) l / h / (1 / (1e-7 * c ^ 2))

/-! ### The line charge -/

/-- Smallest of `f 0, ..., f (n - 1)`: the lower end of the histogram (csr.py 94). -/
noncomputable def arrMin (f : ℕ → ℝ) (n : ℕ) : ℝ := (List.range n).foldl (fun m k => min m (f k)) (f 0)

/-- Largest of `f 0, ..., f (n - 1)`: the upper end of the histogram (csr.py 94). -/
noncomputable def arrMax (f : ℕ → ℝ) (n : ℕ) : ℝ := (List.range n).foldl (fun m k => max m (f k)) (f 0)

open Classical in
/-- Ends of the histogram of `np.histogram` (csr.py 94): the extent of the data, widened by one
half to both sides if it is a single point. -/
noncomputable def histRange (z : ℕ → ℝ) (n : ℕ) : ℝ × ℝ :=
  let lo := arrMin z n
  let hi := arrMax z n
  if lo = hi then (lo - 1 / 2, hi + 1 / 2) else (lo, hi)

/-- `bin_size` (csr.py 98). -/
noncomputable def binSize (z : ℕ → ℝ) (n nBins : ℕ) : ℝ :=
  ((histRange z n).2 - (histRange z n).1) / nBins

open Classical in
/-- Bin of a value: bins are half-open, the last one is closed (`np.histogram`, csr.py 94). -/
noncomputable def binOf (z : ℕ → ℝ) (n nBins : ℕ) (x : ℝ) : ℕ :=
  min ⌊(x - (histRange z n).1) / binSize z n nBins⌋₊ (nBins - 1)

/-- `bunch_hist` of `np.histogram` (csr.py 94). -/
noncomputable def hist (z q : ℕ → ℝ) (n nBins : ℕ) (b : ℕ) : ℝ :=
  ∑ p ∈ range n, if binOf z n nBins (z p) = b then q p else 0

/-- `bin_centers` (csr.py 100). -/
noncomputable def binCenter (z : ℕ → ℝ) (n nBins : ℕ) (b : ℕ) : ℝ :=
  ((histRange z n).1 + (b + 1) * binSize z n nBins) - binSize z n nBins / 2

/-- `scipy.stats.gaussian_kde(x, bw_method=f, weights=v)` evaluated at `y` (csr.py 101-103), for
`m` data points: the covariance is that of `np.cov` with `aweights` times `f**2`. -/
noncomputable def kde (x v : ℕ → ℝ) (m : ℕ) (f y : ℝ) : ℝ :=
  let tot := ∑ b ∈ range m, v b
  let wt : ℕ → ℝ := fun b => v b / tot
  let mean := ∑ b ∈ range m, wt b * x b
  let cov := (∑ b ∈ range m, wt b * (x b - mean) ^ 2) / (1 - ∑ b ∈ range m, wt b ^ 2) * f ^ 2
  ∑ b ∈ range m, wt b * Real.exp (-(y - x b) ^ 2 / (2 * cov)) / √(2 * Real.pi * cov)

/-- The smoothed profile (csr.py 98-103). -/
noncomputable def profile (z q : ℕ → ℝ) (n nBins : ℕ) (b : ℕ) : ℝ :=
  kde (binCenter z n nBins) (hist z q n nBins) nBins ((n : ℝ) ^ (-(1 : ℝ) / 5)) (binCenter z n nBins b)
    * binSize z n nBins * ∑ b ∈ range nBins, hist z q n nBins b

/-! ### The energy change -/

/-- `(np.abs(s_array - x)).argmin()` (csr.py 108-109): the first of the points closest to `x`. -/
noncomputable def nearest (traj : List Pt) (x : ℝ) : ℕ :=
  (List.range traj.length).foldl (fun b k =>
    open Classical in
    if |(traj.getD k startPt).s - x| < |(traj.getD b startPt).s - x| then k else b) 0

/-- `K1` of `apply_csr` (csr.py 114-118): the average of the kernels at the trajectory points
after `p` up to `i`. -/
noncomputable def meanKernel (c : ℝ) (traj : ℕ → Pt) (γ : ℝ) (p i nBins : ℕ) (h : ℝ) (l : ℕ) : ℝ :=
  (∑ it ∈ Ico p i, kernel c traj γ (it + 1) nBins h l) / ((i - p : ℕ) : ℝ)

/-- `lam_K1` (csr.py 121): entry `m` of `np.convolve(bunch_hist, K1[::-1])`, scaled. -/
noncomputable def wake (K1 lam : ℕ → ℝ) (nBins : ℕ) (h ds : ℝ) (m : ℕ) : ℝ :=
  (∑ b ∈ range nBins, if b ≤ m ∧ m - b < nBins then lam b * K1 (nBins - 1 - (m - b)) else 0) / h * ds

/-- The change of the relative momentum of a particle at `z` (csr.py 123-128) in the wake `wk`. -/
noncomputable def kickOf (γ : ℝ) (wk : ℕ → ℝ) (nBins : ℕ) (h c0 z : ℝ) : ℝ :=
  let zNorm := z * (1 / h) - c0 / h
  let dE := npInterp (fun m => (m : ℝ)) wk (2 * nBins - 1) zNorm
  dE * 1e-9 / (√(γ ^ 2 - 1) * 0.511e-3)

/-- `apply_csr` (csr.py 56-128): the change of the relative momentum of every particle, from the
longitudinal coordinates `tau` and charges `q` of `n` particles; `nBins` is the setting
`n_bins`.  `none` stands for an exception: an element that was not added (`ValueError`, line 81),
or no trajectory point between the current and the previous position
(`ZeroDivisionError`, line 118). -/
noncomputable def Calc.applyCsr (k : Calc) (c : ℝ) (nBins : ℕ) (e : Elem) (elementPos γ : ℝ)
    (tau q : ℕ → ℝ) (n : ℕ) : Option (ℕ → ℝ) := do
  let (dsCsr, _) ← k.stepsOf e                                                 -- 81-82
  let traj ← k.refTraj
  let sCurrent := k.position e elementPos                                      -- 84-90
  let z : ℕ → ℝ := fun p => -tau p                                                -- 93
  let h := binSize z n nBins
  let idx := nearest traj sCurrent                                                -- 108
  let idxPrev := nearest traj (sCurrent - dsCsr)                                  -- 109
  if idx ≤ idxPrev then none                                                      -- 110-118
  else
    let t : ℕ → Pt := fun m => traj.getD m startPt
    let K1 := meanKernel c t γ idxPrev idx nBins h
    let wk := wake K1 (profile z q n nBins) nBins h dsCsr                         -- 121
    some fun p => kickOf γ wk nBins h (binCenter z n nBins 0) (z p)

end WakeT.CSR
