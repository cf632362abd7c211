import Verif.Base.Arr
import Verif.Base.Loop
import Verif.Fields.Model
import Mathlib.Algebra.Module.Defs
import Mathlib.Analysis.SpecialFunctions.Sqrt
import Mathlib.Data.Real.Archimedean

/-!
# Model of `wake_t/fields/interpolation.py` and `wake_t/particles/interpolation.py`
-/

set_option linter.unusedSectionVars false

namespace WakeT.Interp

section regrid

variable {K : Type*} [Field K] [LinearOrder K] [IsStrictOrderedRing K] [FloorRing K]
variable {V : Type*} [AddCommGroup V] [Module K V]

/-- One output value of `interpolate_rz_field` (fields/interpolation.py 49-102)
at `(z, r)`.  The field may be complex (laser envelope), so values are in a
module over the coordinates. -/
def interpPoint (fld : Arr V) (zMin rMin dz dr z r : K) : Option V := do
  let zCell := (z - zMin) / dz                                     -- 54
  let izLower := ⌊zCell⌋                                           -- 57
  let dzU : K := ((izLower + 1 : ℤ) : K) - zCell                   -- 61
  let dzL : K := zCell - (izLower : K)                             -- 62
  let izUpper := min (izLower + 1) ((fld.ni : ℤ) - 1)              -- 65
  let rCell := (r - rMin) / dr                                     -- 73
  let jrLower := max ⌊rCell⌋ 0                                     -- 76
  let drU : K := ((jrLower + 1 : ℤ) : K) - rCell                   -- 80
  let drL : K := 1 - drU                                           -- 81
  let jrUpper := min (jrLower + 1) ((fld.nj : ℤ) - 1)              -- 84
  let fll ← fld.get izLower jrLower                                -- 87
  let flu ← fld.get izLower jrUpper                                -- 88
  let ful ← fld.get izUpper jrLower                                -- 89
  let fuu ← fld.get izUpper jrUpper                                -- 90
  let (flu, fuu) ← (if jrLower = jrUpper then do                   -- 93-95
      let gl ← fld.get izLower (jrUpper - 1)
      let gu ← fld.get izUpper (jrUpper - 1)
      some (flu + (flu - gl), fuu + (fuu - gu))
    else some (flu, fuu))
  let z1 := dzU • fll + dzL • ful                                  -- 98
  let z2 := dzU • flu + dzL • fuu                                  -- 99
  some (drU • z1 + drL • z2)                                       -- 102

/-- `interpolate_rz_field` (fields/interpolation.py 10-102): `fld_new`, row by
row; an entry is `none` if its computation reads outside the array. -/
def interpolate (fld : Arr V) (zMin rMin dz dr : K) (zNew rNew : List K) :
    List (List (Option V)) :=
  zNew.map fun z => rNew.map fun r => interpPoint fld zMin rMin dz dr z r

end regrid

/-- Arguments describing the grid of a gathering function
(particles/interpolation.py 28-33). -/
structure Box where
  zMin : ℝ
  zMax : ℝ
  rMin : ℝ
  rMax : ℝ
  dz : ℝ
  dr : ℝ

/-- `z_i >= z_min and z_i <= z_max and r_i <= r_max` (interpolation.py 56, 130, 241). -/
def Box.Has (b : Box) (r z : ℝ) : Prop := b.zMin ≤ z ∧ z ≤ b.zMax ∧ r ≤ b.rMax

/-- The bilinear interpolation of one array at radius `r` and position `z`, in
the form shared by the three gathering functions of particles/interpolation.py
(57-86; 131-188; 242-289).  If the lower radial cell is below the axis its values
are taken from the first cell times `sign` (68-69; 144-147, 155-163; 255-272). -/
noncomputable def cellInterp (b : Box) (sign : ℝ) (fld : Arr ℝ) (r z : ℝ) : Option ℝ := do
  let rCell := (r - b.rMin) / b.dr + 2
  let zCell := (z - b.zMin) / b.dz + 2
  let irUpper := ⌊rCell⌋ + 1
  let izLower := ⌊zCell⌋
  let izUpper := izLower + 1
  let (irLower, corr) := if ⌊rCell⌋ < 2 then (2, sign) else (⌊rCell⌋, 1)
  let fll ← fld.get izLower irLower
  let flu ← fld.get izLower irUpper
  let ful ← fld.get izUpper irLower
  let fuu ← fld.get izUpper irUpper
  let dzU : ℝ := (izUpper : ℝ) - zCell
  let dzL : ℝ := zCell - (izLower : ℝ)
  let z1 := dzU * (fll * corr) + dzL * (ful * corr)
  let z2 := dzU * flu + dzL * fuu
  let drU : ℝ := (irUpper : ℝ) - rCell
  let drL : ℝ := 1 - drU
  some (drU * z1 + drL * z2)

open Classical in
/-- One iteration of `gather_field_cyl_linear` (particles/interpolation.py
48-86).  The output array is zero initially (45). -/
noncomputable def gatherField1 (b : Box) (fld : Arr ℝ) (x y z : ℝ) : Option ℝ :=
  let r := √(x ^ 2 + y ^ 2)
  if b.Has r z then cellInterp b 1 fld r z else some 0

/-- Errors of the gathering of one particle (particles/interpolation.py 127 and the array
accesses 143-180). -/
inductive GErr where
  | zeroDivision
  | outOfBounds
  deriving DecidableEq

open Classical in
/-- One iteration of `gather_main_fields_cyl_linear` (particles/interpolation.py
120-194): new field values of the particle.  `1./r_i` (127) is evaluated before
the bounds test; numba's default error model raises `ZeroDivisionError`. -/
noncomputable def gatherMain1 (b : Box) (er ez bt : Arr ℝ) (x y z : ℝ) (v : Fields.EB ℝ) :
    Except GErr (Fields.EB ℝ) :=
  let r := √(x ^ 2 + y ^ 2)
  if r = 0 then .error .zeroDivision
  else
    let invR := 1 / r
    if b.Has r z then
      match cellInterp b (-1) er r z, cellInterp b (-1) bt r z, cellInterp b 1 ez r z with
      | some eri, some bti, some ezi =>
        .ok { ex := v.ex + eri * x * invR, ey := v.ey + eri * y * invR, ez := v.ez + ezi,
              bx := v.bx + -bti * y * invR, b_y := v.b_y + bti * x * invR, bz := v.bz }
      | _, _, _ => .error .outOfBounds
    else .ok v

/-- The three source terms of a plasma particle (particles/interpolation.py 211-214). -/
@[ext] structure Src where
  a2 : ℝ
  nablaA2 : ℝ
  bTheta0 : ℝ

open Classical in
/-- One iteration of `gather_sources_qs_baxevanis` (particles/interpolation.py
234-289): new values of the three entries (outside of the box the old values
stay). -/
noncomputable def gatherSources1 (b : Box) (f1 f2 f3 : Arr ℝ) (r z : ℝ) (old : Src) :
    Option Src :=
  if b.Has r z then do
    let s1 ← cellInterp b 1 f1 r z
    let s2 ← cellInterp b (-1) f2 r z
    let s3 ← cellInterp b (-1) f3 r z
    some ⟨s1, s2, s3⟩
  else some old

end WakeT.Interp
