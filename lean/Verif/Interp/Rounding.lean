import Verif.Interp.Model

/-!
# The gathering functions with rounding

The functions of `wake_t/particles/interpolation.py` with a rounding `rnd` after each operation on floating point numbers.
Comparisons, `floor`, operations on integers and the product with a sign are exact.  `x_i**2` is one operation.
-/

set_option linter.unusedSectionVars false

namespace WakeT.Interp.Rounded

variable (rnd : ℝ → ℝ)

/-- `r_i` (particles/interpolation.py 53, 126). -/
noncomputable def radius (x y : ℝ) : ℝ := rnd √(rnd (rnd (x ^ 2) + rnd (y ^ 2)))

/-- Position in cell units (particles/interpolation.py 58-59, 132-133, 243-244). -/
noncomputable def cell (x xMin dx : ℝ) : ℝ := rnd (rnd (rnd (x - xMin) / dx) + 2)

/-- The bilinear interpolation of one array in the form shared by the three gathering functions (particles/interpolation.py 57-86;
131-188; 242-289). -/
noncomputable def cellInterp (b : Box) (sign : ℝ) (fld : Arr ℝ) (r z : ℝ) : Option ℝ := do
  let rCell := cell rnd r b.rMin b.dr
  let zCell := cell rnd z b.zMin b.dz
  let irUpper := ⌊rCell⌋ + 1
  let izLower := ⌊zCell⌋
  let izUpper := izLower + 1
  let (irLower, corr) := if ⌊rCell⌋ < 2 then (2, sign) else (⌊rCell⌋, 1)
  let fll ← fld.get izLower irLower
  let flu ← fld.get izLower irUpper
  let ful ← fld.get izUpper irLower
  let fuu ← fld.get izUpper irUpper
  let dzU : ℝ := rnd ((izUpper : ℝ) - zCell)
  let dzL : ℝ := rnd (zCell - (izLower : ℝ))
  let z1 := rnd (rnd (dzU * (fll * corr)) + rnd (dzL * (ful * corr)))
  let z2 := rnd (rnd (dzU * flu) + rnd (dzL * fuu))
  let drU : ℝ := rnd ((irUpper : ℝ) - rCell)
  let drL : ℝ := rnd (1 - drU)
  some (rnd (rnd (drU * z1) + rnd (drL * z2)))

open Classical in
/-- One iteration of `gather_field_cyl_linear` (particles/interpolation.py 48-86). -/
noncomputable def gatherField1 (b : Box) (fld : Arr ℝ) (x y z : ℝ) : Option ℝ :=
  let r := radius rnd x y
  if b.Has r z then cellInterp rnd b 1 fld r z else some 0

open Classical in
/-- One iteration of `gather_main_fields_cyl_linear` (particles/interpolation.py 120-194). -/
noncomputable def gatherMain1 (b : Box) (er ez bt : Arr ℝ) (x y z : ℝ) (v : Fields.EB ℝ) : Except GErr (Fields.EB ℝ) :=
  let r := radius rnd x y
  if r = 0 then .error .zeroDivision
  else
    let invR := rnd (1 / r)
    if b.Has r z then
      match cellInterp rnd b (-1) er r z, cellInterp rnd b (-1) bt r z, cellInterp rnd b 1 ez r z with
      | some eri, some bti, some ezi =>
        .ok { ex := rnd (v.ex + rnd (rnd (eri * x) * invR)), ey := rnd (v.ey + rnd (rnd (eri * y) * invR)), ez := rnd (v.ez + ezi),
              bx := rnd (v.bx + rnd (rnd (-bti * y) * invR)), b_y := rnd (v.b_y + rnd (rnd (bti * x) * invR)), bz := v.bz }
      | _, _, _ => .error .outOfBounds
    else .ok v

open Classical in
/-- One iteration of `gather_sources_qs_baxevanis` (particles/interpolation.py 234-289). -/
noncomputable def gatherSources1 (b : Box) (f1 f2 f3 : Arr ℝ) (r z : ℝ) (old : Src) : Option Src :=
  if b.Has r z then do
    let s1 ← cellInterp rnd b 1 f1 r z
    let s2 ← cellInterp rnd b (-1) f2 r z
    let s3 ← cellInterp rnd b (-1) f3 r z
    some ⟨s1, s2, s3⟩
  else some old

end WakeT.Interp.Rounded
