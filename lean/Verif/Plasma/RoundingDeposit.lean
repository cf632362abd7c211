import Verif.Deposition.RoundingProps
import Verif.Plasma.Deposit

/-!
# Deposition of the plasma with rounding

`deposition.py` of `wake_t/physics_models/plasma_wakefields/qs_rz_baxevanis/` with a rounding after each operation on floating point numbers,
as in `Verif.Deposition.Rounding`.  The index of the slice is an integer, exactly represented.
-/

set_option linter.unusedSectionVars false

namespace WakeT.Plasma.Rounded

open WakeT.Base (Rounds)
open WakeT.Deposition (Grid Shape Write S4)
open WakeT.Deposition.Rounded (rMax frac zLinear cubic fold toList writes addTo cells)

/-! ### Model -/

section
variable (rnd : ℝ → ℝ)

/-- The test of deposition.py 59, 68 and 114, 122. -/
def Inside (g : Grid ℝ) (p : PRing ℝ) : Prop := p.r ≤ rMax rnd g

/-- `r_cell` (deposition.py 70, 124). -/
noncomputable def rCell (g : Grid ℝ) (p : PRing ℝ) : ℝ := rnd (rnd (p.r - g.rMin) / g.dr)

open Classical in
/-- `u_r` (deposition.py 77-84). -/
noncomputable def uR (g : Grid ℝ) (p : PRing ℝ) : ℝ :=
  if rCell rnd g p < 0 then 1 else if rCell rnd g p > (g.nr : ℝ) - 1 then 0 else frac rnd (rCell rnd g p)

open Classical in
/-- `u_z` (deposition.py 87-94) in the slice `i`; the second test is on the radial position, as in the code. -/
noncomputable def uZ (g : Grid ℝ) (i : ℕ) (p : PRing ℝ) : ℝ :=
  if (i : ℝ) < 0 then 1 else if rCell rnd g p > (g.nz : ℝ) - 1 then 0 else frac rnd i

open Classical in
/-- One particle of `deposit_plasma_particles_linear` in the slice `i` (deposition.py 62-106). -/
noncomputable def writesLinear (g : Grid ℝ) (i : ℕ) (p : PRing ℝ) : List (Write ℝ) :=
  if Inside rnd g p then
    let ir := min (⌈rCell rnd g p⌉ + 1) ((g.nr : ℤ) + 2)                          -- 73
    let iz := ⌈(i : ℝ)⌉ + 1                                                       -- 74
    writes rnd iz ir (zLinear rnd (uZ rnd g i p)) (zLinear rnd (uR rnd g p)) p.w  -- 97-106
  else []

open Classical in
/-- One particle of `deposit_plasma_particles_cubic` in the slice `i` (deposition.py 117-204). -/
noncomputable def writesCubic (g : Grid ℝ) (i : ℕ) (p : PRing ℝ) : List (Write ℝ) :=
  if Inside rnd g p then
    let ir := min ⌈rCell rnd g p⌉ ((g.nr : ℤ) + 2)                                -- 127
    let iz := ⌈(i : ℝ)⌉                                                           -- 128
    let zs := fold rnd i g.nz (cubic rnd (frac rnd i))                            -- 131, 140-143, 169-186
    let rs := fold rnd (rCell rnd g p) g.nr (cubic rnd (frac rnd (rCell rnd g p)))  -- 132, 144-147, 151-167
    writes rnd iz ir (toList zs) (toList rs) p.w                                  -- 189-204
  else []

/-- The writes of one particle (deposition.py 46-51). -/
noncomputable def writesOf (sh : Shape) (g : Grid ℝ) (i : ℕ) (p : PRing ℝ) : List (Write ℝ) :=
  match sh with
  | .linear => writesLinear rnd g i p
  | .cubic => writesCubic rnd g i p

/-- `deposit_plasma_particles` in the slice `i` (deposition.py 12-51). -/
noncomputable def deposit (sh : Shape) (g : Grid ℝ) (i : ℕ) (ps : List (PRing ℝ)) (a : ℤ → ℤ → ℝ) : ℤ → ℤ → ℝ :=
  ps.foldl (fun a p => (writesOf rnd sh g i p).foldl (addTo rnd) a) a

/-- The deposition of one slice after the other into the same array (solver.py 443-446, called in the loops 251, 326). -/
noncomputable def depositSlices (sh : Shape) (g : Grid ℝ) (cols : List (ℕ × List (PRing ℝ))) (a : ℤ → ℤ → ℝ) : ℤ → ℤ → ℝ :=
  cols.foldl (fun a c => deposit rnd sh g c.1 c.2 a) a

/-! ### Specification -/

/-- The number of particles in the slices. -/
def count (cols : List (ℕ × List (PRing ℝ))) : ℕ := (cols.map fun c => c.2.length).sum

open Classical in
/-- The weight of the particles inside of the grid. -/
noncomputable def weight (g : Grid ℝ) (cols : List (ℕ × List (PRing ℝ))) : ℝ :=
  (cols.map fun c => ((c.2.filter fun p => Inside rnd g p).map fun p => p.w).sum).sum
end

/-- The sum of the moduli of the weights. -/
noncomputable def mass (cols : List (ℕ × List (PRing ℝ))) : ℝ := (cols.map fun c => (c.2.map fun p => |p.w|).sum).sum

/-- The first radial point is half a cell from the axis, and the rounding error is small against a cell over the radius of the grid. -/
structure Resolved (ε : ℝ) (g : Grid ℝ) : Prop where
  dr : 0 < g.dr
  rMin : g.rMin = g.dr / 2
  r : 10 * ε * g.nr ≤ 1

/-! ### Properties -/

variable {rnd : ℝ → ℝ} {ε : ℝ}

private theorem uR_in (hr : Rounds ε rnd) (h0 : 0 ≤ ε) (h1 : ε ≤ 1 / 1000) (g : Grid ℝ) (p : PRing ℝ) :
    Deposition.Rounded.InCell ε (uR rnd g p) := by
  unfold uR
  split_ifs
  · exact ⟨by linarith, by linarith⟩
  · exact ⟨by linarith, by linarith⟩
  · exact Deposition.Rounded.frac_inCell hr h0 h1 _

private theorem uZ_in (hr : Rounds ε rnd) (h0 : 0 ≤ ε) (h1 : ε ≤ 1 / 1000) (g : Grid ℝ) (i : ℕ) (p : PRing ℝ) :
    Deposition.Rounded.InCell ε (uZ rnd g i p) := by
  unfold uZ
  split_ifs
  · exact ⟨by linarith, by linarith⟩
  · exact ⟨by linarith, by linarith⟩
  · exact Deposition.Rounded.frac_inCell hr h0 h1 _

private theorem outside {sh : Shape} {g : Grid ℝ} {i : ℕ} {p : PRing ℝ} (hp : ¬ Inside rnd g p) : writesOf rnd sh g i p = [] := by
  cases sh <;> simp [writesOf, writesLinear, writesCubic, hp]

/-- What one particle writes. -/
theorem writesOf_weight (hr : Rounds ε rnd) (h0 : 0 ≤ ε) (h1 : ε ≤ 1 / 1000) (sh : Shape) (g : Grid ℝ) (i : ℕ) {p : PRing ℝ} (hp : Inside rnd g p) :
    |((writesOf rnd sh g i p).map fun x => x.v).sum - p.w| ≤ 200 * ε * |p.w| ∧
      ((writesOf rnd sh g i p).map fun x => |x.v|).sum ≤ 5 * |p.w| := by
  cases sh with
  | linear =>
    unfold writesOf writesLinear
    simp only [if_pos hp]
    exact Deposition.Rounded.writes_charge hr h0 h1 _ _ (Deposition.Rounded.zLinear_fair hr h0 h1 (uZ_in hr h0 h1 g i p))
      (Deposition.Rounded.zLinear_fair hr h0 h1 (uR_in hr h0 h1 g p)) _
  | cubic =>
    unfold writesOf writesCubic
    simp only [if_pos hp]
    have fair : ∀ c : ℝ, Deposition.Rounded.Fair4 60 ε (18 / 10) (cubic rnd (frac rnd c)) := fun c => by
      have h := Deposition.Rounded.cubic_fair hr h0 h1 (Deposition.Rounded.frac_inCell hr h0 h1 c)
      exact ⟨h.1.trans (by linarith), h.2.trans (by norm_num)⟩
    exact Deposition.Rounded.writes_charge hr h0 h1 _ _ (Deposition.Rounded.fold_fair hr h0 h1 (fair _) _ _)
      (Deposition.Rounded.fold_fair hr h0 h1 (fair _) _ _) _

/-- No plasma particle, at whatever radius, leads to an access outside of the array, and only the rows next to the slice are changed. -/
theorem rounded_writes_in_bounds (hr : Rounds ε rnd) (h0 : 0 ≤ ε) (h1 : ε ≤ 1 / 1000) (sh : Shape) {g : Grid ℝ} (hg : Resolved ε g) {i : ℕ}
    (hi : i < g.nz) {p : PRing ℝ} (r0 : 0 ≤ p.r) :
    ∀ w ∈ writesOf rnd sh g i p, 0 ≤ w.i ∧ w.i < g.nz + 4 ∧ 0 ≤ w.j ∧ w.j < g.nr + 4 ∧ i ≤ w.i ∧ w.i ≤ i + 3 := by
  by_cases hp : Inside rnd g p
  · obtain ⟨c, d⟩ := Deposition.Rounded.cell_mem hr h0 h1 hg.dr hg.rMin hg.r r0 hp
    have r1 : 0 ≤ ⌈rCell rnd g p⌉ := Int.ceil_nonneg_of_neg_one_lt c
    have r2 : ⌈rCell rnd g p⌉ ≤ g.nr := Int.ceil_le.mpr (by exact_mod_cast d)
    have zi : ⌈(i : ℝ)⌉ = i := Int.ceil_natCast i
    have pos : ∀ (i j : ℤ) (zs rs : List ℝ) (w : ℝ), ∀ x ∈ writes rnd i j zs rs w,
        i ≤ x.i ∧ x.i < i + zs.length ∧ j ≤ x.j ∧ x.j < j + rs.length := by
      intro i j zs rs w x hx
      have := List.mem_map_of_mem (f := fun x : Write ℝ => (x.i, x.j)) hx
      rw [Deposition.Rounded.writes_pos] at this
      simp only [List.mem_flatMap, List.mem_map, List.mem_range, Prod.mk.injEq] at this
      obtain ⟨s, hs, t, ht, e1, e2⟩ := this
      omega
    cases sh with
    | linear =>
      unfold writesOf writesLinear
      simp only [if_pos hp]
      intro w hw
      have := pos _ _ _ _ _ w hw
      have l1 : ∀ u, (zLinear rnd u).length = 2 := fun _ => rfl
      rw [l1, l1, zi] at this
      omega
    | cubic =>
      unfold writesOf writesCubic
      simp only [if_pos hp]
      intro w hw
      have := pos _ _ _ _ _ w hw
      have l1 : ∀ s, (toList s).length = 4 := fun _ => rfl
      rw [l1, l1, zi] at this
      omega
  · rw [outside hp]
    simp

private theorem nodup (sh : Shape) (g : Grid ℝ) (i : ℕ) (p : PRing ℝ) : ((writesOf rnd sh g i p).map fun x => (x.i, x.j)).Nodup := by
  cases sh <;> unfold writesOf <;> simp only
  · unfold writesLinear
    split_ifs
    · exact Deposition.Rounded.writes_nodup _ _ _ _ _
    · simp
  · unfold writesCubic
    split_ifs
    · exact Deposition.Rounded.writes_nodup _ _ _ _ _
    · simp

/-- All writes of a slice. -/
private noncomputable def column (rnd : ℝ → ℝ) (sh : Shape) (g : Grid ℝ) (i : ℕ) (ps : List (PRing ℝ)) : List (Write ℝ) :=
  ps.flatMap fun p => writesOf rnd sh g i p

private theorem deposit_eq (sh : Shape) (g : Grid ℝ) (i : ℕ) (ps : List (PRing ℝ)) (a : ℤ → ℤ → ℝ) :
    deposit rnd sh g i ps a = (column rnd sh g i ps).foldl (addTo rnd) a := by
  unfold deposit column
  induction ps generalizing a with
  | nil => rfl
  | cons p ps ih => rw [List.foldl_cons, ih, List.flatMap_cons, List.foldl_append]

private theorem slices_eq (sh : Shape) (g : Grid ℝ) (cols : List (ℕ × List (PRing ℝ))) (a : ℤ → ℤ → ℝ) :
    depositSlices rnd sh g cols a = (cols.flatMap fun c => column rnd sh g c.1 c.2).foldl (addTo rnd) a := by
  unfold depositSlices
  induction cols generalizing a with
  | nil => rfl
  | cons c cols ih => rw [List.foldl_cons, ih, List.flatMap_cons, List.foldl_append, deposit_eq]

private theorem column_count (sh : Shape) (g : Grid ℝ) (i : ℕ) (ps : List (PRing ℝ)) (k l : ℤ) :
    (Deposition.Rounded.at' (column rnd sh g i ps) k l).length ≤ ps.length := by
  unfold column
  induction ps with
  | nil => simp [Deposition.Rounded.at']
  | cons p ps ih =>
    rw [List.flatMap_cons, List.length_cons]
    unfold Deposition.Rounded.at' at ih ⊢
    rw [List.filter_append, List.length_append]
    have := Deposition.Rounded.at_one (nodup (rnd := rnd) sh g i p) k l
    unfold Deposition.Rounded.at' at this
    omega

private theorem slices_count (sh : Shape) (g : Grid ℝ) (cols : List (ℕ × List (PRing ℝ))) (k l : ℤ) :
    (Deposition.Rounded.at' (cols.flatMap fun c => column rnd sh g c.1 c.2) k l).length ≤ count cols := by
  unfold count
  induction cols with
  | nil => simp [Deposition.Rounded.at']
  | cons c cols ih =>
    rw [List.flatMap_cons, List.map_cons, List.sum_cons]
    have := column_count (rnd := rnd) sh g c.1 c.2 k l
    unfold Deposition.Rounded.at' at ih this ⊢
    rw [List.filter_append, List.length_append]
    omega

open Classical in
private theorem column_weight (hr : Rounds ε rnd) (h0 : 0 ≤ ε) (h1 : ε ≤ 1 / 1000) (sh : Shape) (g : Grid ℝ) (i : ℕ) (ps : List (PRing ℝ)) :
    |((column rnd sh g i ps).map fun x => x.v).sum - ((ps.filter fun p => Inside rnd g p).map fun p => p.w).sum| ≤
        200 * ε * (ps.map fun p => |p.w|).sum ∧
      ((column rnd sh g i ps).map fun x => |x.v|).sum ≤ 5 * (ps.map fun p => |p.w|).sum := by
  unfold column
  induction ps with
  | nil => simp
  | cons p ps ih =>
    obtain ⟨a, b⟩ := ih
    simp only [List.flatMap_cons, List.map_append, List.sum_append, List.map_cons, List.sum_cons]
    have w0 := abs_nonneg p.w
    by_cases hp : Inside rnd g p
    · obtain ⟨c, d⟩ := writesOf_weight hr h0 h1 sh g i hp
      rw [List.filter_cons_of_pos (by simpa using hp), List.map_cons, List.sum_cons]
      refine ⟨?_, by linarith⟩
      generalize ((writesOf rnd sh g i p).map fun x => x.v).sum = A at *
      generalize ((ps.flatMap fun p => writesOf rnd sh g i p).map fun x => x.v).sum = B at *
      generalize ((ps.filter fun p => Inside rnd g p).map fun p => p.w).sum = C at *
      have e2 : A + B - (p.w + C) = (A - p.w) + (B - C) := by ring
      rw [e2]
      refine (abs_add_le _ _).trans ((add_le_add c a).trans (le_of_eq ?_))
      ring
    · rw [List.filter_cons_of_neg (by simpa using hp), outside hp]
      simp only [List.map_nil, List.sum_nil, zero_add]
      exact ⟨a.trans (by nlinarith [mul_nonneg h0 w0]), by linarith⟩

private theorem slices_weight (hr : Rounds ε rnd) (h0 : 0 ≤ ε) (h1 : ε ≤ 1 / 1000) (sh : Shape) (g : Grid ℝ) (cols : List (ℕ × List (PRing ℝ))) :
    |((cols.flatMap fun c => column rnd sh g c.1 c.2).map fun x => x.v).sum - weight rnd g cols| ≤ 200 * ε * mass cols ∧
      ((cols.flatMap fun c => column rnd sh g c.1 c.2).map fun x => |x.v|).sum ≤ 5 * mass cols := by
  unfold weight mass
  induction cols with
  | nil => simp
  | cons c cols ih =>
    obtain ⟨a, b⟩ := ih
    obtain ⟨a', b'⟩ := column_weight hr h0 h1 sh g c.1 c.2
    simp only [List.flatMap_cons, List.map_append, List.sum_append, List.map_cons, List.sum_cons]
    refine ⟨?_, by linarith⟩
    rw [add_sub_add_comm]
    refine (abs_add_le _ _).trans ((add_le_add a' a).trans (le_of_eq ?_))
    ring

/-- In floating point arithmetic the weight on the grid is that of the plasma particles inside, up to rounding errors: ten units for each
particle. -/
theorem rounded_weight_error (hr : Rounds ε rnd) (h0 : 0 ≤ ε) (h1 : ε ≤ 1 / 1000) (sh : Shape) {g : Grid ℝ} (hg : Resolved ε g)
    (cols : List (ℕ × List (PRing ℝ))) (hc : ∀ c ∈ cols, c.1 < g.nz ∧ ∀ p ∈ c.2, 0 ≤ p.r) (hN : count cols * ε ≤ 1) :
    |(∑ c ∈ cells g, depositSlices rnd sh g cols (fun _ _ => 0) c.1 c.2) - weight rnd g cols| ≤ (200 + 10 * count cols) * ε * mass cols := by
  obtain ⟨a, b⟩ := slices_weight hr h0 h1 sh g cols
  rw [slices_eq]
  have hin : ∀ w ∈ cols.flatMap (fun c => column rnd sh g c.1 c.2), (w.i, w.j) ∈ cells g := by
    intro w hw
    obtain ⟨c, h, hw⟩ := List.mem_flatMap.mp hw
    obtain ⟨p, h', hw⟩ := List.mem_flatMap.mp hw
    have := rounded_writes_in_bounds hr h0 h1 sh hg (hc c h).1 ((hc c h).2 p h') w hw
    unfold cells
    simp only [Finset.mem_product, Finset.mem_Icc]
    omega
  have cnt := slices_count (rnd := rnd) sh g cols
  have m0 : 0 ≤ mass cols := List.sum_nonneg (by
    intro x hx
    obtain ⟨c, -, rfl⟩ := List.mem_map.mp hx
    exact List.sum_nonneg (by simp))
  generalize (cols.flatMap fun c => column rnd sh g c.1 c.2) = L at *
  have s1 := Deposition.Rounded.sum_at (cells g) (fun w => w.v) L hin
  have s2 := Deposition.Rounded.sum_at (cells g) (fun w => |w.v|) L hin
  have near : |(∑ c ∈ cells g, L.foldl (addTo rnd) (fun _ _ => 0) c.1 c.2) - (L.map fun w => w.v).sum| ≤
      ((1 + ε) ^ count cols - 1) * (L.map fun w => |w.v|).sum := by
    rw [← s1, ← s2, ← Finset.sum_sub_distrib, Finset.mul_sum]
    refine (Finset.abs_sum_le_sum_abs _ _).trans (Finset.sum_le_sum fun c _ => ?_)
    have := Deposition.Rounded.foldl_near hr h0 c.1 c.2 L (fun _ _ => 0)
    rw [zero_add, abs_zero, zero_add] at this
    refine this.trans (mul_le_mul_of_nonneg_right ?_ (List.sum_nonneg (by simp)))
    exact sub_le_sub_right (pow_le_pow_right₀ (by linarith) (cnt c.1 c.2)) 1
  have P : 0 ≤ (1 + ε) ^ count cols - 1 := sub_nonneg.mpr (one_le_pow₀ (by linarith))
  have t := abs_sub_le (∑ c ∈ cells g, L.foldl (addTo rnd) (fun _ _ => 0) c.1 c.2) (L.map fun w => w.v).sum (weight rnd g cols)
  have q := mul_le_mul_of_nonneg_left b P
  have e1 : (1 + ε) ^ count cols ≤ Real.exp (count cols * ε) := by
    rw [Real.exp_nat_mul]
    exact pow_le_pow_left₀ (by linarith) (by linarith [Real.add_one_le_exp ε]) _
  have n0 : 0 ≤ (count cols : ℝ) * ε := mul_nonneg (Nat.cast_nonneg _) h0
  have e2 := (abs_le.mp (Real.abs_exp_sub_one_sub_id_le (x := count cols * ε) (by rw [abs_of_nonneg n0]; exact hN))).2
  have e3 : (1 + ε) ^ count cols - 1 ≤ 2 * (count cols * ε) := by nlinarith
  have e4 := mul_le_mul_of_nonneg_right e3 (mul_nonneg (by norm_num : (0 : ℝ) ≤ 5) m0)
  calc _ ≤ _ := t
    _ ≤ 2 * (count cols * ε) * (5 * mass cols) + 200 * ε * mass cols := by linarith
    _ = _ := by ring

/-- The deposition changes only rows next to one of the slices. -/
theorem rounded_rows (hr : Rounds ε rnd) (h0 : 0 ≤ ε) (h1 : ε ≤ 1 / 1000) (sh : Shape) {g : Grid ℝ} (hg : Resolved ε g)
    (cols : List (ℕ × List (PRing ℝ))) (hc : ∀ c ∈ cols, c.1 < g.nz ∧ ∀ p ∈ c.2, 0 ≤ p.r) (a : ℤ → ℤ → ℝ) {k : ℤ}
    (hk : ∀ c ∈ cols, k < c.1 ∨ c.1 + 3 < k) (l : ℤ) : depositSlices rnd sh g cols a k l = a k l := by
  rw [slices_eq]
  have hin : ∀ w ∈ cols.flatMap (fun c => column rnd sh g c.1 c.2), w.i ≠ k := by
    intro w hw
    obtain ⟨c, h, hw⟩ := List.mem_flatMap.mp hw
    obtain ⟨p, h', hw⟩ := List.mem_flatMap.mp hw
    have := rounded_writes_in_bounds hr h0 h1 sh hg (hc c h).1 ((hc c h).2 p h') w hw
    have := hk c h
    omega
  generalize (cols.flatMap fun c => column rnd sh g c.1 c.2) = L at *
  induction L generalizing a with
  | nil => rfl
  | cons w L ih =>
    rw [List.foldl_cons, ih _ fun x hx => hin x (List.mem_cons_of_mem _ hx)]
    unfold addTo
    exact if_neg fun h => hin w List.mem_cons_self h.1.symm

/-- Without rounding this is the deposition of `Verif.Plasma.Deposit`. -/
theorem exact_deposit (pShape : String) (sh : Shape) (hs : Deposition.parseShape pShape = some sh) (g : Grid ℝ) (i : ℕ)
    (ps : List (PRing ℝ)) (a : ℤ → ℤ → ℝ) : deposit id sh g i ps a = depositPlasma pShape (i : ℝ) g.rMin g.nz g.nr g.dr ps a := by
  have ec : ∀ u : ℝ, cubic id u = Deposition.cubicShape u := by
    intro u
    simp only [cubic, Deposition.cubicShape, Deposition.Rounded.outer, Deposition.Rounded.inner, id_eq]
    congr 1 <;> ring
  have ef : ∀ c n s, fold id c n s = Deposition.foldShape c n s := by
    intro c n s
    unfold fold Deposition.foldShape
    split_ifs <;> simp
  have ea : addTo id = Deposition.addAt (K := ℝ) := by
    funext a w i j
    simp [addTo, Deposition.addAt]
  have el : ∀ p, writesLinear id g i p = plasmaLinear (i : ℝ) g.rMin g.nz g.nr g.dr p := by
    intro p
    unfold writesLinear plasmaLinear
    by_cases h : p.r ≤ g.nr * g.dr
    · rw [if_pos h, if_pos (by simpa [Inside, rMax] using h)]
      simp [writes, zLinear, List.zipIdx, uR, uZ, rCell, frac]
    · rw [if_neg h, if_neg (by simpa [Inside, rMax] using h)]
  have ecu : ∀ p, writesCubic id g i p = plasmaCubic (i : ℝ) g.rMin g.nz g.nr g.dr p := by
    intro p
    unfold writesCubic plasmaCubic
    by_cases h : p.r ≤ g.nr * g.dr
    · rw [if_pos h, if_pos (by simpa [Inside, rMax] using h)]
      simp [writes, toList, List.zipIdx, ec, ef, rCell, frac]
    · rw [if_neg h, if_neg (by simpa [Inside, rMax] using h)]
  unfold Deposition.parseShape at hs
  unfold deposit depositPlasma
  rw [ea]
  by_cases h1 : pShape = "linear"
  · rw [if_pos h1] at hs ⊢
    obtain rfl := Option.some.inj hs
    simp only [writesOf, el]
  · rw [if_neg h1] at hs ⊢
    by_cases h2 : pShape = "cubic"
    · rw [if_pos h2] at hs ⊢
      obtain rfl := Option.some.inj hs
      simp only [writesOf, ecu]
    · rw [if_neg h2] at hs; cases hs

/-- Numbers of 64 bits, a million particles over all slices: the weight is right to eight digits. -/
example (sh : Shape) (cols : List (ℕ × List (PRing ℝ))) (hc : ∀ c ∈ cols, c.1 < 1000 ∧ ∀ p ∈ c.2, 0 ≤ p.r) (hN : count cols = 10 ^ 6) :
    let ε : ℝ := 1 / 2 ^ 53
    let g : Grid ℝ := ⟨-100, 1 / 20, 1000, 200, 1 / 10, 1 / 10⟩
    |(∑ c ∈ cells g, depositSlices (fun x => (1 + ε) * x) sh g cols (fun _ _ => 0) c.1 c.2) - weight (fun x => (1 + ε) * x) g cols| ≤
      1 / 10 ^ 8 * mass cols := by
  intro ε g
  have h0 : 0 ≤ ε := by positivity
  have hr : Rounds ε (fun x => (1 + ε) * x) := by
    intro x
    have e : (1 + ε) * x - x = ε * x := by ring
    rw [e, abs_mul, abs_of_nonneg h0]
  have hg : Resolved ε g := ⟨by norm_num [g], by norm_num [g], by norm_num [g, ε]⟩
  have m0 : 0 ≤ mass cols := List.sum_nonneg (by
    intro x hx
    obtain ⟨c, -, rfl⟩ := List.mem_map.mp hx
    exact List.sum_nonneg (by simp))
  refine (rounded_weight_error hr h0 (by norm_num [ε]) sh hg cols hc (by rw [hN]; norm_num [ε])).trans ?_
  refine mul_le_mul_of_nonneg_right ?_ m0
  rw [hN]
  norm_num [ε]

/-- Particles with weight in two slices, one of them outside of the grid. -/
example : weight (fun x => (1 + 1 / 1000) * x) ⟨-1, 1 / 20, 10, 20, 1 / 10, 1 / 10⟩ [(3, [⟨1 / 2, 2⟩, ⟨5, 7⟩]), (2, [⟨1, 3⟩])] = 5 := by
  simp only [weight, List.map_cons, List.map_nil, List.filter_cons, List.filter_nil, Inside, rMax]
  norm_num

end WakeT.Plasma.Rounded
