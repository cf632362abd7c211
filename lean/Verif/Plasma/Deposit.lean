import Verif.Deposition.Props

/-!
# Deposition of plasma slices and magnetic field of the beam

Files: `deposition.py` and `solver.py` of
`wake_t/physics_models/plasma_wakefields/qs_rz_baxevanis/`.
-/

set_option linter.unusedSectionVars false

namespace WakeT.Plasma

open WakeT.Deposition

/-! ### Model -/

section deposit
variable {K : Type*} [Field K] [LinearOrder K] [IsStrictOrderedRing K] [FloorRing K]

/-- A plasma particle to be deposited: radius and weight (deposition.py 63-65, 117-119). -/
structure PRing (K : Type*) where
  r : K
  w : K

/-- Writes of one particle in `deposit_plasma_particles_linear` (deposition.py 62-106).  `z_cell` is the
index of the slice; `z_min` and `dz` are not used by the code. -/
def plasmaLinear (zCell rMin : K) (nz nr : ℕ) (dr : K) (p : PRing K) : List (Write K) :=
  if p.r ≤ nr * dr then                                                        -- 59, 68
    let rCell := (p.r - rMin) / dr                                             -- 70
    let ir := min (⌈rCell⌉ + 1) ((nr : ℤ) + 2)                                 -- 73
    let iz := ⌈zCell⌉ + 1                                                      -- 74
    let ur := if rCell < 0 then 1 else if rCell > (nr : K) - 1 then 0          -- 77-84
      else rCell - ⌈rCell⌉ + 1
    let uz := if zCell < 0 then 1 else if rCell > (nz : K) - 1 then 0          -- 87-94
      else zCell - ⌈zCell⌉ + 1
    let zsl0 := 1 - uz
    let zsl1 := uz
    let rsl0 := 1 - ur
    let rsl1 := ur
    [⟨iz, ir, zsl0 * rsl0 * p.w⟩, ⟨iz, ir + 1, zsl0 * rsl1 * p.w⟩,             -- 103-106
     ⟨iz + 1, ir, zsl1 * rsl0 * p.w⟩, ⟨iz + 1, ir + 1, zsl1 * rsl1 * p.w⟩]
  else []

/-- Writes of one particle in `deposit_plasma_particles_cubic` (deposition.py 117-204). -/
def plasmaCubic (zCell rMin : K) (nz nr : ℕ) (dr : K) (p : PRing K) : List (Write K) :=
  if p.r ≤ nr * dr then                                                        -- 114, 122
    let rCell := (p.r - rMin) / dr                                             -- 124
    let ir := min ⌈rCell⌉ ((nr : ℤ) + 2)                                       -- 127
    let iz := ⌈zCell⌉                                                          -- 128
    let uz := zCell - ⌈zCell⌉ + 1                                              -- 131
    let ur := rCell - ⌈rCell⌉ + 1                                              -- 132
    let zs := foldShape zCell nz (cubicShape uz)                               -- 140-143, 169-186
    let rs := foldShape rCell nr (cubicShape ur)                               -- 144-147, 151-167
    let w := p.w
    [⟨iz, ir, zs.s0 * rs.s0 * w⟩, ⟨iz, ir + 1, zs.s0 * rs.s1 * w⟩,             -- 189-204
     ⟨iz, ir + 2, zs.s0 * rs.s2 * w⟩, ⟨iz, ir + 3, zs.s0 * rs.s3 * w⟩,
     ⟨iz + 1, ir, zs.s1 * rs.s0 * w⟩, ⟨iz + 1, ir + 1, zs.s1 * rs.s1 * w⟩,
     ⟨iz + 1, ir + 2, zs.s1 * rs.s2 * w⟩, ⟨iz + 1, ir + 3, zs.s1 * rs.s3 * w⟩,
     ⟨iz + 2, ir, zs.s2 * rs.s0 * w⟩, ⟨iz + 2, ir + 1, zs.s2 * rs.s1 * w⟩,
     ⟨iz + 2, ir + 2, zs.s2 * rs.s2 * w⟩, ⟨iz + 2, ir + 3, zs.s2 * rs.s3 * w⟩,
     ⟨iz + 3, ir, zs.s3 * rs.s0 * w⟩, ⟨iz + 3, ir + 1, zs.s3 * rs.s1 * w⟩,
     ⟨iz + 3, ir + 2, zs.s3 * rs.s2 * w⟩, ⟨iz + 3, ir + 3, zs.s3 * rs.s3 * w⟩]
  else []

/-- `deposit_plasma_particles` (deposition.py 12-51).  With an unknown shape nothing is deposited and no
error is raised. -/
def depositPlasma (pShape : String) (zCell rMin : K) (nz nr : ℕ) (dr : K) (ps : List (PRing K))
    (a : ℤ → ℤ → K) : ℤ → ℤ → K :=
  if pShape = "linear" then
    ps.foldl (fun a p => (plasmaLinear zCell rMin nz nr dr p).foldl addAt a) a
  else if pShape = "cubic" then
    ps.foldl (fun a p => (plasmaCubic zCell rMin nz nr dr p).foldl addAt a) a
  else a

/-- `calculate_beam_source` without the deposition (solver.py 492-509): what is added to the
field in slice `i` at radial cell `k`, for the deposited array `qDist` with guard cells. -/
def beamSource (qDist : ℤ → ℤ → K) (dr : K) (i k : ℕ) : K :=
  let q := fun j : ℕ => qDist (i + 2) (j + 2)                                  -- 493
  let rGrid := (1 / 2 + (k : K)) * dr                                          -- 496
  let subs := if k = 0 then q k / 2 + q 0 / 4 else q k / 2                     -- 501-505
  ((∑ j ∈ Finset.range (k + 1), q j) - subs) * dr / |rGrid|                    -- 508-509

/-- `calculate_beam_source` (solver.py 469-511) with the default (cubic) or linear shape, for
particles in normalised coordinates with normalised weights (477-485). -/
def calculateBeamSource (sh : Shape) (g : Grid K) (ps : List (Part K)) (i k : ℕ) : K :=
  beamSource (depositShape sh true g ps fun _ _ => 0) g.dr i k

/-! ### Properties -/

/-- The plasma deposition at slice `i` is the three-dimensional deposition without
correction, on a grid with unit longitudinal spacing. -/
theorem plasma_eq_writes (sh : Shape) (i : ℕ) (rMin : K) (nz nr : ℕ) (dr : K) (p : PRing K)
    (hi : i < nz) :
    (match sh with
      | .linear => plasmaLinear (i : K) rMin nz nr dr p
      | .cubic => plasmaCubic (i : K) rMin nz nr dr p) =
    writes sh false ⟨0, rMin, nz, nr, 1, dr⟩ ⟨(i : K), p.r, p.w⟩ := by
  have hz : (i : K) ≤ 0 + ((nz : K) - 1) * 1 := by
    have : (i : K) + 1 ≤ nz := by exact_mod_cast hi
    linarith
  have h0 : (0 : K) ≤ (i : K) := Nat.cast_nonneg i
  have hin : (⟨0, rMin, nz, nr, 1, dr⟩ : Grid K).Inside ⟨(i : K), p.r, p.w⟩ ↔ p.r ≤ nr * dr :=
    ⟨fun h => h.2.2, fun h => ⟨h0, hz, h⟩⟩
  cases sh
  · show plasmaLinear _ _ _ _ _ _ = writesLinear _ _ _
    unfold plasmaLinear writesLinear
    by_cases hr : p.r ≤ nr * dr
    · rw [if_pos hr, if_pos (hin.mpr hr)]
      unfold uR uZ Grid.rCell Grid.zCell
      simp only [sub_zero, div_one, zero_mul, add_zero, Bool.false_eq_true, if_false]
    · rw [if_neg hr, if_neg (fun h => hr (hin.mp h))]
  · show plasmaCubic _ _ _ _ _ _ = writesCubic _ _ _
    unfold plasmaCubic writesCubic
    by_cases hr : p.r ≤ nr * dr
    · rw [if_pos hr, if_pos (hin.mpr hr)]
      unfold Grid.rCell Grid.zCell
      simp only [sub_zero, div_one, zero_mul, add_zero, Bool.false_eq_true, if_false]
    · rw [if_neg hr, if_neg (fun h => hr (hin.mp h))]

/-- The same for the whole column. -/
theorem depositPlasma_eq (pShape : String) (sh : Shape) (hs : parseShape pShape = some sh)
    (i : ℕ) (rMin : K) (nz nr : ℕ) (dr : K) (ps : List (PRing K)) (hi : i < nz) (a : ℤ → ℤ → K) :
    depositPlasma pShape (i : K) rMin nz nr dr ps a =
      depositShape sh false ⟨0, rMin, nz, nr, 1, dr⟩ (ps.map fun p => ⟨(i : K), p.r, p.w⟩) a := by
  unfold parseShape at hs
  unfold depositPlasma depositShape
  rw [List.foldl_map]
  by_cases h1 : pShape = "linear"
  · rw [if_pos h1] at hs ⊢
    obtain rfl := Option.some.inj hs
    congr 1; funext a p
    rw [← plasma_eq_writes .linear i rMin nz nr dr p hi]
  · rw [if_neg h1] at hs ⊢
    by_cases h2 : pShape = "cubic"
    · rw [if_pos h2] at hs ⊢
      obtain rfl := Option.some.inj hs
      congr 1; funext a p
      rw [← plasma_eq_writes .cubic i rMin nz nr dr p hi]
    · rw [if_neg h2] at hs; cases hs

/-- The rings within the radial extent of the grid. -/
def ringsInside (nr : ℕ) (dr : K) (ps : List (PRing K)) : List (PRing K) :=
  ps.filter fun p => decide (p.r ≤ nr * dr)

theorem inside_map (i : ℕ) (rMin : K) (nz nr : ℕ) (dr : K) (ps : List (PRing K)) (hi : i < nz) :
    (⟨0, rMin, nz, nr, 1, dr⟩ : Grid K).inside (ps.map fun p => ⟨(i : K), p.r, p.w⟩) =
      (ringsInside nr dr ps).map fun p => ⟨(i : K), p.r, p.w⟩ := by
  have hz : (i : K) ≤ 0 + ((nz : K) - 1) * 1 := by
    have : (i : K) + 1 ≤ nz := by exact_mod_cast hi
    linarith
  have h0 : (0 : K) ≤ (i : K) := Nat.cast_nonneg i
  unfold Grid.inside ringsInside
  rw [List.filter_map]
  congr 1
  apply List.filter_congr
  intro p _
  simp only [Function.comp, decide_eq_decide]
  exact ⟨fun h => h.2.2, fun h => ⟨h0, hz, h⟩⟩

/-- **C64** (conservation): the total of the array grows by the weight of the rings within
the radial extent of the grid, whatever the shape. -/
theorem plasma_conserved (pShape : String) (hs : pShape = "linear" ∨ pShape = "cubic") (i : ℕ)
    (nz nr : ℕ) (dr : K) (hdr : 0 < dr) (ps : List (PRing K)) (hr : ∀ p ∈ ps, 0 ≤ p.r)
    (hi : i < nz) (a : ℤ → ℤ → K) :
    let g : Grid K := ⟨0, dr / 2, nz, nr, 1, dr⟩
    total g (depositPlasma pShape (i : K) (dr / 2) nz nr dr ps a) =
      total g a + ((ringsInside nr dr ps).map PRing.w).sum := by
  intro g
  have hg : g.Regular := ⟨one_pos, hdr, rfl⟩
  obtain ⟨sh, hsh⟩ : ∃ sh, parseShape pShape = some sh := by
    rcases hs with h | h
    · exact ⟨.linear, by simp [parseShape, h]⟩
    · exact ⟨.cubic, by simp [parseShape, h]⟩
  rw [depositPlasma_eq pShape sh hsh i _ nz nr dr ps hi]
  have hcc := charge_conserved g hg pShape false (ps.map fun p => ⟨(i : K), p.r, p.w⟩)
    (by intro p hp; obtain ⟨q, hq, rfl⟩ := List.mem_map.mp hp; exact hr q hq) a
    (depositShape sh false g (ps.map fun p => ⟨(i : K), p.r, p.w⟩) a)
    (by unfold deposit; rw [hsh]; rfl)
  rw [hcc, inside_map i _ nz nr dr ps hi]
  unfold weight
  rw [List.map_map]; rfl

/-- **C64, partial** (linear shape): the value of every cell of the array after the deposition
of slice `i`; cells of other slices (and guard cells) are unchanged, and in slice `i` each ring
is spread linearly over the two neighbouring cells.

Missing: rings with `r_cell > nz - 1`, possible only on grids with at least as many
radial cells as slices, for which the claim is false (`plasma_wrong_slice`,
`plasma_wrong_slice_square`). -/
theorem plasma_own_slice_partial (i : ℕ) (nz nr : ℕ) (dr : K) (hdr : 0 < dr) (hnr : 1 ≤ nr)
    (ps : List (PRing K)) (hr : ∀ p ∈ ps, 0 ≤ p.r) (hi : i < nz)
    (hz : ∀ p ∈ ps, (p.r - dr / 2) / dr ≤ (nz : K) - 1) (a : ℤ → ℤ → K) (l j : ℤ) :
    depositPlasma "linear" (i : K) (dr / 2) nz nr dr ps a l j =
      if l = i + 2 then a l j + ((ringsInside nr dr ps).map fun p =>
        p.w * hat ((j : K) - 2 - max 0 (min ((p.r - dr / 2) / dr) ((nr : K) - 1)))).sum
      else a l j := by
  set g : Grid K := ⟨0, dr / 2, nz, nr, 1, dr⟩ with hgdef
  have hg : g.Regular := ⟨one_pos, hdr, rfl⟩
  rw [depositPlasma_eq "linear" .linear (by simp [parseShape]) i _ nz nr dr ps hi]
  have h := linear_profile_partial g hg hnr (ps.map fun p => ⟨(i : K), p.r, p.w⟩)
    (by intro p hp; obtain ⟨q, hq, rfl⟩ := List.mem_map.mp hp; exact hr q hq)
    (by intro p hp; obtain ⟨q, hq, rfl⟩ := List.mem_map.mp hp; exact hz q hq) a l j
  rw [h, hgdef, inside_map i _ nz nr dr ps hi, List.map_map]
  have hcell : hat ((l : K) - 2 - ((i : K) - 0) / 1) = if l = i + 2 then 1 else 0 := by
    rw [sub_zero, div_one]
    unfold hat
    by_cases hl : l = i + 2
    · rw [if_pos hl, hl]; push_cast
      have : (i : K) + 2 - 2 - i = 0 := by ring
      rw [this]; norm_num
    · rw [if_neg hl]
      have h1 : (1 : K) ≤ |(l : K) - 2 - i| := by
        have h2 : (1 : ℤ) ≤ |l - 2 - i| := Int.one_le_abs (by omega)
        have : ((|l - 2 - i| : ℤ) : K) = |(l : K) - 2 - i| := by push_cast; rfl
        rw [← this]; exact_mod_cast h2
      exact max_eq_left (by linarith)
  by_cases hl : l = i + 2
  · rw [if_pos hl]
    congr 2
    apply List.map_congr_left
    intro p _
    simp only [Function.comp, hcell, if_pos hl, mul_one]
  · rw [if_neg hl]
    have : ((ringsInside nr dr ps).map ((fun p : Part K => p.w *
        hat ((l : K) - 2 - (p.z - 0) / 1) *
        hat ((j : K) - 2 - max 0 (min ((p.r - dr / 2) / dr) ((nr : K) - 1)))) ∘
        fun p : PRing K => ⟨(i : K), p.r, p.w⟩)).sum = 0 := by
      apply List.sum_eq_zero
      intro x hx
      obtain ⟨p, _, rfl⟩ := List.mem_map.mp hx
      simp only [Function.comp, hcell, if_neg hl, mul_zero, zero_mul]
    rw [this, add_zero]

/-- **C64** (linear shape) on grids with more slices than radial cells. -/
theorem plasma_own_slice_long_grid (i : ℕ) (nz nr : ℕ) (dr : K) (hdr : 0 < dr) (hnr : 1 ≤ nr)
    (hn : nr < nz) (ps : List (PRing K)) (hr : ∀ p ∈ ps, 0 ≤ p.r) (hi : i < nz)
    (hin : ∀ p ∈ ps, p.r ≤ nr * dr) (a : ℤ → ℤ → K) (l j : ℤ) :
    depositPlasma "linear" (i : K) (dr / 2) nz nr dr ps a l j =
      if l = i + 2 then a l j + (ps.map fun p =>
        p.w * hat ((j : K) - 2 - max 0 (min ((p.r - dr / 2) / dr) ((nr : K) - 1)))).sum
      else a l j := by
  have hf : ringsInside nr dr ps = ps :=
    List.filter_eq_self.mpr fun p hp => decide_eq_true (hin p hp)
  have := plasma_own_slice_partial i nz nr dr hdr hnr ps hr hi (by
    intro p hp
    have h1 := hin p hp
    have h2 : (nr : K) + 1 ≤ nz := by exact_mod_cast hn
    rw [div_le_iff₀ hdr]; nlinarith) a l j
  rw [hf] at this
  exact this

/-- **C64 is violated**: on a grid with 2 slices and 4 radial cells, a ring of weight 1 of
slice 1 is deposited in slice 0 (and of slice 0 in a guard cell). -/
theorem plasma_wrong_slice :
    let a1 := depositPlasma "linear" (1 : ℚ) (1 / 2) 2 4 1 [⟨3, 1⟩] fun _ _ => 0
    let a0 := depositPlasma "linear" (0 : ℚ) (1 / 2) 2 4 1 [⟨3, 1⟩] fun _ _ => 0
    (∀ j ∈ Finset.Ico (0 : ℤ) 8, a1 3 j = 0) ∧ a1 2 4 + a1 2 5 = 1 ∧
    (∀ j ∈ Finset.Ico (0 : ℤ) 8, a0 2 j = 0) ∧ a0 1 4 + a0 1 5 = 1 := by
  decide +kernel

/-- **C64 is violated** also on a grid with as many slices as radial cells, in the outermost half
cell. -/
theorem plasma_wrong_slice_square :
    let a1 := depositPlasma "linear" (1 : ℚ) (1 / 2) 2 2 1 [⟨7 / 4, 1⟩] fun _ _ => 0
    (∀ j ∈ Finset.Ico (0 : ℤ) 6, a1 3 j = 0) ∧ a1 2 3 = 1 := by
  decide +kernel

/-- An unknown shape is silently ignored. -/
theorem plasma_unknown_shape (pShape : String) (h1 : pShape ≠ "linear") (h2 : pShape ≠ "cubic")
    (zCell rMin : K) (nz nr : ℕ) (dr : K) (ps : List (PRing K)) (a : ℤ → ℤ → K) :
    depositPlasma pShape zCell rMin nz nr dr ps a = a := by
  unfold depositPlasma; rw [if_neg h1, if_neg h2]

/-- The cubic B-spline at integers. -/
theorem bspline_int (m : ℤ) : bspline (m : K) = if m = 0 then 4 / 6 else if m = 1 ∨ m = -1 then
    1 / 6 else 0 := by
  unfold bspline
  have hc : |(m : K)| = ((|m| : ℤ) : K) := by push_cast; rfl
  rw [hc]
  by_cases h0 : m = 0
  · subst h0; norm_num
  · rw [if_neg h0]
    by_cases h1 : m = 1 ∨ m = -1
    · have : |m| = 1 := by rcases h1 with h | h <;> rw [h] <;> rfl
      rw [this, if_pos h1]; norm_num
    · have h2 : 2 ≤ |m| := by rcases abs_cases m with h | h <;> omega
      have n1 : ¬ ((|m| : ℤ) : K) ≤ 1 := by
        rw [not_le]; have : ((2 : ℤ) : K) ≤ (|m| : ℤ) := by exact_mod_cast h2
        push_cast at this ⊢; linarith
      rw [if_neg n1, if_neg h1]
      by_cases h3 : ((|m| : ℤ) : K) ≤ 2
      · have : |m| ≤ 2 := by exact_mod_cast h3
        have : |m| = 2 := le_antisymm this h2
        rw [this]; norm_num
      · rw [if_neg h3]

/-- **C64** (cubic shape): slice `i` and its two neighbours receive four sixths and one
sixth each; at the ends of the grid the part beyond the grid goes to the last slice.  The
radial profile is the B-spline of each ring. -/
theorem plasma_cubic_slices (i : ℕ) (nz nr : ℕ) (dr : K) (hdr : 0 < dr) (hnr : 3 ≤ nr)
    (hnz : 3 ≤ nz) (ps : List (PRing K)) (hr : ∀ p ∈ ps, 0 ≤ p.r) (hi : i < nz)
    (a : ℤ → ℤ → K) (l j : ℤ) :
    depositPlasma "cubic" (i : K) (dr / 2) nz nr dr ps a l j = a l j +
      (if l < 2 ∨ nz + 2 ≤ l then 0
        else if l = i + 2 then (if i = 0 ∨ i + 1 = nz then 5 / 6 else 4 / 6)
        else if l = i + 1 ∨ l = i + 3 then 1 / 6 else 0) *
      ((ringsInside nr dr ps).map fun p =>
        p.w * bsplineFolded nr (j - 2) ((p.r - dr / 2) / dr)).sum := by
  set g : Grid K := ⟨0, dr / 2, nz, nr, 1, dr⟩ with hgdef
  have hg : g.Regular := ⟨one_pos, hdr, rfl⟩
  rw [depositPlasma_eq "cubic" .cubic (by simp [parseShape]) i _ nz nr dr ps hi]
  rw [cubic_profile g hg hnz hnr (ps.map fun p => ⟨(i : K), p.r, p.w⟩)
    (by intro p hp; obtain ⟨q, hq, rfl⟩ := List.mem_map.mp hp; exact hr q hq) a l j, hgdef,
    inside_map i _ nz nr dr ps hi, List.map_map]
  congr 1
  have hcell : bsplineFolded nz (l - 2) (((i : K) - 0) / 1) =
      (if l < 2 ∨ (nz : ℤ) + 2 ≤ l then 0
        else if l = i + 2 then (if i = 0 ∨ i + 1 = nz then 5 / 6 else 4 / 6)
        else if l = i + 1 ∨ l = i + 3 then 1 / 6 else 0) := by
    rw [sub_zero, div_one]
    unfold bsplineFolded
    by_cases h : l < 2 ∨ (nz : ℤ) + 2 ≤ l
    · rw [if_pos h, if_neg (by omega)]
    · rw [if_neg h, if_pos (by omega)]
      have e1 : ((l - 2 : ℤ) : K) - i = ((l - 2 - i : ℤ) : K) := by push_cast; rfl
      have e2 : -1 - ((l - 2 : ℤ) : K) - i = ((-1 - (l - 2) - i : ℤ) : K) := by push_cast; rfl
      have e3 : 2 * (nz : K) - 1 - ((l - 2 : ℤ) : K) - i = ((2 * nz - 1 - (l - 2) - i : ℤ) : K) := by
        push_cast; rfl
      rw [e1, e2, e3, bspline_int, bspline_int, bspline_int]
      by_cases hl : l = i + 2
      · rw [if_pos (show l - 2 - (i : ℤ) = 0 by omega), if_pos hl,
          if_neg (show ¬ (-1 - (l - 2) - (i : ℤ) = 0) by omega),
          if_neg (show ¬ (2 * (nz : ℤ) - 1 - (l - 2) - (i : ℤ) = 0) by omega)]
        by_cases h0 : i = 0
        · rw [if_pos (show i = 0 ∨ i + 1 = nz from Or.inl h0),
            if_pos (show -1 - (l - 2) - (i : ℤ) = 1 ∨ -1 - (l - 2) - (i : ℤ) = -1 by omega),
            if_neg (show ¬ (2 * (nz : ℤ) - 1 - (l - 2) - (i : ℤ) = 1 ∨
              2 * (nz : ℤ) - 1 - (l - 2) - (i : ℤ) = -1) by omega)]
          norm_num
        · rw [if_neg (show ¬ (-1 - (l - 2) - (i : ℤ) = 1 ∨ -1 - (l - 2) - (i : ℤ) = -1) by omega)]
          by_cases h1 : i + 1 = nz
          · rw [if_pos (show i = 0 ∨ i + 1 = nz from Or.inr h1),
              if_pos (show 2 * (nz : ℤ) - 1 - (l - 2) - (i : ℤ) = 1 ∨
                2 * (nz : ℤ) - 1 - (l - 2) - (i : ℤ) = -1 by omega)]
            norm_num
          · rw [if_neg (show ¬ (i = 0 ∨ i + 1 = nz) by omega),
              if_neg (show ¬ (2 * (nz : ℤ) - 1 - (l - 2) - (i : ℤ) = 1 ∨
                2 * (nz : ℤ) - 1 - (l - 2) - (i : ℤ) = -1) by omega)]
            norm_num
      · rw [if_neg hl, if_neg (show ¬ (l - 2 - (i : ℤ) = 0) by omega),
          if_neg (show ¬ (-1 - (l - 2) - (i : ℤ) = 0) by omega),
          if_neg (show ¬ (2 * (nz : ℤ) - 1 - (l - 2) - (i : ℤ) = 0) by omega),
          if_neg (show ¬ (-1 - (l - 2) - (i : ℤ) = 1 ∨ -1 - (l - 2) - (i : ℤ) = -1) by omega),
          if_neg (show ¬ (2 * (nz : ℤ) - 1 - (l - 2) - (i : ℤ) = 1 ∨
              2 * (nz : ℤ) - 1 - (l - 2) - (i : ℤ) = -1) by omega)]
        by_cases h1 : l = i + 1 ∨ l = i + 3
        · rw [if_pos h1, if_pos (by omega)]; norm_num
        · rw [if_neg h1, if_neg (by omega)]; norm_num
  rw [← hcell, ← List.sum_map_mul_left]
  congr 1
  apply List.map_congr_left
  intro p _
  simp only [Function.comp]
  ring

/-- **C64** (cubic shape), consequence: a plasma that is the same in all slices is deposited as
such: every slice ends with the same radial profile. -/
theorem plasma_cubic_uniform (nz nr : ℕ) (dr : K) (hdr : 0 < dr) (hnr : 3 ≤ nr) (hnz : 3 ≤ nz)
    (ps : List (PRing K)) (hr : ∀ p ∈ ps, 0 ≤ p.r) (l : ℕ) (hl : l < nz) (j : ℤ) :
    (∑ i ∈ Finset.range nz,
      depositPlasma "cubic" (i : K) (dr / 2) nz nr dr ps (fun _ _ => 0) (l + 2) j) =
      ((ringsInside nr dr ps).map fun p =>
        p.w * bsplineFolded nr (j - 2) ((p.r - dr / 2) / dr)).sum := by
  have h : ∀ i ∈ Finset.range nz, depositPlasma "cubic" (i : K) (dr / 2) nz nr dr ps
      (fun _ _ => 0) (l + 2) j =
      ((if i = l then (if l = 0 ∨ l + 1 = nz then 5 / 6 else 4 / 6) else 0) +
       (if i = l + 1 then 1 / 6 else 0) + (if i + 1 = l then 1 / 6 else 0)) *
      ((ringsInside nr dr ps).map fun p =>
        p.w * bsplineFolded nr (j - 2) ((p.r - dr / 2) / dr)).sum := by
    intro i hi
    rw [plasma_cubic_slices i nz nr dr hdr hnr hnz ps hr (Finset.mem_range.mp hi), zero_add]
    congr 1
    rw [if_neg (show ¬ ((l : ℤ) + 2 < 2 ∨ (nz : ℤ) + 2 ≤ l + 2) by omega)]
    by_cases h1 : i = l
    · rw [if_pos (show (l : ℤ) + 2 = i + 2 by omega), if_pos h1,
        if_neg (show ¬ i = l + 1 by omega), if_neg (show ¬ i + 1 = l by omega), h1]; ring
    · rw [if_neg (show ¬ (l : ℤ) + 2 = i + 2 by omega), if_neg h1]
      by_cases h2 : i = l + 1
      · rw [if_pos (show (l : ℤ) + 2 = i + 1 ∨ (l : ℤ) + 2 = i + 3 by omega), if_pos h2,
          if_neg (show ¬ i + 1 = l by omega)]; ring
      · rw [if_neg h2]
        by_cases h3 : i + 1 = l
        · rw [if_pos (show (l : ℤ) + 2 = i + 1 ∨ (l : ℤ) + 2 = i + 3 by omega), if_pos h3]; ring
        · rw [if_neg (show ¬ ((l : ℤ) + 2 = i + 1 ∨ (l : ℤ) + 2 = i + 3) by omega), if_neg h3]
          ring
  rw [Finset.sum_congr rfl h, ← Finset.sum_mul]
  conv_rhs => rw [← one_mul (List.sum _)]
  congr 1
  rw [Finset.sum_add_distrib, Finset.sum_add_distrib, Finset.sum_ite_eq' (Finset.range nz) l,
    Finset.sum_ite_eq' (Finset.range nz) (l + 1), if_pos (Finset.mem_range.mpr hl)]
  have hlast : (∑ i ∈ Finset.range nz, if i + 1 = l then (1 / 6 : K) else 0) =
      if l = 0 then 0 else 1 / 6 := by
    by_cases h0 : l = 0
    · rw [if_pos h0]
      apply Finset.sum_eq_zero
      intro i _; rw [if_neg (by omega)]
    · rw [if_neg h0]
      rw [Finset.sum_eq_single (l - 1)]
      · rw [if_pos (by omega)]
      · intro i _ hne; rw [if_neg (by omega)]
      · intro hne; exact absurd (Finset.mem_range.mpr (by omega)) hne
  rw [hlast]
  simp only [Finset.mem_range]
  by_cases h0 : l = 0
  · rw [if_pos (Or.inl h0), if_pos (by omega), if_pos h0]; norm_num
  · by_cases h1 : l + 1 = nz
    · rw [if_pos (Or.inr h1), if_neg (by omega), if_neg h0]; norm_num
    · rw [if_neg (show ¬ (l = 0 ∨ l + 1 = nz) by omega), if_pos (by omega), if_neg h0]; norm_num

/-- Hypotheses of the deposition theorems are met by a column of three rings, one outside. -/
example : ringsInside 4 (1 : ℚ) [⟨1 / 2, 2⟩, ⟨3, 5⟩, ⟨9 / 2, 7⟩] = [⟨1 / 2, 2⟩, ⟨3, 5⟩] ∧
    depositPlasma "linear" (1 : ℚ) (1 / 2) 6 4 1 [⟨1 / 2, 2⟩, ⟨3, 5⟩, ⟨9 / 2, 7⟩]
      (fun _ _ => 0) 3 4 = 5 / 2 := by
  constructor
  · simp [ringsInside]; norm_num
  · decide +kernel

/-! ### C65 -/

/-- **C65.** Ampère's law on the grid: radius times field is the charge enclosed within the
centre of the cell: all cells below, and half of the cell itself (a quarter of the cell at the
axis). -/
theorem beam_ampere (qDist : ℤ → ℤ → K) (dr : K) (hdr : 0 < dr) (i k : ℕ) :
    ((k : K) + 1 / 2) * dr * beamSource qDist dr i k =
      dr * ((∑ j ∈ Finset.range k, qDist (i + 2) (j + 2)) +
        (if k = 0 then 1 / 4 else 1 / 2) * qDist (i + 2) (k + 2)) := by
  have hpos : 0 < (1 / 2 + (k : K)) * dr := by positivity
  unfold beamSource
  simp only [abs_of_pos hpos]
  rw [Finset.sum_range_succ]
  by_cases hk : k = 0
  · subst hk
    simp only [if_true, Finset.range_zero, Finset.sum_empty, Nat.cast_zero]
    field_simp; ring
  · rw [if_neg hk, if_neg hk]
    field_simp; ring

/-- **C65.** Outside of the charge the field is the one of the total charge of the slice. -/
theorem beam_outside (qDist : ℤ → ℤ → K) (dr : K) (hdr : 0 < dr) (i k n : ℕ) (hk : k ≤ n)
    (h0 : ∀ j, k ≤ j → qDist (i + 2) (j + 2) = 0) :
    ((k : K) + 1 / 2) * dr * beamSource qDist dr i k =
      dr * ∑ j ∈ Finset.range n, qDist (i + 2) (j + 2) := by
  rw [beam_ampere qDist dr hdr, h0 k le_rfl, mul_zero, add_zero]
  congr 1
  apply Finset.sum_subset
  · intro j hj; rw [Finset.mem_range] at hj ⊢; omega
  · intro j _ hj
    rw [Finset.mem_range, not_lt] at hj
    exact h0 j hj

/-- **C65.** The field is additive in the beams: depositing one bunch after the other and
adding the fields is the field of all particles. -/
theorem beam_superpose (sh : Shape) (g : Grid K) (ps ps' : List (Part K)) (i k : ℕ) :
    calculateBeamSource sh g (ps ++ ps') i k =
      calculateBeamSource sh g ps i k + calculateBeamSource sh g ps' i k := by
  unfold calculateBeamSource
  have h : ∀ l m, depositShape sh true g (ps ++ ps') (fun _ _ => 0) l m =
      depositShape sh true g ps (fun _ _ => 0) l m +
        depositShape sh true g ps' (fun _ _ => 0) l m := by
    intro l m
    rw [depositShape_apply, depositShape_apply, depositShape_apply, List.map_append,
      List.sum_append]
    ring
  unfold beamSource
  simp only [h, Finset.sum_add_distrib]
  by_cases hk : k = 0
  · rw [if_pos hk, if_pos hk, if_pos hk]; ring
  · rw [if_neg hk, if_neg hk, if_neg hk]; ring

/-- With the cubic shape, the whole weight of the particles inside the box is in cells that are not guard cells. -/
theorem cubic_total (g : Grid K) (hg : g.Regular) (hnz : 3 ≤ g.nz) (hnr : 3 ≤ g.nr)
    (ps : List (Part K)) (hr : ∀ p ∈ ps, 0 ≤ p.r) :
    ∑ i ∈ Finset.range g.nz, ∑ j ∈ Finset.range g.nr, depositShape .cubic true g ps (fun _ _ => 0) (i + 2) (j + 2) =
      weight (g.inside ps) := by
  have hcons := charge_conserved g hg "cubic" true ps hr (fun _ _ => 0)
    (depositShape .cubic true g ps fun _ _ => 0) (by unfold deposit parseShape; simp)
  have hz : total g (fun _ _ => (0 : K)) = 0 := weighted_zero g _
  rw [hz, zero_add] at hcons
  rw [← hcons]
  symm
  -- nothing is deposited in guard cells
  set A := depositShape .cubic true g ps (fun _ _ => 0) with hA
  have hguard : ∀ i j : ℤ, ¬ g.Physical i j → A i j = 0 := by
    intro i j hphys
    rw [hA, depositShape_apply, zero_add]
    apply List.sum_eq_zero
    intro x hx
    obtain ⟨p, hp, rfl⟩ := List.mem_map.mp hx
    unfold effect
    apply List.sum_eq_zero
    intro y hy
    obtain ⟨wr, hwr, rfl⟩ := List.mem_map.mp hy
    by_cases hij : i = wr.i ∧ j = wr.j
    · rw [if_pos hij]
      by_contra hv
      have := cubic_physical g hg hnz hnr true p (hr p hp) wr hwr hv
      rw [← hij.1, ← hij.2] at this
      exact hphys this
    · rw [if_neg hij]
  unfold total weighted
  have shift : ∀ (n : ℕ) (f : ℤ → K), (∀ i : ℤ, ¬ (2 ≤ i ∧ i < n + 2) → f i = 0) →
      ∑ i ∈ Finset.Ico (0 : ℤ) (n + 4), f i = ∑ i ∈ Finset.range n, f (i + 2) := by
    intro n f hf
    have hinj : Function.Injective (fun i : ℕ => (i : ℤ) + 2) := by
      intro a b h; simp only at h; omega
    rw [show ∑ i ∈ Finset.range n, f (i + 2) = ∑ i ∈ (Finset.range n).map
      ⟨fun i : ℕ => (i : ℤ) + 2, hinj⟩, f i by rw [Finset.sum_map]; rfl]
    symm
    apply Finset.sum_subset
    · intro i hi
      rw [Finset.mem_map] at hi
      obtain ⟨m, hm, rfl⟩ := hi
      rw [Finset.mem_range] at hm
      rw [Finset.mem_Ico]
      show 0 ≤ (m : ℤ) + 2 ∧ (m : ℤ) + 2 < n + 4
      omega
    · intro i _ hi
      apply hf
      intro h
      apply hi
      rw [Finset.mem_map]
      exact ⟨(i - 2).toNat, Finset.mem_range.mpr (by omega), by
        show ((i - 2).toNat : ℤ) + 2 = i; omega⟩
  rw [shift g.nz _ (by
    intro i hi
    apply Finset.sum_eq_zero
    intro j _
    rw [hguard i j (fun h => hi ⟨h.1, h.2.1⟩), mul_zero])]
  apply Finset.sum_congr rfl
  intro i _
  rw [shift g.nr _ (by
    intro j hj
    rw [hguard _ j (fun h => hj h.2.2), mul_zero])]
  apply Finset.sum_congr rfl
  intro j _
  rw [one_mul]

/-- **C65** for particles (cubic shape): summed over all slices, the field outside of the
beam times the radius is the total weight of the particles inside the box. -/
theorem beam_total (g : Grid K) (hg : g.Regular) (hnz : 3 ≤ g.nz) (hnr : 3 ≤ g.nr)
    (ps : List (Part K)) (hr : ∀ p ∈ ps, 0 ≤ p.r) (k : ℕ) (hk : k < g.nr)
    (h0 : ∀ (i : ℤ) (j : ℕ), k ≤ j →
      depositShape .cubic true g ps (fun _ _ => 0) i (j + 2) = 0) :
    ((k : K) + 1 / 2) * g.dr * ∑ i ∈ Finset.range g.nz, calculateBeamSource .cubic g ps i k =
      g.dr * weight (g.inside ps) := by
  have hrow : ∀ i ∈ Finset.range g.nz, ((k : K) + 1 / 2) * g.dr *
      calculateBeamSource .cubic g ps i k =
      g.dr * ∑ j ∈ Finset.range g.nr, depositShape .cubic true g ps (fun _ _ => 0) (i + 2) (j + 2) :=
    fun i _ => beam_outside _ g.dr hg.dr i k g.nr hk.le (fun j hj => h0 _ j hj)
  rw [Finset.mul_sum, Finset.sum_congr rfl hrow, ← Finset.mul_sum, cubic_total g hg hnz hnr ps hr]

/-- A beam near the axis of a grid of six radial cells meets the hypotheses at the last cell:
its charge is deposited in the first cells only. -/
example : let g : Grid ℚ := ⟨0, 1 / 2, 4, 6, 1, 1⟩
    let ps : List (Part ℚ) := [⟨3 / 2, 1 / 4, 3⟩, ⟨1, 3 / 4, 5⟩]
    (∀ i ∈ Finset.Ico (0 : ℤ) 8, ∀ j ∈ Finset.range 7, 4 ≤ j →
      depositShape .cubic true g ps (fun _ _ => 0) i (j + 2) = 0) ∧
    (5 + 1 / 2) * ∑ i ∈ Finset.range 4, calculateBeamSource .cubic g ps i 5 = 8 := by
  decide +kernel

end deposit

end WakeT.Plasma
