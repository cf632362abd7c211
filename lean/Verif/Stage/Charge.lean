import Mathlib.Algebra.BigOperators.Field
import Verif.Stage.Wake
import Verif.Plasma.SolverProps
import Verif.Plasma.ColdFluidFields

/-! # The plasma models see the charge of the bunches (C136)

In SI units; the solvers work in units of the skin depth and of the plasma density. -/

set_option linter.unusedSectionVars false

namespace WakeT.Stage

open Bunch FieldElement Laser Tracker
open Plasma (QS)
open Plasma.QS (Fld)
open Deposition (Grid depositShape weight)

/-! ### Specification -/

open Classical in
/-- Charge (in C) of the particles of a bunch that are between the ends of the box and not beyond its radius. -/
noncomputable def Wake.chargeOf (w : Wake) (b : Bunch) : ℝ :=
  ∑ i ∈ Finset.range b.n,
    if w.xiMin ≤ (b.ph i).xi ∧ (b.ph i).xi ≤ w.xiMax ∧ √((b.ph i).x ^ 2 + (b.ph i).y ^ 2) ≤ w.rMax then b.q i else 0

/-- Charge (in C) of all bunches inside the box. -/
noncomputable def Wake.charge (w : Wake) (bunches : List Bunch) : ℝ := (bunches.map w.chargeOf).sum

/-- Length of a slice (in m). -/
noncomputable def Wake.slice (w : Wake) : ℝ := (w.xiMax - w.xiMin) / ((w.nXi : ℝ) - 1)

/-- Radius of the edge `k` of the radial cells (in m). -/
noncomputable def Wake.edge (w : Wake) (k : ℕ) : ℝ := k * (w.rMax / w.nR)

/-- Volume of the ring between two edges, in one slice (in m³). -/
noncomputable def Wake.volume (w : Wake) (k : ℕ) : ℝ := Real.pi * (w.edge (k + 1) ^ 2 - w.edge k ^ 2) * w.slice

/-! ### Particles in normalised units -/

variable (w : Wake)

/-- The grid of the deposition in units of `s` (solver.py 118-119; qs_cold_fluid_1x3p.py 173-177). -/
noncomputable def Wake.gridIn (s : ℝ) : Grid ℝ := ⟨w.xiMin / s, w.rMax / w.nR / s / 2, w.nXi, w.nR, w.slice / s, w.rMax / w.nR / s⟩

theorem gridIn_regular {s : ℝ} (hs : 0 < s) (hR : 0 < w.rMax) (hn : 0 < w.nR) (hz : 1 < w.nXi) (hxi : w.xiMin < w.xiMax) :
    (w.gridIn s).Regular := by
  have h1 : (0 : ℝ) < w.nR := by exact_mod_cast hn
  have h2 : (1 : ℝ) < w.nXi := by exact_mod_cast hz
  have h3 : 0 < w.slice := div_pos (by linarith) (by linarith)
  exact ⟨div_pos h3 hs, by unfold Wake.gridIn; dsimp only; positivity, rfl⟩

theorem partsOf_nonneg (s f : ℝ) (b : Bunch) : ∀ p ∈ partsOf s f b, 0 ≤ p.r := by
  intro p hp
  obtain ⟨i, -, rfl⟩ := List.mem_map.mp hp
  exact Real.sqrt_nonneg _

theorem weight_inside {s : ℝ} (f : ℝ) (hs : 0 < s) (hn : 0 < w.nR) (hz : 1 < w.nXi) (b : Bunch) :
    weight ((w.gridIn s).inside (partsOf s f b)) = w.chargeOf b * f := by
  classical
  unfold weight Grid.inside partsOf Wake.chargeOf
  rw [Finset.sum_mul, Finset.sum_range, ← List.sum_ofFn]
  have h1 : (0 : ℝ) < w.nR := by exact_mod_cast hn
  have h2 : (1 : ℝ) < w.nXi := by exact_mod_cast hz
  have e1 : ((w.gridIn s).nz : ℝ) = w.nXi := rfl
  have e2 : w.xiMin / s + ((w.nXi : ℝ) - 1) * (w.slice / s) = w.xiMax / s := by
    unfold Wake.slice
    have : (w.nXi : ℝ) - 1 ≠ 0 := by linarith
    field_simp
    ring
  have e3 : (w.nR : ℝ) * (w.rMax / w.nR / s) = w.rMax / s := by field_simp
  have e4 : ∀ i : ℕ, √(((b.ph i).x / s) ^ 2 + ((b.ph i).y / s) ^ 2) = √((b.ph i).x ^ 2 + (b.ph i).y ^ 2) / s := by
    intro i
    rw [div_pow, div_pow, ← add_div, Real.sqrt_div' _ (sq_nonneg s), Real.sqrt_sq hs.le]
  have key : ∀ l : List ℕ, ((List.filter (fun p : Deposition.Part ℝ => decide ((w.gridIn s).zMin ≤ p.z ∧
      p.z ≤ (w.gridIn s).zMin + (((w.gridIn s).nz : ℝ) - 1) * (w.gridIn s).dz ∧ p.r ≤ (w.gridIn s).nr * (w.gridIn s).dr))
      (l.map fun i : ℕ => (⟨(b.ph i).xi / s, √(((b.ph i).x / s) ^ 2 + ((b.ph i).y / s) ^ 2), b.q i * f⟩ : Deposition.Part ℝ))).map Deposition.Part.w).sum =
      (l.map fun i : ℕ => (if w.xiMin ≤ (b.ph i).xi ∧ (b.ph i).xi ≤ w.xiMax ∧ √((b.ph i).x ^ 2 + (b.ph i).y ^ 2) ≤ w.rMax
        then b.q i else 0) * f).sum := by
    intro l
    induction l with
    | nil => rfl
    | cons i l ih =>
      rw [List.map_cons, List.filter_cons, List.map_cons, List.sum_cons, ← ih]
      have hiff : ((w.gridIn s).zMin ≤ (b.ph i).xi / s ∧ (b.ph i).xi / s ≤ (w.gridIn s).zMin + (((w.gridIn s).nz : ℝ) - 1) * (w.gridIn s).dz ∧
          √(((b.ph i).x / s) ^ 2 + ((b.ph i).y / s) ^ 2) ≤ (w.gridIn s).nr * (w.gridIn s).dr) ↔
          w.xiMin ≤ (b.ph i).xi ∧ (b.ph i).xi ≤ w.xiMax ∧ √((b.ph i).x ^ 2 + (b.ph i).y ^ 2) ≤ w.rMax := by
        show (w.xiMin / s ≤ _ ∧ _ ≤ w.xiMin / s + ((w.nXi : ℝ) - 1) * (w.slice / s) ∧ _ ≤ (w.nR : ℝ) * (w.rMax / w.nR / s)) ↔ _
        rw [e2, e3, e4, div_le_div_iff_of_pos_right hs, div_le_div_iff_of_pos_right hs, div_le_div_iff_of_pos_right hs]
      by_cases h : w.xiMin ≤ (b.ph i).xi ∧ (b.ph i).xi ≤ w.xiMax ∧ √((b.ph i).x ^ 2 + (b.ph i).y ^ 2) ≤ w.rMax
      · rw [if_pos h, if_pos (decide_eq_true (hiff.mpr h)), List.map_cons, List.sum_cons]
      · rw [if_neg h, if_neg (by rw [decide_eq_true_iff]; exact fun h' => h (hiff.mp h')), zero_mul, zero_add]
  rw [key, List.ofFn_eq_map, ← List.map_coe_finRange_eq_range, List.map_map]
  rfl

/-! ### The cold fluid model -/

theorem fold_deposit (sh : Deposition.Shape) (g : Grid ℝ) (f : Bunch → List (Deposition.Part ℝ)) (bunches : List Bunch) (a : ℤ → ℤ → ℝ) (i j : ℤ) :
    bunches.foldl (fun h b => depositShape sh true g (f b) h) a i j =
      a i j + (bunches.map fun b => depositShape sh true g (f b) (fun _ _ => 0) i j).sum := by
  induction bunches generalizing a with
  | nil => simp
  | cons b l ih =>
    rw [List.foldl_cons, ih, List.map_cons, List.sum_cons, Deposition.depositShape_apply sh true g _ a,
      Deposition.depositShape_apply sh true g (f b) fun _ _ => 0]
    ring

theorem sum_cells (g : Grid ℝ) (hg : g.Regular) (hnz : 3 ≤ g.nz) (hnr : 3 ≤ g.nr) (f : Bunch → List (Deposition.Part ℝ))
    (hf : ∀ b, ∀ p ∈ f b, 0 ≤ p.r) (bunches : List Bunch) :
    ∑ i ∈ Finset.range g.nz, ∑ k ∈ Finset.range g.nr,
      bunches.foldl (fun h b => depositShape .cubic true g (f b) h) (fun _ _ => 0) ((i : ℤ) + 2) ((k : ℤ) + 2) =
      (bunches.map fun b => weight (g.inside (f b))).sum := by
  simp only [fold_deposit, zero_add]
  induction bunches with
  | nil => simp
  | cons b l ih =>
    simp only [List.map_cons, List.sum_cons, Finset.sum_add_distrib]
    rw [ih, Plasma.cubic_total g hg hnz hnr _ (hf b)]

/-- The density of the beams in the cold fluid model, times the elementary charge and the volumes of the cells, adds up to the
charge of the bunches in the box. -/
theorem cold_charge {s np : ℝ} (hs : 0 < s) (hnp : np ≠ 0) (he : w.k.e ≠ 0) (hR : 0 < w.rMax) (hn : 3 ≤ w.nR) (hz : 3 ≤ w.nXi)
    (hxi : w.xiMin < w.xiMax) (bunches : List Bunch) {h : ℕ → ℕ → ℝ} (hh : w.beamHist "cubic" s np bunches = some h) :
    ∑ i ∈ Finset.range w.nXi, ∑ k ∈ Finset.range w.nR, w.k.e * (np * h i k) * w.volume k = w.charge bunches := by
  have hreg := gridIn_regular w hs hR (by omega) (by omega) hxi
  have h1 : (0 : ℝ) < w.nR := by exact_mod_cast (by omega : 0 < w.nR)
  have h2 : (1 : ℝ) < w.nXi := by exact_mod_cast (by omega : 1 < w.nXi)
  have hsl : 0 < w.slice := div_pos (by linarith) (by linarith)
  have hh : h = fun i k : ℕ => bunches.foldl (fun h b => depositShape .cubic true (w.gridIn s) (partsOf s (1 / w.k.e) b) h) (fun _ _ => 0)
      ((i : ℤ) + 2) ((k : ℤ) + 2) * (1 / (Real.pi * (w.rMax / w.nR / s) ^ 2 * (1 + 2 * (k : ℝ)) * (w.slice / s) * np) / s ^ 3) := by
    unfold Wake.beamHist at hh
    cases bunches with
    | nil =>
      rw [← Option.some.inj hh]
      funext i k
      simp
    | cons b l =>
      rw [← Option.some.inj hh]
      rfl
  have hcell : ∀ i k : ℕ, w.k.e * (np * h i k) * w.volume k =
      w.k.e * bunches.foldl (fun h b => depositShape .cubic true (w.gridIn s) (partsOf s (1 / w.k.e) b) h) (fun _ _ => 0)
        ((i : ℤ) + 2) ((k : ℤ) + 2) := by
    intro i k
    rw [hh]
    dsimp only
    generalize bunches.foldl (fun h b => depositShape .cubic true (w.gridIn s) (partsOf s (1 / w.k.e) b) h) (fun _ _ => 0)
      ((i : ℤ) + 2) ((k : ℤ) + 2) = d
    unfold Wake.volume Wake.edge
    have hk : (1 + 2 * (k : ℝ)) ≠ 0 := by positivity
    have hpi := Real.pi_pos.ne'
    have hsl' := hsl.ne'
    push_cast
    field_simp
    ring
  simp only [hcell, ← Finset.mul_sum]
  have := sum_cells (w.gridIn s) hreg hz hn (partsOf s (1 / w.k.e)) (fun b => partsOf_nonneg _ _ b) bunches
  show w.k.e * ∑ i ∈ Finset.range (w.gridIn s).nz, ∑ k ∈ Finset.range (w.gridIn s).nr, _ = _
  rw [this]
  unfold Wake.charge
  rw [← List.sum_map_mul_left]
  congr 1
  refine List.map_congr_left fun b _ => ?_
  rw [weight_inside w _ hs (by omega) (by omega)]
  field_simp

/-! ### The quasistatic model -/

/-- Radius of the node `k` of the grid (in m). -/
noncomputable def Wake.node (w : Wake) (k : ℕ) : ℝ := ((k : ℝ) + 1 / 2) * (w.rMax / w.nR)

/-- Beam particles as the quasistatic solver sees them (solver.py 477-490). -/
noncomputable def Wake.qparts (w : Wake) (s np : ℝ) : Bunch → List (Deposition.Part ℝ) :=
  partsOf s (1 / w.k.e / (2 * Real.pi * (w.rMax / w.nR / s) * (w.slice / s) * s ^ 3 * np))

theorem quasi_grid (q : QArgs) {s : ℝ} (pc : ℝ) : (w.quasi q s pc).grid = w.gridIn s := by
  unfold Wake.quasi QS.ofArgs QS.grid Wake.gridIn Wake.slice
  have e1 : w.rMax / s / w.nR = w.rMax / w.nR / s := div_right_comm _ _ _
  have e2 : (w.xiMax / s - w.xiMin / s) / ((w.nXi : ℝ) - 1) = (w.xiMax - w.xiMin) / ((w.nXi : ℝ) - 1) / s := by
    rw [← sub_div, div_right_comm]
  dsimp only
  rw [e1, e2]

theorem quasi_parts (q : QArgs) (s np pc : ℝ) (bunches : List Bunch) :
    bunches.map (partsOf s (1 / w.k.e / (2 * Real.pi * (w.quasi q s pc).dr * (w.quasi q s pc).dxi * s ^ 3 * np))) =
      bunches.map (w.qparts s np) := by
  have h := quasi_grid w q (s := s) pc
  have e1 : (w.quasi q s pc).dr = w.rMax / w.nR / s := congrArg Grid.dr h
  have e2 : (w.quasi q s pc).dxi = w.slice / s := congrArg Grid.dz h
  rw [e1, e2]
  rfl

theorem writes_cols (b : Bool) (g : Grid ℝ) (p : Deposition.Part ℝ) :
    ∀ v ∈ Deposition.writes .cubic b g p, v.j ≤ ⌈g.rCell p⌉ + 3 := by
  intro v hv
  unfold Deposition.writes Deposition.writesCubic at hv
  dsimp only at hv
  by_cases h : g.Inside p
  · rw [if_pos h] at hv
    simp only [List.mem_cons, List.not_mem_nil, or_false] at hv
    have := min_le_left ⌈g.rCell p⌉ ((g.nr : ℤ) + 2)
    rcases hv with h | h | h | h | h | h | h | h | h | h | h | h | h | h | h | h <;> rw [h] <;> dsimp only <;> omega
  · rw [if_neg h] at hv
    cases hv

theorem weight_flatten (g : Grid ℝ) (L : List (List (Deposition.Part ℝ))) :
    weight (g.inside L.flatten) = (L.map fun ps => weight (g.inside ps)).sum := by
  induction L with
  | nil => rfl
  | cons a L ih =>
    rw [List.flatten_cons, List.map_cons, List.sum_cons, ← ih]
    unfold weight Grid.inside
    rw [List.filter_append, List.map_append, List.sum_append]

theorem quasi_weight {s np : ℝ} (hs : 0 < s) (hn : 0 < w.nR) (hz : 1 < w.nXi) (bunches : List Bunch) :
    weight ((w.gridIn s).inside (bunches.map (w.qparts s np)).flatten) =
      w.charge bunches * (1 / w.k.e / (2 * Real.pi * (w.rMax / w.nR / s) * (w.slice / s) * s ^ 3 * np)) := by
  rw [weight_flatten, List.map_map]
  unfold Wake.charge
  rw [← List.sum_map_mul_right]
  congr 1
  exact List.map_congr_left fun b _ => weight_inside w _ hs hn hz b

/-- No charge is deposited beyond two cells from the outermost particle. -/
theorem deposit_outside {s np : ℝ} (hs : 0 < s) (hR : 0 < w.rMax) (hn : 0 < w.nR) (hz : 1 < w.nXi)
    (bunches : List Bunch) (k : ℕ)
    (hout : ∀ b ∈ bunches, ∀ i < b.n, w.xiMin ≤ (b.ph i).xi → (b.ph i).xi ≤ w.xiMax → √((b.ph i).x ^ 2 + (b.ph i).y ^ 2) ≤ w.rMax →
      √((b.ph i).x ^ 2 + (b.ph i).y ^ 2) ≤ w.node k - 2 * (w.rMax / w.nR)) (i : ℤ) (j : ℕ) (hj : k ≤ j) :
    depositShape .cubic true (w.gridIn s) (bunches.map (w.qparts s np)).flatten (fun _ _ => 0) i ((j : ℤ) + 2) = 0 := by
  have h1 : (0 : ℝ) < w.nR := by exact_mod_cast hn
  have h2 : (1 : ℝ) < w.nXi := by exact_mod_cast hz
  have hd : 0 < w.rMax / w.nR := div_pos hR h1
  rw [Deposition.depositShape_apply, zero_add]
  apply List.sum_eq_zero
  intro v hv
  obtain ⟨p, hp, rfl⟩ := List.mem_map.mp hv
  obtain ⟨l, hl, hp⟩ := List.mem_flatten.mp hp
  obtain ⟨b, hb, rfl⟩ := List.mem_map.mp hl
  obtain ⟨n, hn', rfl⟩ := List.mem_map.mp hp
  rw [List.mem_range] at hn'
  unfold Deposition.effect
  apply List.sum_eq_zero
  intro v hv
  obtain ⟨wr, hwr, rfl⟩ := List.mem_map.mp hv
  rw [if_neg]
  rintro ⟨-, hj'⟩
  have hc := writes_cols true _ _ wr hwr
  rw [← hj'] at hc
  have e4 : √(((b.ph n).x / s) ^ 2 + ((b.ph n).y / s) ^ 2) = √((b.ph n).x ^ 2 + (b.ph n).y ^ 2) / s := by
    rw [div_pow, div_pow, ← add_div, Real.sqrt_div' _ (sq_nonneg s), Real.sqrt_sq hs.le]
  have hins : (w.gridIn s).Inside ⟨(b.ph n).xi / s, √(((b.ph n).x / s) ^ 2 + ((b.ph n).y / s) ^ 2),
      b.q n * (1 / w.k.e / (2 * Real.pi * (w.rMax / w.nR / s) * (w.slice / s) * s ^ 3 * np))⟩ := by
    by_contra hni
    unfold Deposition.writes Deposition.writesCubic at hwr
    dsimp only at hwr
    rw [if_neg hni] at hwr
    cases hwr
  obtain ⟨i1, i2, i3⟩ := hins
  have e2 : w.xiMin / s + ((w.nXi : ℝ) - 1) * (w.slice / s) = w.xiMax / s := by
    unfold Wake.slice
    have : (w.nXi : ℝ) - 1 ≠ 0 := by linarith
    field_simp
    ring
  have e3 : (w.nR : ℝ) * (w.rMax / w.nR / s) = w.rMax / s := by field_simp
  replace i1 : w.xiMin / s ≤ (b.ph n).xi / s := i1
  replace i2 : (b.ph n).xi / s ≤ w.xiMin / s + ((w.nXi : ℝ) - 1) * (w.slice / s) := i2
  replace i3 : √(((b.ph n).x / s) ^ 2 + ((b.ph n).y / s) ^ 2) ≤ (w.nR : ℝ) * (w.rMax / w.nR / s) := i3
  rw [div_le_div_iff_of_pos_right hs] at i1
  rw [e2, div_le_div_iff_of_pos_right hs] at i2
  rw [e3, e4, div_le_div_iff_of_pos_right hs] at i3
  have ho := hout b hb n hn' i1 i2 i3
  have hcell : ⌈(w.gridIn s).rCell ⟨(b.ph n).xi / s, √(((b.ph n).x / s) ^ 2 + ((b.ph n).y / s) ^ 2),
      b.q n * (1 / w.k.e / (2 * Real.pi * (w.rMax / w.nR / s) * (w.slice / s) * s ^ 3 * np))⟩⌉ ≤ (k : ℤ) - 2 := by
    rw [Int.ceil_le]
    unfold Grid.rCell
    show (√(((b.ph n).x / s) ^ 2 + ((b.ph n).y / s) ^ 2) - w.rMax / w.nR / s / 2) / (w.rMax / w.nR / s) ≤ _
    rw [e4, div_le_iff₀ (div_pos hd hs)]
    unfold Wake.node at ho
    have : √((b.ph n).x ^ 2 + (b.ph n).y ^ 2) / s ≤ (((k : ℝ) + 1 / 2) * (w.rMax / w.nR) - 2 * (w.rMax / w.nR)) / s :=
      div_le_div_of_nonneg_right ho hs.le
    push_cast
    calc √((b.ph n).x ^ 2 + (b.ph n).y ^ 2) / s - w.rMax / w.nR / s / 2
        ≤ (((k : ℝ) + 1 / 2) * (w.rMax / w.nR) - 2 * (w.rMax / w.nR)) / s - w.rMax / w.nR / s / 2 := by linarith
      _ = ((k : ℝ) - 2) * (w.rMax / w.nR / s) := by ring
  omega

theorem si_units {c e me eps ω np d sl node Q S : ℝ} (hc : 0 < c) (he : 0 < e) (hm : 0 < me) (heps : 0 < eps) (hω : 0 < ω)
    (hnp : 0 < np) (hd : 0 < d) (hsl : 0 < sl) (hnode : 0 < node) (hω2 : ω ^ 2 = np * e ^ 2 / (me * eps))
    (h : node / (c / ω) * S = d / (c / ω) * (Q * (1 / e / (2 * Real.pi * (d / (c / ω)) * (sl / (c / ω)) * (c / ω) ^ 3 * np)))) :
    S * (me * c * ω / e) / c * sl = 1 / (eps * c ^ 2) * c * Q / (2 * Real.pi * node) := by
  have hpi := Real.pi_pos
  have hS : S = Q * ω / (2 * Real.pi * e * sl * c * np * node) := by
    field_simp at h ⊢
    linear_combination h
  rw [eq_div_iff (by positivity)] at hω2
  rw [hS]
  field_simp
  linear_combination Q * hω2

/-- The magnetic field of the beams in the quasistatic model (`beamField` in units of `E_0 / c`), at a radius more than two cells
from all particles, summed over the slices, is the one of a current of the charge of the bunches: `μ_0 c Q / (2 π r)`. -/
theorem quasi_charge (hk : w.k.Pos) {np ωp : ℝ} (hnp : 0 < np) (hω : 0 < ωp) (hωp : ωp ^ 2 = np * w.k.e ^ 2 / (w.k.me * w.k.eps0))
    (hR : 0 < w.rMax) (hn : 3 ≤ w.nR) (hz : 3 ≤ w.nXi) (hxi : w.xiMin < w.xiMax) (a : Plasma1)
    (hs : a.skinDepth (np / 1e6) = w.k.c / ωp) (he0 : a.waveBreaking (np / 1e6) = w.k.me * w.k.c * ωp / w.k.e)
    (q : QArgs) (hq : q.pShape = "cubic") (pc : ℝ) (bunches : List Bunch) (k : ℕ) (hkn : k < w.nR)
    (hout : ∀ b ∈ bunches, ∀ i < b.n, w.xiMin ≤ (b.ph i).xi → (b.ph i).xi ≤ w.xiMax → √((b.ph i).x ^ 2 + (b.ph i).y ^ 2) ≤ w.rMax →
      √((b.ph i).x ^ 2 + (b.ph i).y ^ 2) ≤ w.node k - 2 * (w.rMax / w.nR)) :
    let c := w.quasi q (a.skinDepth (np / 1e6)) pc
    ∃ beam, c.beamField (bunches.map (partsOf (a.skinDepth (np / 1e6))
        (1 / w.k.e / (2 * Real.pi * c.dr * c.dxi * a.skinDepth (np / 1e6) ^ 3 * np)))) = some beam ∧
      ∑ i ∈ Finset.range w.nXi, beam i k * a.waveBreaking (np / 1e6) / w.k.c * w.slice =
        1 / (w.k.eps0 * w.k.c ^ 2) * w.k.c * w.charge bunches / (2 * Real.pi * w.node k) := by
  intro c
  obtain ⟨hc, he, hm, heps⟩ := hk
  have hs0 : 0 < a.skinDepth (np / 1e6) := by rw [hs]; exact div_pos hc hω
  have hp := quasi_parts w q (a.skinDepth (np / 1e6)) np pc bunches
  have hsh : Deposition.parseShape c.pShape = some .cubic := by
    show Deposition.parseShape q.pShape = _
    rw [hq]; rfl
  have hb := QS.beamField_eq hsh (bunches.map (w.qparts (a.skinDepth (np / 1e6)) np))
  rw [quasi_grid w q pc] at hb
  refine ⟨_, (congrArg _ hp).trans hb, ?_⟩
  have hreg := gridIn_regular w hs0 hR (by omega) (by omega) hxi
  have h1 : (0 : ℝ) < w.nR := by exact_mod_cast (by omega : 0 < w.nR)
  have h2 : (1 : ℝ) < w.nXi := by exact_mod_cast (by omega : 1 < w.nXi)
  have hsl : 0 < w.slice := div_pos (by linarith) (by linarith)
  have hnode : 0 < w.node k := by unfold Wake.node; positivity
  have ht := Plasma.beam_total (w.gridIn (a.skinDepth (np / 1e6))) hreg hz hn
    (bunches.map (w.qparts (a.skinDepth (np / 1e6)) np)).flatten (by
      intro p hp
      obtain ⟨l, hl, hp⟩ := List.mem_flatten.mp hp
      obtain ⟨b, -, rfl⟩ := List.mem_map.mp hl
      exact partsOf_nonneg _ _ b p hp) k hkn
    fun i j hj => deposit_outside w hs0 hR (by omega) (by omega) bunches k hout i j hj
  rw [quasi_weight w hs0 (by omega) (by omega)] at ht
  rw [← Finset.sum_mul, ← Finset.sum_div, ← Finset.sum_mul]
  replace ht : ((k : ℝ) + 1 / 2) * (w.rMax / w.nR / a.skinDepth (np / 1e6)) *
      ∑ i ∈ Finset.range w.nXi, Plasma.calculateBeamSource .cubic (w.gridIn (a.skinDepth (np / 1e6)))
        (bunches.map (w.qparts (a.skinDepth (np / 1e6)) np)).flatten i k =
      w.rMax / w.nR / a.skinDepth (np / 1e6) * (w.charge bunches *
        (1 / w.k.e / (2 * Real.pi * (w.rMax / w.nR / a.skinDepth (np / 1e6)) * (w.slice / a.skinDepth (np / 1e6)) *
          a.skinDepth (np / 1e6) ^ 3 * np))) := ht
  generalize (∑ i ∈ Finset.range w.nXi, Plasma.calculateBeamSource .cubic (w.gridIn (a.skinDepth (np / 1e6)))
        (bunches.map (w.qparts (a.skinDepth (np / 1e6)) np)).flatten i k) = S at ht ⊢
  rw [he0]
  rw [hs] at ht
  generalize w.charge bunches = Q at ht ⊢
  have hnode' : w.node k = ((k : ℝ) + 1 / 2) * (w.rMax / w.nR) := rfl
  have hd : 0 < w.rMax / w.nR := div_pos hR h1
  rw [← mul_div_assoc, ← hnode'] at ht
  exact si_units hc he hm heps hω hnp hd hsl hnode hωp ht

/-! ### The two models -/

theorem writes_weight (sh : Deposition.Shape) (b : Bool) (g : Grid ℝ) (z r v f : ℝ) :
    Deposition.writes sh b g ⟨z, r, v * f⟩ = (Deposition.writes sh b g ⟨z, r, v⟩).map fun wr => ⟨wr.i, wr.j, wr.v * f⟩ := by
  have hin : g.Inside ⟨z, r, v * f⟩ ↔ g.Inside ⟨z, r, v⟩ := Iff.rfl
  by_cases h : g.Inside ⟨z, r, v⟩
  · cases sh
    · unfold Deposition.writes Deposition.writesLinear
      dsimp only
      rw [if_pos h, if_pos (hin.mpr h)]
      simp only [← mul_assoc, List.map_cons, List.map_nil]
      rfl
    · unfold Deposition.writes Deposition.writesCubic
      dsimp only
      rw [if_pos h, if_pos (hin.mpr h)]
      simp only [← mul_assoc, List.map_cons, List.map_nil]
      rfl
  · cases sh
    · unfold Deposition.writes Deposition.writesLinear
      dsimp only
      rw [if_neg h, if_neg (mt hin.mp h)]
      rfl
    · unfold Deposition.writes Deposition.writesCubic
      dsimp only
      rw [if_neg h, if_neg (mt hin.mp h)]
      rfl

theorem effect_weight (sh : Deposition.Shape) (b : Bool) (g : Grid ℝ) (z r v f : ℝ) (i j : ℤ) :
    Deposition.effect (Deposition.writes sh b g ⟨z, r, v * f⟩) i j = Deposition.effect (Deposition.writes sh b g ⟨z, r, v⟩) i j * f := by
  rw [writes_weight]
  unfold Deposition.effect
  rw [List.map_map, ← List.sum_map_mul_right]
  congr 1
  refine List.map_congr_left fun wr _ => ?_
  show (if i = wr.i ∧ j = wr.j then wr.v * f else 0) = _
  rw [ite_mul, zero_mul]

/-- The weights of the particles are a factor of the deposited array. -/
theorem deposit_factor (sh : Deposition.Shape) (g : Grid ℝ) (s f : ℝ) (b : Bunch) (i j : ℤ) :
    depositShape sh true g (partsOf s f b) (fun _ _ => 0) i j = depositShape sh true g (partsOf s 1 b) (fun _ _ => 0) i j * f := by
  rw [Deposition.depositShape_apply, Deposition.depositShape_apply, zero_add, zero_add, ← List.sum_map_mul_right]
  unfold partsOf
  rw [List.map_map, List.map_map]
  congr 1
  refine List.map_congr_left fun n _ => ?_
  show Deposition.effect (Deposition.writes sh true g ⟨_, _, b.q n * f⟩) i j =
    Deposition.effect (Deposition.writes sh true g ⟨_, _, b.q n * 1⟩) i j * f
  rw [effect_weight, mul_one]

theorem deposit_flatten (sh : Deposition.Shape) (g : Grid ℝ) (L : List (List (Deposition.Part ℝ))) (i j : ℤ) :
    depositShape sh true g L.flatten (fun _ _ => 0) i j = (L.map fun ps => depositShape sh true g ps (fun _ _ => 0) i j).sum := by
  induction L with
  | nil => rfl
  | cons a L ih =>
    rw [List.flatten_cons, List.map_cons, List.sum_cons, ← ih, Deposition.depositShape_apply, Deposition.depositShape_apply,
      Deposition.depositShape_apply, List.map_append, List.sum_append]
    ring

/-- Both models see the same beams: the field of the quasistatic model is the integral (trapezoidal rule, a quarter of the
first cell) of the current density in the cold fluid model. -/
theorem beams_agree {sh : String} {s np : ℝ} (hs : 0 < s) (hnp : np ≠ 0) (he : w.k.e ≠ 0) (hR : 0 < w.rMax) (hn : 0 < w.nR)
    (hz : 1 < w.nXi) (hxi : w.xiMin < w.xiMax) (bunches : List Bunch) {h beam : ℕ → ℕ → ℝ} (q : QArgs) (hq : q.pShape = sh) (pc : ℝ)
    (hh : w.beamHist sh s np bunches = some h)
    (hb : (w.quasi q s pc).beamField (bunches.map (w.qparts s np)) = some beam) (i k : ℕ) :
    w.node k / s * beam i k = w.rMax / w.nR / s * ((∑ j ∈ Finset.range k, w.node j / s * h i j) +
      (if k = 0 then 1 / 4 else 1 / 2) * (w.node k / s * h i k)) := by
  have h1 : (0 : ℝ) < w.nR := by exact_mod_cast hn
  have h2 : (1 : ℝ) < w.nXi := by exact_mod_cast hz
  have hsl : 0 < w.slice := div_pos (by linarith) (by linarith)
  have hd : 0 < w.rMax / w.nR / s := div_pos (div_pos hR h1) hs
  cases bunches with
  | nil =>
    rw [← Option.some.inj hh, ← Option.some.inj hb]
    simp
  | cons b0 l =>
    cases hsh : Deposition.parseShape sh with
    | none =>
      unfold Wake.beamHist at hh
      simp only [hsh, Option.map_none] at hh
      cases hh
    | some shape =>
      have hb' := QS.beamField_eq (c := w.quasi q s pc) (sh := shape) (by rw [← hsh, ← hq]; rfl) ((b0 :: l).map (w.qparts s np))
      rw [hb, quasi_grid w q pc] at hb'
      have hbeam : beam i k = Plasma.beamSource (depositShape shape true (w.gridIn s) ((b0 :: l).map (w.qparts s np)).flatten fun _ _ => 0)
          (w.rMax / w.nR / s) i k := by
        rw [Option.some.inj hb']; rfl
      have hhh : ∀ j : ℕ, h i j = ((b0 :: l).foldl (fun h b => depositShape shape true (w.gridIn s) (partsOf s (1 / w.k.e) b) h) fun _ _ => 0)
          ((i : ℤ) + 2) ((j : ℤ) + 2) * (1 / (Real.pi * (w.rMax / w.nR / s) ^ 2 * (1 + 2 * (j : ℝ)) * (w.slice / s) * np) / s ^ 3) := by
        intro j
        unfold Wake.beamHist at hh
        simp only [hsh, Option.map_some] at hh
        rw [← Option.some.inj hh]
        rfl
      have key : ∀ j : ℕ, w.node j / s * h i j =
          depositShape shape true (w.gridIn s) ((b0 :: l).map (w.qparts s np)).flatten (fun _ _ => 0) ((i : ℤ) + 2) ((j : ℤ) + 2) := by
        intro j
        rw [hhh, fold_deposit, zero_add, deposit_flatten, List.map_map]
        have e1 : (List.map (fun b => depositShape shape true (w.gridIn s) (partsOf s (1 / w.k.e) b) (fun _ _ => 0) ((i : ℤ) + 2) ((j : ℤ) + 2))
            (b0 :: l)).sum = ((b0 :: l).map fun b => depositShape shape true (w.gridIn s) (partsOf s 1 b) (fun _ _ => 0)
              ((i : ℤ) + 2) ((j : ℤ) + 2)).sum * (1 / w.k.e) := by
          rw [← List.sum_map_mul_right]
          congr 1
          exact List.map_congr_left fun b _ => deposit_factor shape _ s _ b _ _
        have e2 : (List.map ((fun ps => depositShape shape true (w.gridIn s) ps (fun _ _ => 0) ((i : ℤ) + 2) ((j : ℤ) + 2)) ∘ w.qparts s np)
            (b0 :: l)).sum = ((b0 :: l).map fun b => depositShape shape true (w.gridIn s) (partsOf s 1 b) (fun _ _ => 0)
              ((i : ℤ) + 2) ((j : ℤ) + 2)).sum *
              (1 / w.k.e / (2 * Real.pi * (w.rMax / w.nR / s) * (w.slice / s) * s ^ 3 * np)) := by
          rw [← List.sum_map_mul_right]
          congr 1
          exact List.map_congr_left fun b _ => deposit_factor shape _ s _ b _ _
        rw [e1, e2]
        generalize ((b0 :: l).map fun b => depositShape shape true (w.gridIn s) (partsOf s 1 b) (fun _ _ => 0)
              ((i : ℤ) + 2) ((j : ℤ) + 2)).sum = S
        unfold Wake.node
        have hj : (1 + 2 * (j : ℝ)) ≠ 0 := by positivity
        have hj' : ((j : ℝ) + 1 / 2) ≠ 0 := by positivity
        have hpi := Real.pi_pos
        have hR' := hR.ne'
        field_simp
        ring
      have ha := Plasma.beam_ampere (depositShape shape true (w.gridIn s) ((b0 :: l).map (w.qparts s np)).flatten fun _ _ => 0)
        (w.rMax / w.nR / s) hd i k
      rw [hbeam]
      simp only [key]
      rw [← ha]
      unfold Wake.node
      ring

/-- In the cold fluid model the magnetic field is the field of the beams in the quasistatic model plus the one of the current of the
plasma, except at the node next to the axis: there the part of the beams is twice as large. -/
theorem cold_beam_part {sh : String} {s np : ℝ} (hs : 0 < s) (hnp : np ≠ 0) (hc : w.k.c ≠ 0) (he : w.k.e ≠ 0) (hR : 0 < w.rMax)
    (hn : 0 < w.nR) (hz : 1 < w.nXi) (hxi : w.xiMin < w.xiMax) (bunches : List Bunch) {h beam : ℕ → ℕ → ℝ} (q : QArgs)
    (hq : q.pShape = sh) (pc : ℝ) (hh : w.beamHist sh s np bunches = some h)
    (hb : (w.quasi q s pc).beamField (bunches.map (w.qparts s np)) = some beam)
    (bw : Bool) (env : Option (ℕ → ℕ → ℝ)) (e0 : ℝ) (i k : ℕ) :
    let m : ColdFluid.Cold := ⟨w.nXi, w.nR, w.xiMin / s, w.slice / s, w.rMax / w.nR / s, bw, env, h⟩
    let I := fun j => m.rFld j * (Base.gradient m.nXi m.dz (fun l => (m.fields e0 w.k.c l j).1) i - e0 * (m.rho i j * m.vz i j))
    m.rFld k * (w.k.c * (m.fields e0 w.k.c i k).2.2) =
      m.rFld k * ((if k = 0 then 2 else 1) * (e0 * beam i k)) + m.dr * ((∑ j ∈ Finset.range k, I j) + I k / 2) := by
  intro m I
  have h1 : (0 : ℝ) < w.nR := by exact_mod_cast hn
  have hd : 0 < w.rMax / w.nR / s := div_pos (div_pos hR h1) hs
  have hr : ∀ j, m.rFld j = w.node j / s := by
    intro j; unfold ColdFluid.Cold.rFld Wake.node; show w.rMax / w.nR / s / 2 + j * (w.rMax / w.nR / s) = _; ring
  have hpos : ∀ j, 0 < m.rFld j := by
    intro j; unfold ColdFluid.Cold.rFld; show 0 < w.rMax / w.nR / s / 2 + j * (w.rMax / w.nR / s); positivity
  have ha := beams_agree w hs hnp he hR hn hz hxi bunches q hq pc hh hb i k
  have hI : ∀ j, m.integrand i j * e0 = I j + e0 * (w.node j / s * h i j) := by
    intro j
    have : Base.gradient m.nXi m.dz (fun l => (m.fields e0 w.k.c l j).1) i =
        Base.gradient m.nXi m.dz (fun l => m.Ez l j) i * e0 := by
      unfold ColdFluid.Cold.fields Base.gradient; split_ifs <;> ring
    show _ = m.rFld j * (_ - _) + _
    rw [this, ← hr]
    unfold ColdFluid.Cold.integrand
    show (_ - _ + h i j) * _ * e0 = _
    ring
  have hB : m.rFld k * (w.k.c * (m.fields e0 w.k.c i k).2.2) =
      m.dr * ((∑ j ∈ Finset.range k, m.integrand i j * e0) + m.integrand i k * e0 / 2) := by
    have := hpos k
    unfold ColdFluid.Cold.fields ColdFluid.Cold.Bt
    dsimp only
    rw [abs_of_pos this, Finset.sum_range_succ, ← Finset.sum_mul]
    field_simp
    ring
  rw [hB]
  simp only [hI, Finset.sum_add_distrib, ← Finset.mul_sum]
  rw [hr]
  show w.rMax / w.nR / s * _ = _ + w.rMax / w.nR / s * _
  by_cases hk : k = 0
  · subst hk
    rw [if_pos rfl] at ha ⊢
    rw [Finset.sum_range_zero, Finset.sum_range_zero] at *
    linear_combination (-2) * e0 * ha
  · rw [if_neg hk] at ha ⊢
    linear_combination (-1) * e0 * ha

/-! ### An instance -/

/-- Two particles, the second one ahead of the box of `demoWake`. -/
noncomputable def demoPair : Bunch :=
  ⟨2, fun i => if i = 0 then ⟨1, 0, -2, 0, 0, 10⟩ else ⟨0, 0, 1, 0, 0, 10⟩, fun _ => 3, none, 0, 0, none, 0, 0, "pair", -1, 1, none, none⟩

theorem demoPair_charge : (demoWake false).charge [demoPair] = -3 := by
  have h0 : √((1 : ℝ) ^ 2 + 0 ^ 2) = 1 := by norm_num
  have e : (demoWake false).xiMin = -4 ∧ (demoWake false).xiMax = 0 ∧ (demoWake false).rMax = 4 := ⟨rfl, rfl, rfl⟩
  unfold Wake.charge Wake.chargeOf
  rw [e.1, e.2.1, e.2.2, List.map_cons, List.map_nil, List.sum_cons, List.sum_nil, add_zero]
  show ∑ i ∈ Finset.range 2, _ = _
  rw [Finset.sum_range_succ, Finset.sum_range_one]
  have p0 : demoPair.ph 0 = ⟨1, 0, -2, 0, 0, 10⟩ := rfl
  have p1 : demoPair.ph 1 = ⟨0, 0, 1, 0, 0, 10⟩ := rfl
  rw [p0, p1, if_pos ⟨by norm_num, by norm_num, by dsimp only; rw [h0]; norm_num⟩, if_neg (by rintro ⟨-, h, -⟩; norm_num at h)]
  norm_num [Bunch.q, demoPair]

/-- The density in the cold fluid model holds the charge of the first particle. -/
example : ∃ h, (demoWake false).beamHist "cubic" 1 1 [demoPair] = some h ∧
    ∑ i ∈ Finset.range 5, ∑ k ∈ Finset.range 4, 1 * (1 * h i k) * (demoWake false).volume k = -3 := by
  refine ⟨_, rfl, ?_⟩
  rw [← demoPair_charge]
  exact cold_charge (demoWake false) (s := 1) (np := 1) one_pos one_ne_zero (one_ne_zero : (1 : ℝ) ≠ 0) (by norm_num [demoWake])
    (by norm_num [demoWake]) (by norm_num [demoWake]) (by norm_num [demoWake]) [demoPair] rfl

/-- At the outermost node the magnetic field in the quasistatic model is that of the charge of the first particle. -/
example : ∃ beam, ((demoWake false).quasi ⟨2, none, fun _ => 0, "cubic", 10, "ab5", fun _ i => i⟩ 1 0).beamField
      [(demoWake false).qparts 1 1 demoPair] = some beam ∧
    ∑ i ∈ Finset.range 5, beam i 3 = -3 / (2 * Real.pi * (7 / 2)) := by
  have hnode : (demoWake false).node 3 = 7 / 2 := by norm_num [Wake.node, demoWake]
  have hslice : (demoWake false).slice = 1 := by norm_num [Wake.slice, demoWake]
  have hout : ∀ b ∈ [demoPair], ∀ i < b.n, (demoWake false).xiMin ≤ (b.ph i).xi → (b.ph i).xi ≤ (demoWake false).xiMax →
      √((b.ph i).x ^ 2 + (b.ph i).y ^ 2) ≤ (demoWake false).rMax →
      √((b.ph i).x ^ 2 + (b.ph i).y ^ 2) ≤ (demoWake false).node 3 - 2 * ((demoWake false).rMax / (demoWake false).nR) := by
    intro b hb i hi h1 h2 h3
    rw [List.mem_singleton] at hb
    subst hb
    have hd : (demoWake false).rMax / (demoWake false).nR = 1 := by norm_num [demoWake]
    rw [hnode, hd]
    have hi' : i < 2 := hi
    interval_cases i
    · show √((1 : ℝ) ^ 2 + 0 ^ 2) ≤ _
      norm_num
    · exfalso
      replace h2 : (1 : ℝ) ≤ 0 := h2
      norm_num at h2
  obtain ⟨beam, hb, h⟩ := quasi_charge (demoWake false) ⟨one_pos, one_pos, one_pos, one_pos⟩ (np := 1) (ωp := 1) one_pos one_pos
    (by norm_num [demoWake]) (by norm_num [demoWake]) (by norm_num [demoWake]) (by norm_num [demoWake]) (by norm_num [demoWake])
    ⟨fun _ => 1, fun _ => 1⟩ (by norm_num [demoWake]) (by norm_num [demoWake]) ⟨2, none, fun _ => 0, "cubic", 10, "ab5", fun _ i => i⟩ rfl 0
    [demoPair] 3 (by norm_num [demoWake]) hout
  refine ⟨beam, (congrArg _ (quasi_parts (demoWake false) _ 1 1 0 [demoPair])).symm.trans hb, ?_⟩
  rw [demoPair_charge, hnode, hslice] at h
  norm_num [demoWake] at h
  rw [h]

end WakeT.Stage
