import Verif.Deposition.Ruyten

/-!
# Properties C18 and C73: depositing a uniform density with Ruyten correction

A uniform density in the box is the limit of very many particles whose weight
in `[r, r + dr)` is proportional to `r dr`; the charge collected by a radial cell
is then the integral over `r` of what one unit particle at `r` leaves in that
cell, times `r`.
-/

set_option linter.unusedSectionVars false

namespace WakeT.Deposition

open MeasureTheory intervalIntegral

/-- **C18**: with linear shapes and Ruyten correction, a uniform density that
fills the whole box (charge proportional to `r dr`) gives every radial cell
exactly its share: the deposited charge of column `j` is the radius of the cell
centre times `dr`, i.e. the volume of the annulus up to the common factor. -/
theorem ruyten_uniform_linear (g : Grid ℝ) (hg : g.Regular) (hn : 1 ≤ g.nr) (z : ℝ)
    (hz1 : g.zMin ≤ z) (hz2 : z ≤ g.zMin + ((g.nz : ℝ) - 1) * g.dz) (j : ℤ)
    (hj1 : 2 ≤ j) (hj2 : j < g.nr + 2) :
    ∫ r in (0 : ℝ)..(g.nr * g.dr),
      weighted g (fun _ j' => if j' = j then 1 else 0)
        (depositShape .linear true g [⟨z, r, 1⟩] (fun _ _ => 0)) * r =
      g.rNode j * g.dr := by
  have hd := hg.dr
  have hnR : (1 : ℝ) ≤ g.nr := by exact_mod_cast hn
  have h1 : ∫ r in (0 : ℝ)..(g.nr * g.dr), weighted g (fun _ j' => if j' = j then 1 else 0)
        (depositShape .linear true g [⟨z, r, 1⟩] (fun _ _ => 0)) * r =
      ∫ r in (0 : ℝ)..(g.nr * g.dr), colLinear g j ((r - g.rMin) / g.dr) * r := by
    apply integral_congr
    intro r hr
    rw [Set.uIcc_of_le (by positivity)] at hr
    simp only
    rw [colLinear_eq hg (p := ⟨z, r, 1⟩) ⟨hz1, hz2, hr.2⟩ hr.1 rfl]
  rw [h1, integral_cell_units hg, integral_pieces hn _
    (fun m x => (pieceLinear g.nr m j).eval (x - ((m : ℝ) - 1)) * (x + 1 / 2))
    (fun m => (((pieceLinear g.nr m j).continuous.comp
      (continuous_id.sub continuous_const)).mul (continuous_id.add continuous_const)))
    (fun m hm x ha hb => by rw [colLinear_piece hg hn j m hm x ha hb])]
  simp_rw [integral_piece]
  obtain ⟨c, rfl⟩ : ∃ c : ℕ, j = c + 2 := ⟨(j - 2).toNat, by omega⟩
  have hc : c < g.nr := by omega
  rw [Finset.sum_eq_add c (c + 1) (by omega)]
  · have e1 : (pieceLinear g.nr c ((c : ℤ) + 2)).prim ((c : ℝ) - 1 / 2)
          (edge g.nr (c + 1) - ((c : ℝ) - 1)) -
        (pieceLinear g.nr c ((c : ℤ) + 2)).prim ((c : ℝ) - 1 / 2) (edge g.nr c - ((c : ℝ) - 1)) =
        c / 2 + 1 / 8 := by
      rw [edge_mid (by omega) (by omega)]
      rcases Nat.eq_zero_or_pos c with h0 | h0
      · subst h0
        rw [edge_zero]
        simp [pieceLinear, Cub.prim]; norm_num
      · have : (c : ℝ) ≠ 0 := by exact_mod_cast h0.ne'
        rw [edge_mid h0 (by omega)]
        unfold pieceLinear
        rw [if_neg (by omega), if_neg (by omega), if_neg (by omega), if_pos rfl]
        simp only [Cub.prim]
        push_cast
        field_simp
        ring
    have e2 : (pieceLinear g.nr (c + 1) ((c : ℤ) + 2)).prim (((c + 1 : ℕ) : ℝ) - 1 / 2)
          (edge g.nr (c + 1 + 1) - (((c + 1 : ℕ) : ℝ) - 1)) -
        (pieceLinear g.nr (c + 1) ((c : ℤ) + 2)).prim (((c + 1 : ℕ) : ℝ) - 1 / 2)
          (edge g.nr (c + 1) - (((c + 1 : ℕ) : ℝ) - 1)) = c / 2 + 3 / 8 := by
      rw [edge_mid (m := c + 1) (by omega) (by omega)]
      unfold pieceLinear
      rw [if_neg (by omega)]
      by_cases h0 : c + 1 = g.nr
      · rw [h0, edge_last, if_pos rfl, if_pos (by omega)]
        have : (g.nr : ℝ) = c + 1 := by exact_mod_cast h0.symm
        simp only [Cub.prim, this]
        push_cast
        ring
      · have : (c : ℝ) + 1 ≠ 0 := by positivity
        rw [edge_mid (by omega) (by omega), if_neg h0, if_pos (by push_cast; ring)]
        simp only [Cub.prim]
        push_cast
        field_simp
        ring
    rw [e1, e2]
    unfold Grid.rNode
    rw [hg.rMin]
    push_cast
    ring
  · intro m hm hne
    have hm : m ≤ g.nr := by rw [Finset.mem_range] at hm; omega
    have : pieceLinear g.nr m ((c : ℤ) + 2) = ⟨0, 0, 0, 0⟩ := by
      unfold pieceLinear
      split_ifs <;> first | rfl | (exfalso; omega)
    rw [this]; simp [Cub.prim]
  · intro h; exfalso; apply h; rw [Finset.mem_range]; omega
  · intro h; exfalso; apply h; rw [Finset.mem_range]; omega

/-- **C73**: with cubic shapes and Ruyten correction the same uniform density
gives every radial cell exactly its share, except the two outermost cells,
between which `1/1920` of `dr²` is displaced outwards (the correction has no
counterpart of the on-axis coefficient at the outer edge). -/
theorem ruyten_uniform_cubic (g : Grid ℝ) (hg : g.Regular) (hn : 3 ≤ g.nr) (z : ℝ)
    (hz1 : g.zMin ≤ z) (hz2 : z ≤ g.zMin + ((g.nz : ℝ) - 1) * g.dz) (j : ℤ)
    (hj1 : 2 ≤ j) (hj2 : j < g.nr + 2) :
    ∫ r in (0 : ℝ)..(g.nr * g.dr),
      weighted g (fun _ j' => if j' = j then 1 else 0)
        (depositShape .cubic true g [⟨z, r, 1⟩] (fun _ _ => 0)) * r =
      g.rNode j * g.dr +
        (if j = g.nr then -(1 / 1920) else if j = g.nr + 1 then 1 / 1920 else 0) * g.dr ^ 2 := by
  have hd := hg.dr
  have hnR : (3 : ℝ) ≤ g.nr := by exact_mod_cast hn
  have h1 : ∫ r in (0 : ℝ)..(g.nr * g.dr), weighted g (fun _ j' => if j' = j then 1 else 0)
        (depositShape .cubic true g [⟨z, r, 1⟩] (fun _ _ => 0)) * r =
      ∫ r in (0 : ℝ)..(g.nr * g.dr), colCubic g j ((r - g.rMin) / g.dr) * r := by
    apply integral_congr
    intro r hr
    rw [Set.uIcc_of_le (by positivity)] at hr
    simp only
    rw [colCubic_eq hg (p := ⟨z, r, 1⟩) ⟨hz1, hz2, hr.2⟩ hr.1 rfl]
  rw [h1, integral_cell_units hg, integral_pieces (by omega) _
    (fun m x => (pieceCubic g.nr m (j - m)).eval (x - ((m : ℝ) - 1)) * (x + 1 / 2))
    (fun m => (((pieceCubic g.nr m (j - m)).continuous.comp
      (continuous_id.sub continuous_const)).mul (continuous_id.add continuous_const)))
    (fun m hm x ha hb => by
      rw [← colCubic_piece hg hn (j - m) m hm x ha hb, add_sub_cancel])]
  simp_rw [integral_piece]
  obtain ⟨c, rfl⟩ : ∃ c : ℕ, j = c + 2 := ⟨(j - 2).toNat, by omega⟩
  have hc : c < g.nr := by omega
  have := share_sum hn hc
  unfold shareCubic at this
  rw [this]
  have c1 : ((c : ℤ) + 2 = g.nr) = (c + 2 = g.nr) := propext ⟨by omega, by omega⟩
  have c2 : ((c : ℤ) + 2 = g.nr + 1) = (c + 1 = g.nr) := propext ⟨by omega, by omega⟩
  simp only [c1, c2]
  unfold Grid.rNode
  rw [hg.rMin]
  push_cast
  ring

/-- A grid that meets the hypotheses of both theorems. -/
noncomputable def uniformGrid : Grid ℝ :=
  { zMin := 0, rMin := 1 / 2, nz := 5, nr := 4, dz := 1, dr := 1 }

example : uniformGrid.Regular ∧ 3 ≤ uniformGrid.nr ∧ uniformGrid.zMin ≤ (2 : ℝ) ∧
    (2 : ℝ) ≤ uniformGrid.zMin + ((uniformGrid.nz : ℝ) - 1) * uniformGrid.dz ∧
    (2 : ℤ) ≤ 4 ∧ (4 : ℤ) < uniformGrid.nr + 2 := by
  refine ⟨⟨by norm_num [uniformGrid], by norm_num [uniformGrid], by norm_num [uniformGrid]⟩,
    ?_, ?_, ?_, ?_, ?_⟩ <;> norm_num [uniformGrid]

end WakeT.Deposition
