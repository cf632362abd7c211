import Verif.Deposition.Ruyten
import Verif.Plasma.Deposit

/-!
# Property C171: the deposition keeps the sign of the charge

The Ruyten correction moves charge between neighbouring cells.  With either shape it never
moves so much that a cell becomes negative: particles of one sign give a density of this sign
in every cell, no set of cells receives more than the particles have, and the azimuthal field
of a beam of one sign has one sign, with an enclosed charge that grows with the radius.
-/

set_option linter.unusedSectionVars false

namespace WakeT.Deposition

/-! ### Helper lemmas -/

private theorem rc_linear (g : Grid ℝ) (hd : 0 < g.dr) (b : Bool) (n : ℕ) :
    -1 ≤ (if b then ruytenLinear g n else 0) ∧ (if b then ruytenLinear g n else 0) ≤ 0 := by
  cases b
  · norm_num
  · rw [if_pos rfl]
    by_cases hn : n = 0
    · subst hn; simp [ruytenLinear]
    · rw [ruytenLinear_eq g hd hn]
      have h1 : (1 : ℝ) ≤ n := by exact_mod_cast Nat.one_le_iff_ne_zero.mpr hn
      have h2 : 0 ≤ 1 / (4 * (n : ℝ)) := by positivity
      have h3 : 1 / (4 * (n : ℝ)) ≤ 1 := by rw [div_le_one (by positivity)]; linarith
      constructor <;> linarith

private theorem rc_cubic (g : Grid ℝ) (hd : 0 < g.dr) (b : Bool) (n : ℕ) :
    -(239 / 320) ≤ (if b then ruytenCubic g n else 0) ∧
      (if b then ruytenCubic g n else 0) ≤ 0 := by
  cases b
  · norm_num
  · rw [if_pos rfl]
    rcases (by omega : n = 0 ∨ n = 1 ∨ 2 ≤ n) with h | h | h
    · subst h; simp only [ruytenCubic, if_true]; norm_num
    · subst h; rw [ruytenCubic_one g hd]; norm_num
    · rw [ruytenCubic_eq g hd h]
      have h1 : (2 : ℝ) ≤ n := by exact_mod_cast h
      have h2 : 0 ≤ 3 / (4 * (n : ℝ)) := by positivity
      have h3 : 3 / (4 * (n : ℝ)) ≤ 239 / 320 := by
        rw [div_le_iff₀ (by positivity)]; linarith
      constructor <;> linarith

private theorem linear_weights {u c : ℝ} (h0 : 0 ≤ u) (h1 : u ≤ 1) (c0 : -1 ≤ c) (c1 : c ≤ 0) :
    0 ≤ 1 - u + c * (1 - u) * u ∧ 0 ≤ u - c * (1 - u) * u := by
  have hv : 0 ≤ 1 - u := by linarith
  have e1 : 1 - u + c * (1 - u) * u = (1 - u) * (1 + c * u) := by ring
  have e2 : u - c * (1 - u) * u = u * (1 + -c * (1 - u)) := by ring
  have h3 : 0 ≤ 1 + c * u := by nlinarith
  have h4 : 0 ≤ -c * (1 - u) := mul_nonneg (by linarith) hv
  rw [e1, e2]
  exact ⟨mul_nonneg hv h3, mul_nonneg h0 (by linarith)⟩

private theorem cubic_weights {u c : ℝ} (h0 : 0 ≤ u) (h1 : u ≤ 1) (c0 : -(239 / 320) ≤ c)
    (c1 : c ≤ 0) :
    0 ≤ (cubicShape u).s0 ∧ 0 ≤ (cubicShape u).s1 + c * (1 - u) * u ∧
      0 ≤ (cubicShape u).s2 - c * (1 - u) * u ∧ 0 ≤ (cubicShape u).s3 := by
  have hv : 0 ≤ 1 - u := by linarith
  have hp : 0 ≤ (1 - u) * u := mul_nonneg hv h0
  simp only [cubicShape]
  refine ⟨by positivity, ?_, ?_, by positivity⟩
  · have h2 : -(239 / 320) * ((1 - u) * u) ≤ c * ((1 - u) * u) :=
      mul_le_mul_of_nonneg_right c0 hp
    have h3 : 0 ≤ (1 - u) ^ 2 * u := by positivity
    nlinarith [sq_nonneg (1 - u - 1 / 5)]
  · have h2 : c * ((1 - u) * u) ≤ 0 := mul_nonpos_of_nonpos_of_nonneg c1 hp
    have h3 : 0 ≤ (1 - u) ^ 3 := by positivity
    nlinarith

private theorem fold_nonneg (c : ℝ) (n : ℕ) (s : S4 ℝ)
    (h : 0 ≤ s.s0 ∧ 0 ≤ s.s1 ∧ 0 ≤ s.s2 ∧ 0 ≤ s.s3) :
    0 ≤ (foldShape c n s).s0 ∧ 0 ≤ (foldShape c n s).s1 ∧ 0 ≤ (foldShape c n s).s2 ∧
      0 ≤ (foldShape c n s).s3 := by
  obtain ⟨h0, h1, h2, h3⟩ := h
  unfold foldShape
  split_ifs <;> refine ⟨?_, ?_, ?_, ?_⟩ <;> (try simp only) <;>
    first
    | exact le_refl _ | assumption | exact add_nonneg (by assumption) (by assumption)

/-- With or without the correction, all writes are non-negative multiples of the weight. -/
theorem writes_sign (g : Grid ℝ) (hd : 0 < g.dr) (sh : Shape) (b : Bool) (p : Part ℝ) :
    ∀ wr ∈ writes sh b g p, ∃ q : ℝ, 0 ≤ q ∧ wr.v = q * p.w := by
  intro wr hwr
  cases sh
  · simp only [writes, writesLinear] at hwr
    split at hwr
    · have hur : 0 ≤ uR g p ∧ uR g p ≤ 1 := by
        unfold uR; split_ifs
        · norm_num
        · norm_num
        · exact ceil_frac _
      have huz : 0 ≤ uZ g p ∧ uZ g p ≤ 1 := by
        unfold uZ; split_ifs
        · norm_num
        · norm_num
        · exact ceil_frac _
      have h2 : 0 ≤ 1 - uZ g p := by linarith
      have hc := rc_linear g hd b (ruytenIndex g p).toNat
      obtain ⟨w0, w1⟩ := linear_weights hur.1 hur.2 hc.1 hc.2
      simp only [List.mem_cons, List.not_mem_nil, or_false] at hwr
      rcases hwr with rfl | rfl | rfl | rfl
      · exact ⟨_, mul_nonneg h2 w0, rfl⟩
      · exact ⟨_, mul_nonneg h2 w1, rfl⟩
      · exact ⟨_, mul_nonneg huz.1 w0, rfl⟩
      · exact ⟨_, mul_nonneg huz.1 w1, rfl⟩
    · simp at hwr
  · simp only [writes, writesCubic] at hwr
    split at hwr
    · have hc := rc_cubic g hd b (ruytenIndex g p).toNat
      have hz0 := cubic_weights (ceil_frac (g.zCell p)).1 (ceil_frac (g.zCell p)).2
        (c := 0) (by norm_num) le_rfl
      simp only [zero_mul, add_zero, sub_zero] at hz0
      have hz := fold_nonneg (g.zCell p) g.nz _ hz0
      have hr := fold_nonneg (g.rCell p) g.nr
        { cubicShape (g.rCell p - ⌈g.rCell p⌉ + 1) with
          s1 := (cubicShape (g.rCell p - ⌈g.rCell p⌉ + 1)).s1 +
            (if b then ruytenCubic g (ruytenIndex g p).toNat else 0) *
              (1 - (g.rCell p - ⌈g.rCell p⌉ + 1)) * (g.rCell p - ⌈g.rCell p⌉ + 1)
          s2 := (cubicShape (g.rCell p - ⌈g.rCell p⌉ + 1)).s2 -
            (if b then ruytenCubic g (ruytenIndex g p).toNat else 0) *
              (1 - (g.rCell p - ⌈g.rCell p⌉ + 1)) * (g.rCell p - ⌈g.rCell p⌉ + 1) }
        (cubic_weights (ceil_frac (g.rCell p)).1 (ceil_frac (g.rCell p)).2 hc.1 hc.2)
      obtain ⟨hz0, hz1, hz2, hz3⟩ := hz
      obtain ⟨hr0, hr1, hr2, hr3⟩ := hr
      simp only [List.mem_cons, List.not_mem_nil, or_false] at hwr
      rcases hwr with rfl | rfl | rfl | rfl | rfl | rfl | rfl | rfl | rfl | rfl | rfl | rfl |
        rfl | rfl | rfl | rfl <;>
      exact ⟨_, mul_nonneg (by assumption) (by assumption), rfl⟩
    · simp at hwr

private theorem writes_nonneg' (g : Grid ℝ) (hd : 0 < g.dr) (sh : Shape) (b : Bool) (p : Part ℝ)
    (hw : 0 ≤ p.w) : ∀ wr ∈ writes sh b g p, 0 ≤ wr.v := by
  intro wr hwr
  obtain ⟨q, hq, e⟩ := writes_sign g hd sh b p wr hwr
  rw [e]; exact mul_nonneg hq hw

private theorem effect_nonneg (ws : List (Write ℝ)) (h : ∀ wr ∈ ws, 0 ≤ wr.v) (i j : ℤ) :
    0 ≤ effect ws i j := by
  unfold effect
  apply List.sum_nonneg
  intro x hx
  obtain ⟨wr, hwr, rfl⟩ := List.mem_map.mp hx
  split_ifs
  · exact h wr hwr
  · exact le_rfl

private theorem effect_sum_le (ws : List (Write ℝ)) (h : ∀ wr ∈ ws, 0 ≤ wr.v)
    (S : Finset (ℤ × ℤ)) :
    ∑ c ∈ S, effect ws c.1 c.2 ≤ (ws.map fun wr => wr.v).sum := by
  induction ws with
  | nil => simp [effect]
  | cons wr ws ih =>
    have h1 := ih fun x hx => h x (List.mem_cons_of_mem _ hx)
    have hv := h wr List.mem_cons_self
    have e : ∀ c : ℤ × ℤ, effect (wr :: ws) c.1 c.2 =
        (if c = (wr.i, wr.j) then wr.v else 0) + effect ws c.1 c.2 := by
      intro c
      simp only [effect, List.map_cons, List.sum_cons, Prod.ext_iff]
    simp only [e, Finset.sum_add_distrib, List.map_cons, List.sum_cons, Finset.sum_ite_eq']
    split_ifs
    · linarith
    · linarith

private theorem list_nonneg (ps : List (Part ℝ)) (f : Part ℝ → ℝ) (h : ∀ p ∈ ps, 0 ≤ f p) :
    0 ≤ (ps.map f).sum := by
  apply List.sum_nonneg
  intro x hx
  obtain ⟨p, hp, rfl⟩ := List.mem_map.mp hx
  exact h p hp

/-! ### C171 -/

/-- **C171.** Particles of non-negative weight never lower any cell, for both shapes, with and
without the Ruyten correction, wherever they are. -/
theorem density_nonneg (g : Grid ℝ) (hd : 0 < g.dr) (pShape : String) (ruyten : Bool)
    (ps : List (Part ℝ)) (hw : ∀ p ∈ ps, 0 ≤ p.w) (a a' : ℤ → ℤ → ℝ)
    (h : deposit pShape ruyten g ps a = some a') (i j : ℤ) : a i j ≤ a' i j := by
  unfold deposit at h
  obtain ⟨sh, _, rfl⟩ := Option.map_eq_some_iff.mp h
  rw [depositShape_apply]
  have := list_nonneg ps (fun p => effect (writes sh ruyten g p) i j) fun p hp =>
    effect_nonneg _ (writes_nonneg' g hd sh ruyten p (hw p hp)) i j
  linarith

/-- **C171.** Together, any cells receive at most the weight of the particles in the box. -/
theorem density_le_weight (g : Grid ℝ) (hd : 0 < g.dr) (pShape : String) (ruyten : Bool)
    (ps : List (Part ℝ)) (hw : ∀ p ∈ ps, 0 ≤ p.w) (a a' : ℤ → ℤ → ℝ)
    (h : deposit pShape ruyten g ps a = some a') (cells : Finset (ℤ × ℤ)) :
    ∑ c ∈ cells, (a' c.1 c.2 - a c.1 c.2) ≤ weight (g.inside ps) := by
  unfold deposit at h
  obtain ⟨sh, _, rfl⟩ := Option.map_eq_some_iff.mp h
  clear h
  simp only [depositShape_apply, add_sub_cancel_left]
  induction ps with
  | nil => simp [weight, Grid.inside]
  | cons p ps ih =>
    have h1 := ih fun x hx => hw x (List.mem_cons_of_mem _ hx)
    have h2 := effect_sum_le _ (writes_nonneg' g hd sh ruyten p (hw p List.mem_cons_self)) cells
    rw [sum_v] at h2
    simp only [List.map_cons, List.sum_cons, Finset.sum_add_distrib]
    have e : weight (g.inside (p :: ps)) = (if g.Inside p then p.w else 0) +
        weight (g.inside ps) := by
      unfold weight Grid.inside
      by_cases hp : g.Inside p
      · rw [if_pos hp, List.filter_cons, if_pos (by simpa [Grid.Inside] using hp)]; simp
      · rw [if_neg hp, List.filter_cons, if_neg (by simpa [Grid.Inside] using hp)]; simp
    rw [e]
    linarith

/-- **C171.** The azimuthal field of a beam of one sign has this sign in every cell. -/
theorem beam_field_nonneg (g : Grid ℝ) (hd : 0 < g.dr) (sh : Shape) (ps : List (Part ℝ))
    (hw : ∀ p ∈ ps, 0 ≤ p.w) (i k : ℕ) : 0 ≤ Plasma.calculateBeamSource sh g ps i k := by
  have hq : ∀ a b : ℤ, 0 ≤ depositShape sh true g ps (fun _ _ => 0) a b := fun a b => by
    rw [depositShape_apply, zero_add]
    exact list_nonneg ps (fun p => effect (writes sh true g p) a b) fun p hp =>
      effect_nonneg _ (writes_nonneg' g hd sh true p (hw p hp)) a b
  have h := Plasma.beam_ampere (depositShape sh true g ps fun _ _ => 0) g.dr hd i k
  have h1 : 0 ≤ g.dr * ((∑ j ∈ Finset.range k,
      depositShape sh true g ps (fun _ _ => 0) (i + 2) (j + 2)) +
      (if k = 0 then 1 / 4 else 1 / 2) *
        depositShape sh true g ps (fun _ _ => 0) (i + 2) (k + 2)) := by
    have h2 : (0 : ℝ) ≤ if k = 0 then 1 / 4 else 1 / 2 := by split_ifs <;> norm_num
    exact mul_nonneg hd.le (add_nonneg (Finset.sum_nonneg fun j _ => hq _ _)
      (mul_nonneg h2 (hq _ _)))
  rw [← h] at h1
  have h3 : 0 < ((k : ℝ) + 1 / 2) * g.dr := by positivity
  exact nonneg_of_mul_nonneg_right h1 h3

/-- **C171.** Radius times field (the enclosed charge) grows with the radius. -/
theorem beam_enclosed_mono (g : Grid ℝ) (hd : 0 < g.dr) (sh : Shape) (ps : List (Part ℝ))
    (hw : ∀ p ∈ ps, 0 ≤ p.w) (i k l : ℕ) (hkl : k ≤ l) :
    ((k : ℝ) + 1 / 2) * g.dr * Plasma.calculateBeamSource sh g ps i k ≤
      ((l : ℝ) + 1 / 2) * g.dr * Plasma.calculateBeamSource sh g ps i l := by
  have hq : ∀ a b : ℤ, 0 ≤ depositShape sh true g ps (fun _ _ => 0) a b := fun a b => by
    rw [depositShape_apply, zero_add]
    exact list_nonneg ps (fun p => effect (writes sh true g p) a b) fun p hp =>
      effect_nonneg _ (writes_nonneg' g hd sh true p (hw p hp)) a b
  unfold Plasma.calculateBeamSource
  rw [Plasma.beam_ampere _ g.dr hd, Plasma.beam_ampere _ g.dr hd]
  apply mul_le_mul_of_nonneg_left _ hd.le
  rcases Nat.eq_or_lt_of_le hkl with h | h
  · subst h; exact le_rfl
  · have h1 : ∑ j ∈ Finset.range (k + 1), depositShape sh true g ps (fun _ _ => 0) (i + 2)
        ((j : ℤ) + 2) ≤ ∑ j ∈ Finset.range l, depositShape sh true g ps (fun _ _ => 0) (i + 2)
        ((j : ℤ) + 2) := by
      apply Finset.sum_le_sum_of_subset_of_nonneg
      · intro j hj; rw [Finset.mem_range] at hj ⊢; omega
      · intro j _ _; exact hq _ _
    rw [Finset.sum_range_succ] at h1
    have h2 : ((if k = 0 then 1 / 4 else 1 / 2) : ℝ) ≤ 1 := by split_ifs <;> norm_num
    have h3 : (0 : ℝ) ≤ if l = 0 then 1 / 4 else 1 / 2 := by split_ifs <;> norm_num
    have h4 := mul_le_mul_of_nonneg_right h2 (hq (i + 2) (k + 2))
    have h5 := mul_nonneg h3 (hq (i + 2) (l + 2))
    linarith

/-- **C171.** Summed over any slices, the enclosed charge is at most the weight of the
particles in the box. -/
theorem beam_enclosed_le (g : Grid ℝ) (hd : 0 < g.dr) (sh : Shape) (ps : List (Part ℝ))
    (hw : ∀ p ∈ ps, 0 ≤ p.w) (n k : ℕ) :
    ((k : ℝ) + 1 / 2) * ∑ i ∈ Finset.range n, Plasma.calculateBeamSource sh g ps i k ≤
      weight (g.inside ps) := by
  have hq : ∀ a b : ℤ, 0 ≤ depositShape sh true g ps (fun _ _ => 0) a b := fun a b => by
    rw [depositShape_apply, zero_add]
    exact list_nonneg ps (fun p => effect (writes sh true g p) a b) fun p hp =>
      effect_nonneg _ (writes_nonneg' g hd sh true p (hw p hp)) a b
  have h1 : ∀ i : ℕ, ((k : ℝ) + 1 / 2) * Plasma.calculateBeamSource sh g ps i k ≤
      ∑ j ∈ Finset.range (k + 1), depositShape sh true g ps (fun _ _ => 0) (i + 2) (j + 2) := by
    intro i
    have h := Plasma.beam_ampere (depositShape sh true g ps fun _ _ => 0) g.dr hd i k
    have e : ((k : ℝ) + 1 / 2) * Plasma.calculateBeamSource sh g ps i k =
        (∑ j ∈ Finset.range k, depositShape sh true g ps (fun _ _ => 0) (i + 2) (j + 2)) +
        (if k = 0 then 1 / 4 else 1 / 2) *
          depositShape sh true g ps (fun _ _ => 0) (i + 2) (k + 2) := by
      apply mul_left_cancel₀ hd.ne'
      rw [← h]; unfold Plasma.calculateBeamSource; ring
    rw [e, Finset.sum_range_succ]
    have h2 : ((if k = 0 then 1 / 4 else 1 / 2) : ℝ) ≤ 1 := by split_ifs <;> norm_num
    have h4 := mul_le_mul_of_nonneg_right h2 (hq (i + 2) (k + 2))
    linarith
  rw [Finset.mul_sum]
  refine (Finset.sum_le_sum fun i _ => h1 i).trans ?_
  let f : ℕ × ℕ ↪ ℤ × ℤ := ⟨fun c => (c.1 + 2, c.2 + 2), fun a b h => by
    simp only [Prod.mk.injEq] at h
    exact Prod.ext (by omega) (by omega)⟩
  have h5 : ∀ s : String, parseShape s = some sh → ∑ c ∈
      (Finset.range n ×ˢ Finset.range (k + 1)).map f,
      (depositShape sh true g ps (fun _ _ => 0) c.1 c.2 - 0) ≤ weight (g.inside ps) := by
    intro s hs
    exact density_le_weight g hd s true ps hw (fun _ _ => 0) _ (by unfold deposit; rw [hs]; rfl) _
  have h6 : ∃ s : String, parseShape s = some sh := by
    cases sh
    · exact ⟨"linear", rfl⟩
    · exact ⟨"cubic", rfl⟩
  obtain ⟨s, hs⟩ := h6
  have h7 := h5 s hs
  rw [Finset.sum_map, Finset.sum_product] at h7
  simp only [sub_zero] at h7
  exact h7

/-- The correction does take charge out of a cell: a particle between the first two cells
gives the inner one less than without the correction, but not less than nothing. -/
example : let g : Grid ℚ := ⟨0, 1 / 2, 6, 6, 1, 1⟩
    let ps : List (Part ℚ) := [⟨2, 1, 1⟩]
    let d := fun b => depositShape .cubic b g ps (fun _ _ => 0) 4 2
    0 < d true ∧ d true < d false ∧ d false < weight (g.inside ps) := by
  decide +kernel

/-- A grid and beam that meet the hypotheses. -/
example : let g : Grid ℝ := ⟨0, 1 / 2, 6, 6, 1, 1⟩
    let ps : List (Part ℝ) := [⟨2, 1, 1⟩, ⟨3, 2, 0⟩]
    0 < g.dr ∧ (∀ p ∈ ps, 0 ≤ p.w) ∧ ∃ a', deposit "cubic" true g ps (fun _ _ => 0) = some a' :=
  ⟨by norm_num, by simp, _, rfl⟩

end WakeT.Deposition
