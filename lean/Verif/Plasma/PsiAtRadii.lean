import Verif.Plasma.PsiProps

/-! # The function that returns the potential and its derivatives (C188)

Model of `calculate_psi_and_derivatives` (psi_and_derivatives.py 249-332).  The solver does not call this function. -/

set_option linter.unusedSectionVars false

namespace WakeT.Plasma

/-- Arguments of `calculate_psi_and_derivatives` (psi_and_derivatives.py 249) and the result of `np.argsort` (275). -/
structure RadiiArgs where
  n : ℕ
  r : ℕ → ℝ
  pr : ℕ → ℝ
  q : ℕ → ℝ
  idx : ℕ → ℕ

namespace RadiiArgs
variable (s : RadiiArgs)

/-- `sum_1` before iteration `k` (psi_and_derivatives.py 270, 282). -/
noncomputable def sum1 (k : ℕ) : ℝ := ∑ i ∈ Finset.range k, s.q (s.idx i)

/-- `sum_2` before iteration `k` (psi_and_derivatives.py 271, 283). -/
noncomputable def sum2 (k : ℕ) : ℝ := ∑ i ∈ Finset.range k, s.q (s.idx i) * Real.log (s.r (s.idx i))

/-- The value at the outer boundary (psi_and_derivatives.py 287-288, 330): `r_N` is the last particle in memory. -/
noncomputable def edge : ℝ :=
  let rN := s.r (s.n - 1)
  s.sum1 s.n * Real.log rN - s.sum2 s.n - 1 / 4 * rN ^ 2

/-- `psi_part[idx[k]]` (psi_and_derivatives.py 286, 288). -/
noncomputable def psiPart (k : ℕ) : ℝ :=
  s.sum1 (k + 1) * Real.log (s.r (s.idx k)) - s.sum2 (k + 1) - 1 / 4 * s.r (s.idx k) ^ 2 - s.edge

/-- `sum_3` before iteration `k` (psi_and_derivatives.py 272, 298). -/
noncomputable def sum3 (k : ℕ) : ℝ :=
  ∑ i ∈ Finset.range k, s.q (s.idx i) * s.pr (s.idx i) / (s.r (s.idx i) * (1 + s.psiPart i))

/-- One iteration over the radii with the boundary terms (psi_and_derivatives.py 309-331).  The search starts from
the first particle for every radius (312-318). -/
noncomputable def at1 (rj : ℝ) : ℝ × ℝ × ℝ :=
  let k := scan (fun k => s.r (s.idx k)) rj s.n 0
  if k = -1 then (-(1 / 4) * rj ^ 2 - s.edge, -(1 / 2) * rj, 0 + s.sum3 s.n)
  else (s.sum1 (k.toNat + 1) * Real.log rj - s.sum2 (k.toNat + 1) - 1 / 4 * rj ^ 2 - s.edge,
    s.sum1 (k.toNat + 1) / rj - 1 / 2 * rj, -s.sum3 (k.toNat + 1) + s.sum3 s.n)

/-- `calculate_psi_and_derivatives` (psi_and_derivatives.py 249-332): `psi`, `dr_psi`, `dxi_psi` at the radii.
Without particles the code fails (287). -/
noncomputable def all (rFld : List ℝ) : List (ℝ × ℝ × ℝ) := rFld.map s.at1

end RadiiArgs

/-! ### Specification -/

/-- Potential of the charge sheets inside of `x` and of a uniform ion background, up to a constant. -/
noncomputable def sheets (n : ℕ) (r q : ℕ → ℝ) (x : ℝ) : ℝ :=
  ∑ i ∈ (Finset.range n).filter (fun i => r i < x), q i * Real.log (x / r i) - x ^ 2 / 4

/-! ### Proofs -/

theorem log_sums {n : ℕ} {r q : ℕ → ℝ} (hr : ∀ i < n, 0 < r i) {x : ℝ} (hx : 0 < x) (p : ℕ → Prop) [DecidablePred p] :
    (∑ i ∈ (Finset.range n).filter p, q i) * Real.log x - ∑ i ∈ (Finset.range n).filter p, q i * Real.log (r i) =
      ∑ i ∈ (Finset.range n).filter p, q i * Real.log (x / r i) := by
  rw [Finset.sum_mul, ← Finset.sum_sub_distrib]
  refine Finset.sum_congr rfl fun i hi => ?_
  have hi' := Finset.mem_range.mp (Finset.mem_filter.mp hi).1
  rw [Real.log_div hx.ne' (hr i hi').ne']
  ring

/-- Particles at the radius `x` itself do not count. -/
theorem sheets_le {n : ℕ} {r q : ℕ → ℝ} {x : ℝ} (hx : 0 < x) {p : ℕ → Prop} [DecidablePred p]
    (h1 : ∀ i < n, r i < x → p i) (h2 : ∀ i < n, p i → r i ≤ x) :
    ∑ i ∈ (Finset.range n).filter p, q i * Real.log (x / r i) - x ^ 2 / 4 = sheets n r q x := by
  unfold sheets
  congr 1
  symm
  refine Finset.sum_subset (fun i hi => ?_) (fun i hi hi' => ?_)
  · rw [Finset.mem_filter] at hi ⊢
    exact ⟨hi.1, h1 i (Finset.mem_range.mp hi.1) hi.2⟩
  · rw [Finset.mem_filter] at hi
    have h3 := Finset.mem_range.mp hi.1
    have h4 : ¬ r i < x := fun h => hi' (Finset.mem_filter.mpr ⟨hi.1, h⟩)
    have h5 : r i = x := le_antisymm (h2 i h3 hi.2) (not_lt.mp h4)
    rw [h5, div_self hx.ne', Real.log_one, mul_zero]

namespace RadiiArgs
variable {s : RadiiArgs}

theorem sums_of {m : ℕ} (hi : Sorts s.n s.r s.idx) {p : ℕ → Prop} [DecidablePred p] (hm : m ≤ s.n)
    (hp : ∀ k < s.n, (p (s.idx k) ↔ k < m)) (hr : ∀ i < s.n, 0 < s.r i) {x : ℝ} (hx : 0 < x) :
    s.sum1 m * Real.log x - s.sum2 m = ∑ i ∈ (Finset.range s.n).filter p, s.q i * Real.log (x / s.r i) := by
  unfold sum1 sum2
  rw [hi.sum_filter (fun i => s.q i) p m hm hp, hi.sum_filter (fun i => s.q i * Real.log (s.r i)) p m hm hp, log_sums hr hx]

theorem edge_eq (hi : Sorts s.n s.r s.idx) (hr : ∀ i < s.n, 0 < s.r i) (hn : 0 < s.n) (hout : ∀ i < s.n, s.r i ≤ s.r (s.n - 1)) :
    s.edge = sheets s.n s.r s.q (s.r (s.n - 1)) := by
  have hx := hr (s.n - 1) (by omega)
  unfold edge
  dsimp only
  rw [sums_of hi (p := fun _ => True) le_rfl (fun k hk => by simp [hk]) hr hx,
    ← sheets_le hx (p := fun _ => True) (fun _ _ _ => trivial) (fun i hi _ => hout i hi)]
  ring

theorem psiPart_eq (hi : Sorts s.n s.r s.idx) (hr : ∀ i < s.n, 0 < s.r i) {k : ℕ} (hk : k < s.n) :
    s.psiPart k = sheets s.n s.r s.q (s.r (s.idx k)) - s.edge := by
  classical
  have hx := hr _ (hi.maps k hk)
  have hp : ∀ l < s.n, ((∃ l' ≤ k, s.idx l' = s.idx l) ↔ l < k + 1) := by
    intro l hl
    constructor
    · rintro ⟨l', h1, h2⟩
      have := hi.inj l' (by omega) l hl h2
      omega
    · exact fun h => ⟨l, by omega, rfl⟩
  unfold psiPart
  rw [sums_of hi (p := fun i => ∃ l' ≤ k, s.idx l' = i) (by omega) hp hr hx,
    ← sheets_le hx (p := fun i => ∃ l' ≤ k, s.idx l' = i)]
  · ring
  · intro i hi' hlt
    have : i ∈ (Finset.range s.n).image s.idx := by rw [hi.image]; exact Finset.mem_range.mpr hi'
    obtain ⟨l, hl, rfl⟩ := Finset.mem_image.mp this
    refine ⟨l, ?_, rfl⟩
    by_contra hcon
    have := hi.mono k l (by omega) (Finset.mem_range.mp hl)
    linarith
  · rintro i - ⟨l, hl, rfl⟩
    exact hi.mono l k hl hk

theorem sum3_eq (hi : Sorts s.n s.r s.idx) (hr : ∀ i < s.n, 0 < s.r i) {m : ℕ} (hm : m ≤ s.n) {p : ℕ → Prop} [DecidablePred p]
    (hp : ∀ k < s.n, (p (s.idx k) ↔ k < m)) :
    s.sum3 m = ∑ i ∈ (Finset.range s.n).filter p, s.q i * s.pr i / (s.r i * (1 + (sheets s.n s.r s.q (s.r i) - s.edge))) := by
  rw [← hi.sum_filter (fun i => s.q i * s.pr i / (s.r i * (1 + (sheets s.n s.r s.q (s.r i) - s.edge)))) p m hm hp]
  unfold sum3
  refine Finset.sum_congr rfl fun i hi' => ?_
  have hi' := Finset.mem_range.mp hi'
  rw [psiPart_eq hi hr (by omega)]

/-- **C188**, if the particle stored last is the outermost one: at every radius the function returns the potential of all
charge sheets and the ion background, which is zero at the outermost particle, the radial field of the enclosed charge,
and the sum of the currents further out.  The right hand side does not mention the order of the particles.  Missing for
the full claim: other orders of the particles, for which it fails (`radii_violated`). -/
theorem radii_partial (s : RadiiArgs) (hn : 0 < s.n) (hi : Sorts s.n s.r s.idx) (hr : ∀ i < s.n, 0 < s.r i) (rOut : ℝ)
    (hout : ∀ i < s.n, s.r i ≤ rOut) (hlast : s.r (s.n - 1) = rOut) (rFld : List ℝ) (hf : ∀ x ∈ rFld, 0 < x) :
    let ψ := fun x => sheets s.n s.r s.q x - sheets s.n s.r s.q rOut
    s.all rFld = rFld.map fun x => (ψ x, enclosed s.n s.r s.q x / x - x / 2,
      ∑ i ∈ (Finset.range s.n).filter (fun i => x ≤ s.r i), s.q i * s.pr i / (s.r i * (1 + ψ (s.r i)))) := by
  subst hlast
  intro ψ
  unfold all
  refine List.map_congr_left fun x hx => ?_
  have hx := hf x hx
  have he := edge_eq hi hr hn hout
  obtain ⟨c, h1, -, h3, h4, h5⟩ := scan_spec (fun k => s.r (s.idx k)) x s.n 0 (fun _ h => absurd h (by omega))
  have hc : c ≤ s.n := by omega
  have hp : ∀ k < s.n, (s.r (s.idx k) < x ↔ k < c) := by
    intro k hk
    constructor
    · intro h
      by_contra hck
      have := hi.mono c k (by omega) hk
      have := h5 (by omega)
      linarith
    · exact h4 k
  have e1 : s.sum1 c * Real.log x - s.sum2 c - 1 / 4 * x ^ 2 - s.edge = ψ x := by
    show _ = sheets s.n s.r s.q x - sheets s.n s.r s.q (s.r (s.n - 1))
    rw [sums_of hi (p := fun i => s.r i < x) hc hp hr hx, he]
    unfold sheets
    ring
  have e2 : s.sum1 c = enclosed s.n s.r s.q x := hi.sum_filter (fun i => s.q i) (fun i => s.r i < x) c hc hp
  have e3 : -s.sum3 c + s.sum3 s.n =
      ∑ i ∈ (Finset.range s.n).filter (fun i => x ≤ s.r i), s.q i * s.pr i / (s.r i * (1 + ψ (s.r i))) := by
    rw [sum3_eq hi hr hc (p := fun i => s.r i < x) hp, sum3_eq hi hr le_rfl (p := fun _ => True) (fun k hk => by simp [hk]), he,
      Finset.filter_true_of_mem (fun _ _ => trivial)]
    have := Finset.sum_filter_add_sum_filter_not (Finset.range s.n) (fun i => s.r i < x)
      (fun i => s.q i * s.pr i / (s.r i * (1 + ψ (s.r i))))
    simp only [not_lt] at this
    rw [← this]
    simp only [ψ]
    ring
  unfold at1
  dsimp only
  rw [h1]
  by_cases h0 : c = 0
  · rw [if_pos (by omega)]
    subst h0
    rw [← e1, ← e2, ← e3]
    have z1 : s.sum1 0 = 0 := rfl
    have z2 : s.sum2 0 = 0 := rfl
    have z3 : s.sum3 0 = 0 := rfl
    rw [z1, z2, z3]
    refine Prod.ext ?_ (Prod.ext ?_ ?_) <;> dsimp only <;> ring
  · rw [if_neg (by omega), show ((c : ℤ) - 1).toNat + 1 = c by omega, e1, e2, e3]
    refine Prod.ext rfl (Prod.ext ?_ rfl)
    dsimp only
    ring

/-- The radial field of the specification is the derivative of its potential, away from the particles. -/
theorem sheets_deriv {n : ℕ} {r q : ℕ → ℝ} (hr : ∀ i < n, 0 < r i) {x : ℝ} (hx : 0 < x) (hne : ∀ i < n, r i ≠ x) :
    HasDerivAt (sheets n r q) (enclosed n r q x / x - x / 2) x := by
  have hev : ∀ᶠ y in nhds x, ∀ i ∈ Finset.range n, (r i < y ↔ r i < x) := by
    rw [Filter.eventually_all_finset]
    intro i hi
    rcases lt_or_gt_of_ne (hne i (Finset.mem_range.mp hi)) with h | h
    · filter_upwards [eventually_gt_nhds h] with y hy
      exact ⟨fun _ => h, fun _ => hy⟩
    · filter_upwards [eventually_lt_nhds h] with y hy
      exact ⟨fun h' => absurd h' (by linarith), fun h' => absurd h' (by linarith)⟩
  have h0 : HasDerivAt (fun y => ∑ i ∈ (Finset.range n).filter (fun i => r i < x), q i * Real.log (y / r i) - y ^ 2 / 4)
      (∑ i ∈ (Finset.range n).filter (fun i => r i < x), q i * (1 / x) - x / 2) x := by
    refine HasDerivAt.sub (HasDerivAt.fun_sum fun i hi => ?_) ?_
    · have hi' := hr i (Finset.mem_range.mp (Finset.mem_filter.mp hi).1)
      have h1 : HasDerivAt (fun y : ℝ => y / r i) (1 / r i) x := (hasDerivAt_id x).div_const (r i)
      have h2 := (h1.log (by positivity)).const_mul (q i)
      refine h2.congr_deriv ?_
      field_simp
    · have h1 := ((hasDerivAt_pow 2 x).div_const 4)
      refine h1.congr_deriv ?_
      simp
      ring
  refine (h0.congr_deriv ?_).congr_of_eventuallyEq ?_
  · unfold enclosed
    rw [← Finset.sum_mul, mul_one_div]
  · filter_upwards [hev] with y hy
    unfold sheets
    rw [Finset.filter_congr hy]

/-- Two particles, the outer one stored first. -/
noncomputable def swapped : RadiiArgs := ⟨2, fun i => if i = 0 then 2 else 1, fun _ => 0, fun _ => 1, fun k => 1 - k⟩

/-- **C188 violated.**  With the outer particle stored first the potential does not vanish at the outermost particle,
since line 287 takes the last particle in memory for the outermost one. -/
theorem radii_violated : ∃ s : RadiiArgs, 0 < s.n ∧ Sorts s.n s.r s.idx ∧ (∀ i < s.n, 0 < s.r i) ∧
    ∃ rOut, (∃ i < s.n, s.r i = rOut) ∧ (∀ i < s.n, s.r i ≤ rOut) ∧ (s.at1 rOut).1 ≠ 0 := by
  refine ⟨swapped, by simp [swapped], ⟨?_, ?_, ?_⟩, ?_, 2, ⟨0, by simp [swapped], by simp [swapped]⟩, ?_, ?_⟩
  · intro k hk
    simp only [swapped] at hk ⊢
    omega
  · intro k hk l hl h
    simp only [swapped] at hk hl h
    omega
  · intro k l hkl hl
    simp only [swapped] at hl ⊢
    have : k = 0 ∨ k = 1 := by omega
    have : l = 0 ∨ l = 1 := by omega
    rcases ‹k = 0 ∨ k = 1› with rfl | rfl <;> rcases ‹l = 0 ∨ l = 1› with rfl | rfl <;> first | omega | norm_num
  · intro i _
    simp only [swapped]
    split_ifs <;> norm_num
  · intro i _
    simp only [swapped]
    split_ifs <;> norm_num
  · have h1 : scan (fun k => swapped.r (swapped.idx k)) 2 swapped.n 0 = 0 := by
      simp [swapped, scan]
    have h2 := Real.one_sub_inv_le_log_of_pos (x := 2) two_pos
    unfold at1
    simp only [h1]
    norm_num [edge, sum1, sum2, swapped, Finset.sum_range_succ]
    intro h
    linarith

/-- Two particles in the right order: the hypotheses of `radii_partial` hold. -/
example : let s : RadiiArgs := ⟨2, fun i => 1 + i, fun _ => 1, fun _ => 1 / 2, id⟩
    0 < s.n ∧ Sorts s.n s.r s.idx ∧ (∀ i < s.n, 0 < s.r i) ∧ (∀ i < s.n, s.r i ≤ 2) ∧ s.r (s.n - 1) = 2 ∧
      ∀ x ∈ [(1 : ℝ) / 2, 3 / 2, 3], 0 < x := by
  refine ⟨by norm_num, ⟨fun k hk => hk, fun k _ l _ h => h, fun k l hkl _ => ?_⟩, fun i _ => by positivity, fun i hi => ?_,
    by norm_num, by norm_num⟩
  · have : (k : ℝ) ≤ l := by exact_mod_cast hkl
    show (1 : ℝ) + k ≤ 1 + l
    linarith
  · have hi : i < 2 := hi
    have : (i : ℝ) ≤ 1 := by exact_mod_cast (by omega : i ≤ 1)
    show (1 : ℝ) + i ≤ 2
    linarith

end RadiiArgs

end WakeT.Plasma
