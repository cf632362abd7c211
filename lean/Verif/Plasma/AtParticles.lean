import Verif.Plasma.SolverLemmas
import Verif.Plasma.BThetaProps
import Verif.Plasma.PsiDeriv
import Verif.Plasma.PushProps

/-! # The fields that act on the plasma particles (C105) -/

set_option linter.unusedSectionVars false

namespace WakeT.Plasma

/-! ### Specification

None of the following definitions mentions an order of the particles. -/

/-- Value at `x` of the straight line through `(x0, y0)` and `(x1, y1)`. -/
noncomputable def lerp (x0 y0 x1 y1 x : ℝ) : ℝ := y0 + (y1 - y0) * ((x - x0) / (x1 - x0))

/-- `x` limited to `[-3, 3]`. -/
noncomputable def clamp3 (x : ℝ) : ℝ := max (-3) (min 3 x)

/-- The cell `[rl, rr]` of particle `i`: it ends in the middle between the particle and the
next one, at the axis, or `w` behind the outermost particle. -/
structure CellOf (n : ℕ) (r : ℕ → ℝ) (w : ℝ) (i : ℕ) (rl rr : ℝ) : Prop where
  left : (rl = 0 ∧ ∀ j < n, r i ≤ r j) ∨
    ∃ j < n, r j < r i ∧ (∀ l < n, r l ≤ r j ∨ r i ≤ r l) ∧ rl = (r j + r i) / 2
  right : (rr = r i + w ∧ ∀ j < n, r j ≤ r i) ∨
    ∃ j < n, r i < r j ∧ (∀ l < n, r l ≤ r i ∨ r j ≤ r l) ∧ rr = (r i + r j) / 2

/-- Radial derivative of `potential`: enclosed charge (electrons minus ions) over radius. -/
noncomputable def radialField (n : ℕ) (r q : ℕ → ℝ) (rMax pc x : ℝ) : ℝ :=
  enclosed n r q x / x - (min x rMax ^ 2 / 2 + pc * min x rMax ^ 4 / 4) / x

/-- Radial current (with the factor `1/r` of a ring) inside of radius `x`: its negative is the
longitudinal derivative of `potential`. -/
noncomputable def currentInside (n : ℕ) (r q v : ℕ → ℝ) (x : ℝ) : ℝ :=
  ∑ i ∈ (Finset.range n).filter (fun i => r i < x), q i * v i / r i

/-- Number of particles inside of particle `i`. -/
noncomputable def rank (n : ℕ) (r : ℕ → ℝ) (x : ℝ) : ℕ :=
  ((Finset.range n).filter fun j => r j < x).card

/-- The boundary value problem of `Solves` for unsorted particles: `co m` are the coefficients of
the field `a x + b / x` in the region with `m` particles inside. -/
structure SolvesAny (n : ℕ) (p : ℕ → BPart) (co : ℕ → ℝ × ℝ) : Prop where
  axis : (co 0).2 = 0
  jump : ∀ i < n, let m := rank n (fun j => (p j).r) (p i).r
    fieldOf (co (m + 1)) (p i).r - fieldOf (co m) (p i).r = (p i).C
  curl : ∀ i < n, let m := rank n (fun j => (p j).r) (p i).r
    2 * (co (m + 1)).1 - 2 * (co m).1 =
      (p i).A * ((fieldOf (co (m + 1)) (p i).r + fieldOf (co m) (p i).r) / 2) + (p i).B
  decay : (co n).1 = 0

/-- The field at radius `x`. -/
noncomputable def magnetic (n : ℕ) (p : ℕ → BPart) (co : ℕ → ℝ × ℝ) (x : ℝ) : ℝ :=
  fieldOf (co (rank n (fun j => (p j).r) x)) x

/-! ### Sorted order -/

/-- Positive and pairwise different radii. -/
structure Distinct (n : ℕ) (r : ℕ → ℝ) : Prop where
  pos : ∀ i < n, 0 < r i
  ne : ∀ i < n, ∀ j < n, r i = r j → i = j

section Sorted
variable {n : ℕ} {r : ℕ → ℝ} {idx : ℕ → ℕ} (hd : Distinct n r) (hs : Sorts n r idx)
include hd hs

theorem sorted_lt {k l : ℕ} (hk : k < n) (hl : l < n) : r (idx k) < r (idx l) ↔ k < l := by
  constructor
  · intro h
    by_contra hkl
    have := hs.mono l k (by omega) hk
    linarith
  · intro h
    refine lt_of_le_of_ne (hs.mono k l h.le hl) fun he => ?_
    have := hs.inj k hk l hl (hd.ne _ (hs.maps k hk) _ (hs.maps l hl) he)
    omega

omit hd in
theorem sorted_surj {i : ℕ} (hi : i < n) : ∃ k < n, idx k = i := by
  have : i ∈ (Finset.range n).image idx := by rw [hs.image]; exact Finset.mem_range.mpr hi
  obtain ⟨k, hk, h⟩ := Finset.mem_image.mp this
  exact ⟨k, Finset.mem_range.mp hk, h⟩

omit hd in
/-- Between two neighbours in the sorted order, the particles inside are the first ones. -/
theorem inside_iff {x : ℝ} {m : ℕ} (hm : ∀ k < m, r (idx k) < x)
    (hm' : ∀ k, m ≤ k → k < n → x ≤ r (idx k)) : ∀ k < n, (r (idx k) < x ↔ k < m) := by
  intro k hk
  refine ⟨fun h => ?_, hm k⟩
  by_contra hkm
  have := hm' k (by omega) hk
  linarith

omit hd in
theorem rank_eq {x : ℝ} {m : ℕ} (hmn : m ≤ n) (h : ∀ k < n, (r (idx k) < x ↔ k < m)) :
    rank n r x = m := by
  unfold rank
  have e : (Finset.range n).filter (fun j => r j < x) = (Finset.range m).image idx := by
    ext i
    rw [Finset.mem_filter, Finset.mem_image]
    constructor
    · rintro ⟨hi, hix⟩
      obtain ⟨k, hk, rfl⟩ := sorted_surj hs (Finset.mem_range.mp hi)
      exact ⟨k, Finset.mem_range.mpr ((h k hk).mp hix), rfl⟩
    · rintro ⟨k, hk, rfl⟩
      have hk' := Finset.mem_range.mp hk
      exact ⟨Finset.mem_range.mpr (hs.maps k (by omega)), (h k (by omega)).mpr hk'⟩
  rw [e, Finset.card_image_of_injOn, Finset.card_range]
  intro a ha b hb hab
  have ha' := Finset.mem_range.mp (by simpa using ha : a ∈ Finset.range m)
  have hb' := Finset.mem_range.mp (by simpa using hb : b ∈ Finset.range m)
  exact hs.inj a (by omega) b (by omega) hab

theorem rank_particle {k : ℕ} (hk : k < n) : rank n r (r (idx k)) = k :=
  rank_eq hs (m := k) hk.le fun l hl => sorted_lt hd hs hl hk

/-- The cell of a particle in terms of its position in the sorted order. -/
theorem cell_sorted {k : ℕ} (hk : k < n) {w rl rr : ℝ} (h : CellOf n r w (idx k) rl rr) :
    rl = (if 0 < k then (r (idx (k - 1)) + r (idx k)) / 2 else 0) ∧
    rr = if k + 1 < n then (r (idx k) + r (idx (k + 1))) / 2 else r (idx k) + w := by
  constructor
  · rcases h.left with ⟨h1, h2⟩ | ⟨j, hj, h1, h2, h3⟩
    · rw [h1, if_neg]
      intro h0
      have := h2 (idx (k - 1)) (hs.maps _ (by omega))
      have := (sorted_lt hd hs (show k - 1 < n by omega) hk).mpr (by omega)
      linarith
    · obtain ⟨l, hl, rfl⟩ := sorted_surj hs hj
      have hlk := (sorted_lt hd hs hl hk).mp h1
      rw [if_pos (by omega), h3]
      have h4 := (sorted_lt hd hs (show k - 1 < n by omega) hk).mpr (by omega)
      have h5 : r (idx (k - 1)) ≤ r (idx l) := by
        rcases h2 (idx (k - 1)) (hs.maps _ (by omega)) with h | h
        · exact h
        · linarith
      have h6 := hs.mono l (k - 1) (by omega) (by omega)
      rw [le_antisymm h5 h6]
  · rcases h.right with ⟨h1, h2⟩ | ⟨j, hj, h1, h2, h3⟩
    · rw [h1, if_neg]
      intro h0
      have := h2 (idx (k + 1)) (hs.maps _ h0)
      have := (sorted_lt hd hs hk h0).mpr (by omega)
      linarith
    · obtain ⟨l, hl, rfl⟩ := sorted_surj hs hj
      have hlk := (sorted_lt hd hs hk hl).mp h1
      rw [if_pos (by omega), h3]
      have h4 := (sorted_lt hd hs hk (show k + 1 < n by omega)).mpr (by omega)
      have h5 : r (idx l) ≤ r (idx (k + 1)) := by
        rcases h2 (idx (k + 1)) (hs.maps _ (by omega)) with h | h
        · linarith
        · exact h
      have h6 := hs.mono (k + 1) l (by omega) hl
      rw [le_antisymm h5 h6]

/-- Every particle has a cell. -/
theorem cell_exists {i : ℕ} (hi : i < n) (w : ℝ) : ∃ rl rr, CellOf n r w i rl rr := by
  obtain ⟨k, hk, rfl⟩ := sorted_surj hs hi
  refine ⟨if 0 < k then (r (idx (k - 1)) + r (idx k)) / 2 else 0,
    if k + 1 < n then (r (idx k) + r (idx (k + 1))) / 2 else r (idx k) + w, ?_, ?_⟩
  · by_cases h0 : 0 < k
    · right
      refine ⟨idx (k - 1), hs.maps _ (by omega),
        (sorted_lt hd hs (by omega) hk).mpr (by omega), fun l hl => ?_, by rw [if_pos h0]⟩
      obtain ⟨m, hm, rfl⟩ := sorted_surj hs hl
      rcases Nat.lt_or_ge m k with h | h
      · exact Or.inl (hs.mono _ _ (by omega) (by omega))
      · exact Or.inr (hs.mono _ _ h hm)
    · left
      refine ⟨by rw [if_neg h0], fun j hj => ?_⟩
      obtain ⟨m, hm, rfl⟩ := sorted_surj hs hj
      exact hs.mono _ _ (by omega) hm
  · by_cases h0 : k + 1 < n
    · right
      refine ⟨idx (k + 1), hs.maps _ h0,
        (sorted_lt hd hs hk h0).mpr (by omega), fun l hl => ?_, by rw [if_pos h0]⟩
      obtain ⟨m, hm, rfl⟩ := sorted_surj hs hl
      rcases Nat.lt_or_ge k m with h | h
      · exact Or.inr (hs.mono _ _ (by omega) hm)
      · exact Or.inl (hs.mono _ _ h hk)
    · left
      refine ⟨by rw [if_neg h0], fun j hj => ?_⟩
      obtain ⟨m, hm, rfl⟩ := sorted_surj hs hj
      exact hs.mono _ _ (by omega) hk

/-- Which particles are inside of the left end of a cell. -/
theorem left_inside {k : ℕ} (hk : k < n) :
    ∀ l < n, (r (idx l) < (if 0 < k then (r (idx (k - 1)) + r (idx k)) / 2 else 0) ↔ l < k) := by
  by_cases h0 : 0 < k
  · rw [if_pos h0]
    have h4 := (sorted_lt hd hs (show k - 1 < n by omega) hk).mpr (by omega)
    refine inside_iff hs (fun l hl => ?_) fun l hl hln => ?_
    · have := hs.mono l (k - 1) (by omega) (by omega); linarith
    · have := hs.mono k l hl hln; linarith
  · rw [if_neg h0]
    intro l hl
    have := hd.pos _ (hs.maps l hl)
    exact ⟨fun h => by linarith, fun h => by omega⟩

/-- Which particles are inside of the right end of a cell. -/
theorem right_inside {k : ℕ} (hk : k < n) {w : ℝ} (hw : 0 < w) :
    ∀ l < n, (r (idx l) < (if k + 1 < n then (r (idx k) + r (idx (k + 1))) / 2 else r (idx k) + w) ↔
      l < k + 1) := by
  by_cases h0 : k + 1 < n
  · rw [if_pos h0]
    have h4 := (sorted_lt hd hs hk h0).mpr (by omega)
    refine inside_iff hs (fun l hl => ?_) fun l hl hln => ?_
    · have := hs.mono l k (by omega) (by omega); linarith
    · have := hs.mono (k + 1) l hl hln; linarith
  · rw [if_neg h0]
    intro l hl
    have := hs.mono l k (by omega) hk
    exact ⟨fun _ => by omega, fun _ => by linarith⟩

end Sorted

theorem scatter_sorted {n : ℕ} {r : ℕ → ℝ} {idx : ℕ → ℕ} (hs : Sorts n r idx) (f : ℕ → ℝ) {k : ℕ}
    (hk : k < n) : scatter n idx f (idx k) = f k := by
  have h : ∃ l, l < n ∧ idx l = idx k := ⟨k, hk, rfl⟩
  unfold scatter
  rw [dif_pos h]
  have := Nat.find_spec h
  rw [hs.inj _ this.1 _ hk this.2]

theorem limit3_eq (x : ℝ) : Slice.limit3 x = clamp3 x := by
  unfold Slice.limit3 clamp3
  simp only []
  rcases lt_or_ge 3 x with h | h
  · rw [if_pos h, if_neg (by norm_num), min_eq_left h.le]; norm_num
  · rw [if_neg (not_lt.mpr h), min_eq_right h]
    rcases lt_or_ge x (-3) with h' | h'
    · rw [if_pos h', max_eq_left h'.le]
    · rw [if_neg (not_lt.mpr h'), max_eq_right h']

theorem interp_eq (s : Slice) (a b : ℝ) (k : ℕ) :
    s.interp a b k = lerp (s.rLeft k) a (s.rRight k) b (s.r k) := by
  unfold Slice.interp lerp; ring

/-! ### Potential -/

section Potential
variable {n : ℕ} {r pr q : ℕ → ℝ} {idx : ℕ → ℕ} (hd : Distinct n r) (hs : Sorts n r idx)
variable (rMax drP pc : ℝ) (hR : 0 < rMax) (hdr : 0 < drP)

/-- The sorted arguments of the routine. -/
def sortedSlice (n : ℕ) (r pr q : ℕ → ℝ) (idx : ℕ → ℕ) (rMax drP pc : ℝ) : Slice :=
  ⟨n, fun k => r (idx k), fun k => pr (idx k), fun k => q (idx k), rMax, drP, pc⟩

include hd hs

theorem potential_sorted {x : ℝ} (hx : 0 < x) (hR : 0 < rMax) {m : ℕ} (hm : m ≤ n)
    (h : ∀ k < n, (r (idx k) < x ↔ k < m)) :
    deltaPsi x ((sortedSlice n r pr q idx rMax drP pc).sum1 m)
      ((sortedSlice n r pr q idx rMax drP pc).sum2 m) rMax pc = potential n r q rMax pc x := by
  unfold Slice.sum1 Slice.sum2 sortedSlice
  simp only []
  rw [hs.sum_filter (fun i => q i) (fun i => r i < x) m hm h,
    hs.sum_filter (fun i => q i * Real.log (r i)) (fun i => r i < x) m hm h,
    deltaPsi_sums n r q hd.pos rMax pc x hx hR (fun i => r i < x)]
  rfl

theorem radial_sorted {x : ℝ} (hx : 0 < x) {m : ℕ} (hm : m ≤ n)
    (h : ∀ k < n, (r (idx k) < x ↔ k < m)) :
    drPsi x ((sortedSlice n r pr q idx rMax drP pc).sum1 m) rMax pc =
      radialField n r q rMax pc x := by
  unfold Slice.sum1 sortedSlice radialField enclosed drPsi
  simp only []
  rw [hs.sum_filter (fun i => q i) (fun i => r i < x) m hm h]
  split_ifs with hle
  · rw [min_eq_left hle]; field_simp
  · rw [min_eq_right (not_le.mp hle).le]; ring

omit hs in
theorem potential_axis (hR : 0 < rMax) : potential n r q rMax pc 0 = 0 := by
  unfold potential
  rw [Finset.filter_false_of_mem, if_pos hR.le]
  · simp
  · intro i hi
    exact not_lt.mpr (hd.pos i (Finset.mem_range.mp hi)).le

omit hs in
theorem radial_axis : radialField n r q rMax pc 0 = 0 := by
  unfold radialField; simp

theorem left_pos {k : ℕ} (hk : k < n) (h0 : 0 < k) : 0 < (r (idx (k - 1)) + r (idx k)) / 2 := by
  have := hd.pos _ (hs.maps (k - 1) (by omega)); have := hd.pos _ (hs.maps k hk); linarith

theorem right_pos {k : ℕ} (hk : k < n) {w : ℝ} (hw : 0 < w) :
    0 < (if k + 1 < n then (r (idx k) + r (idx (k + 1))) / 2 else r (idx k) + w) := by
  have := hd.pos _ (hs.maps k hk)
  split_ifs with h
  · have := hd.pos _ (hs.maps (k + 1) h); linarith
  · linarith

/-- The value of the potential at the particle. -/
theorem psi_sorted (hR : 0 < rMax) (hdr : 0 < drP) {k : ℕ} (hk : k < n) {rl rr : ℝ}
    (hc : CellOf n r (drP / 2) (idx k) rl rr) {rOut : ℝ} (hin : ∃ i < n, r i = rOut)
    (hout : ∀ i < n, r i ≤ rOut) :
    (sortedSlice n r pr q idx rMax drP pc).psi k =
      max (-(9 / 10)) (lerp rl (potential n r q rMax pc rl) rr (potential n r q rMax pc rr)
        (r (idx k)) - potential n r q rMax pc (max (rOut + drP / 2) rMax)) := by
  obtain ⟨hl, hr⟩ := cell_sorted hd hs hk hc
  set s := sortedSlice n r pr q idx rMax drP pc with hsdef
  have el : s.rLeft k = rl := hl.symm
  have er : s.rRight k = rr := hr.symm
  have hw : 0 < drP / 2 := by linarith
  have epl : s.psiLeft k = potential n r q rMax pc rl := by
    unfold Slice.psiLeft
    rw [el]
    by_cases h0 : 0 < k
    · rw [if_pos h0]
      have hx : 0 < rl := by rw [hl, if_pos h0]; exact left_pos hd hs hk h0
      exact potential_sorted hd hs rMax drP pc hx hR hk.le
        (by have := left_inside hd hs hk; rwa [← hl] at this)
    · rw [if_neg h0, hl, if_neg h0, potential_axis hd rMax pc hR]
  have epr : s.psiRight k = potential n r q rMax pc rr := by
    unfold Slice.psiRight
    rw [er]
    have hx : 0 < rr := by rw [hr]; exact right_pos hd hs hk hw
    exact potential_sorted hd hs rMax drP pc hx hR hk
      (by have := right_inside hd hs hk hw; rwa [← hr] at this)
  have hlast : r (idx (n - 1)) = rOut := by
    apply le_antisymm (hout _ (hs.maps _ (by omega)))
    obtain ⟨i, hi, rfl⟩ := hin
    obtain ⟨l, hl', rfl⟩ := sorted_surj hs hi
    exact hs.mono l (n - 1) (by omega) (by omega)
  have ef : s.rFurthest = max (rOut + drP / 2) rMax := by
    unfold Slice.rFurthest Slice.rRight
    have : ¬ (s.n - 1 + 1 < s.n) := by show ¬ (n - 1 + 1 < n); omega
    rw [if_neg this]
    show max (r (idx (n - 1)) + drP / 2) rMax = _
    rw [hlast]
  have eb : deltaPsi s.rFurthest (s.sum1 s.n) (s.sum2 s.n) s.rMax s.pc =
      potential n r q rMax pc (max (rOut + drP / 2) rMax) := by
    rw [ef]
    refine potential_sorted hd hs rMax drP pc (lt_of_lt_of_le hR (le_max_right _ _)) hR le_rfl ?_
    intro l hl'
    have h1 := hout _ (hs.maps l hl')
    have h2 := le_max_left (rOut + drP / 2) rMax
    exact ⟨fun _ => hl', fun _ => by linarith⟩
  have hraw : s.psiRaw k = lerp rl (potential n r q rMax pc rl) rr (potential n r q rMax pc rr)
      (r (idx k)) - potential n r q rMax pc (max (rOut + drP / 2) rMax) := by
    unfold Slice.psiRaw
    rw [eb, interp_eq, el, er, epl, epr]; rfl
  unfold Slice.psi
  rw [hraw]
  split_ifs with h
  · rw [max_eq_left h.le]
  · rw [max_eq_right (not_lt.mp h)]

/-- The value of its radial derivative. -/
theorem drPsi_sorted (hdr : 0 < drP) {k : ℕ} (hk : k < n) {rl rr : ℝ}
    (hc : CellOf n r (drP / 2) (idx k) rl rr) :
    (sortedSlice n r pr q idx rMax drP pc).drPsiAt k =
      lerp rl (radialField n r q rMax pc rl) rr (radialField n r q rMax pc rr) (r (idx k)) := by
  obtain ⟨hl, hr⟩ := cell_sorted hd hs hk hc
  set s := sortedSlice n r pr q idx rMax drP pc with hsdef
  have el : s.rLeft k = rl := hl.symm
  have er : s.rRight k = rr := hr.symm
  have hw : 0 < drP / 2 := by linarith
  have epl : s.drPsiLeft k = radialField n r q rMax pc rl := by
    unfold Slice.drPsiLeft
    rw [el]
    by_cases h0 : 0 < k
    · rw [if_pos h0]
      have hx : 0 < rl := by rw [hl, if_pos h0]; exact left_pos hd hs hk h0
      exact radial_sorted hd hs rMax drP pc hx hk.le
        (by have := left_inside hd hs hk; rwa [← hl] at this)
    · rw [if_neg h0, hl, if_neg h0, radial_axis hd]
  have epr : s.drPsiRight k = radialField n r q rMax pc rr := by
    unfold Slice.drPsiRight
    rw [er]
    have hx : 0 < rr := by rw [hr]; exact right_pos hd hs hk hw
    exact radial_sorted hd hs rMax drP pc hx hk
      (by have := right_inside hd hs hk hw; rwa [← hr] at this)
  unfold Slice.drPsiAt
  rw [interp_eq, el, er, epl, epr]; rfl

/-- The value of its longitudinal derivative, without parabolic profile or with the last charge
sheet inside of the column; `v i = pr / (1 + psi)` are the velocities. -/
theorem dxiPsi_sorted (hdr : 0 < drP) {k : ℕ} (hk : k < n) {rl rr : ℝ}
    (hc : CellOf n r (drP / 2) (idx k) rl rr) {o : ℕ} (ho : o < n)
    (hout : ∀ i < n, r i ≤ r o) (hpc : pc = 0 ∨ r o + drP / 2 ≤ rMax) {v : ℕ → ℝ}
    (hv : ∀ l < n, v (idx l) = pr (idx l) /
      (1 + (sortedSlice n r pr q idx rMax drP pc).psi l)) :
    (sortedSlice n r pr q idx rMax drP pc).dxiPsi k =
      clamp3 (lerp rl (-currentInside n r q v rl) rr (-currentInside n r q v rr) (r (idx k)) +
        (∑ i ∈ Finset.range n, q i * v i / r i -
          if r o + drP / 2 ≤ rMax then 0
          else ((∑ i ∈ Finset.range n, q i) - rMax ^ 2 / 2 - pc * rMax ^ 4 / 4) * v o /
            (r o + drP / 2))) := by
  obtain ⟨hl, hr⟩ := cell_sorted hd hs hk hc
  have hw : 0 < drP / 2 := by linarith
  set s := sortedSlice n r pr q idx rMax drP pc with hsdef
  have el : s.rLeft k = rl := hl.symm
  have er : s.rRight k = rr := hr.symm
  have e3 : ∀ m ≤ n, s.sum3 m = ∑ i ∈ Finset.range m, (fun i => q i * v i / r i) (idx i) := by
    intro m hm
    unfold Slice.sum3
    apply Finset.sum_congr rfl
    intro i hi
    have hi' : i < n := by have := Finset.mem_range.mp hi; omega
    show q (idx i) * pr (idx i) / (r (idx i) * (1 + s.psi i)) = q (idx i) * v (idx i) / r (idx i)
    rw [hv i hi']
    have h1 : (0 : ℝ) < 1 + s.psi i := by have := psi_ge s i; linarith
    have := hd.pos _ (hs.maps i hi')
    field_simp
  have e3n : s.sum3 n = ∑ i ∈ Finset.range n, q i * v i / r i := by
    rw [e3 n le_rfl, hs.sum_filter (fun i => q i * v i / r i) (fun _ => True) n le_rfl (fun k hk => by simp [hk]),
      Finset.filter_true_of_mem (fun _ _ => trivial)]
  have e1n : s.sum1 n = ∑ i ∈ Finset.range n, q i := by
    show ∑ i ∈ Finset.range n, q (idx i) = _
    rw [hs.sum_filter q (fun _ => True) n le_rfl (fun k hk => by simp [hk]),
      Finset.filter_true_of_mem (fun _ _ => trivial)]
  have epl : s.dxiLeft k = -currentInside n r q v rl := by
    have hin := left_inside hd hs hk
    rw [← hl] at hin
    unfold Slice.dxiLeft currentInside
    rw [← hs.sum_filter (fun i => q i * v i / r i) (fun i => r i < rl) k hk.le hin]
    by_cases h0 : 0 < k
    · rw [if_pos h0, e3 k hk.le]
    · have : k = 0 := by omega
      subst this; simp
  have epr : s.dxiRight k = -currentInside n r q v rr := by
    have hin := right_inside hd hs hk hw
    rw [← hr] at hin
    unfold Slice.dxiRight currentInside
    rw [← hs.sum_filter (fun i => q i * v i / r i) (fun i => r i < rr) (k + 1) hk hin, e3 _ hk]
  have hlast : idx (n - 1) = o := by
    obtain ⟨l, hl', rfl⟩ := sorted_surj hs ho
    have := hout _ (hs.maps (n - 1) (by omega))
    rcases Nat.lt_or_ge l (n - 1) with h | h
    · have := (sorted_lt hd hs hl' (show n - 1 < n by omega)).mpr h; linarith
    · rw [show l = n - 1 by omega]
  have hrr : s.rRight (n - 1) = r o + drP / 2 := by
    unfold Slice.rRight
    have : ¬ (n - 1 + 1 < s.n) := by show ¬ (n - 1 + 1 < n); omega
    rw [if_neg this]
    show r (idx (n - 1)) + drP / 2 = _
    rw [hlast]
  have eb : s.dxiBoundary = ∑ i ∈ Finset.range n, q i * v i / r i -
          if r o + drP / 2 ≤ rMax then 0
          else ((∑ i ∈ Finset.range n, q i) - rMax ^ 2 / 2 - pc * rMax ^ 4 / 4) * v o /
            (r o + drP / 2) := by
    unfold Slice.dxiBoundary
    show (if s.rRight (n - 1) ≤ rMax then s.sum3 n else s.sum3 n - (s.sum1 n - rMax ^ 2 / 2 -
      pc * rMax / 4) * pr (idx (n - 1)) / (s.rRight (n - 1) * (1 + s.psi (n - 1)))) = _
    rw [hrr, e3n, e1n]
    by_cases hle : r o + drP / 2 ≤ rMax
    · rw [if_pos hle, if_pos hle, sub_zero]
    · rw [if_neg hle, if_neg hle]
      have hp : pc = 0 := hpc.resolve_right hle
      have hvo := hv (n - 1) (by omega)
      rw [hlast] at hvo
      rw [hvo, hp, hlast]
      have h1 : (0 : ℝ) < 1 + s.psi (n - 1) := by have := psi_ge s (n - 1); linarith
      have := hd.pos o ho
      have : 0 < r o + drP / 2 := by linarith
      field_simp
      ring
  unfold Slice.dxiPsi
  rw [limit3_eq, interp_eq, el, er, epl, epr, eb]; rfl

end Potential

/-! ### Magnetic field -/

section Magnetic
variable {n : ℕ} {p : ℕ → BPart} {idx : ℕ → ℕ} (hd : Distinct n fun i => (p i).r)
  (hs : Sorts n (fun i => (p i).r) idx) (hq : ∀ i < n, 0 ≤ (p i).q) (hψ : ∀ i < n, -1 < (p i).psi)

include hd hs

theorem sorted_solves {co : ℕ → ℝ × ℝ} (hn : 0 < n) (h : SolvesAny n p co) :
    Solves n (fun k => p (idx k)) (co 0).1 (fun k => co (k + 1)) := by
  have hin : ∀ k, inside (co 0).1 (fun k => co (k + 1)) k = co k := by
    intro k
    unfold inside
    by_cases h0 : k = 0
    · subst h0; rw [if_pos rfl, ← h.axis]
    · rw [if_neg h0]
      show co (k - 1 + 1) = co k
      rw [Nat.sub_add_cancel (by omega)]
  refine ⟨fun k hk => ?_, fun k hk => ?_, ?_⟩
  · rw [hin]
    have := h.jump (idx k) (hs.maps k hk)
    rwa [rank_particle hd hs hk] at this
  · rw [hin]
    have := h.curl (idx k) (hs.maps k hk)
    rwa [rank_particle hd hs hk] at this
  · show (co (n - 1 + 1)).1 = 0
    rw [Nat.sub_add_cancel hn]; exact h.decay

theorem unsorted_solves {a0 : ℝ} {ab : ℕ → ℝ × ℝ} (hn : 0 < n)
    (h : Solves n (fun k => p (idx k)) a0 ab) : SolvesAny n p (inside a0 ab) := by
  have hin : ∀ k, inside a0 ab (k + 1) = ab k := fun k => by simp [inside]
  refine ⟨by simp [inside], fun i hi => ?_, fun i hi => ?_, ?_⟩
  · obtain ⟨k, hk, rfl⟩ := sorted_surj hs hi
    have hr := rank_particle hd hs hk
    simp only [hr, hin]
    exact h.jump k hk
  · obtain ⟨k, hk, rfl⟩ := sorted_surj hs hi
    have hr := rank_particle hd hs hk
    simp only [hr, hin]
    exact h.curl k hk
  · rw [show n = n - 1 + 1 by omega, hin]; exact h.decay

include hq hψ in
omit hd in
theorem sorted_good (hd : Distinct n fun i => (p i).r) : GoodParts n (fun k => p (idx k)) :=
  ⟨fun k hk => hd.pos _ (hs.maps k hk), hs.mono, fun k hk => hq _ (hs.maps k hk),
    fun k hk => hψ _ (hs.maps k hk)⟩

include hq hψ

/-- The magnetic field at the particle. -/
theorem bTheta_sorted (ok : ℝ → ℝ → ℝ → ℝ → Bool) {drP : ℝ} (hdr : 0 < drP) {res : BResult}
    (hres : aiBiFromAxis ok n (fun k => p (idx k)) n = some res) {co : ℕ → ℝ × ℝ}
    (h : SolvesAny n p co) {k : ℕ} (hk : k < n) {rl rr : ℝ}
    (hc : CellOf n (fun i => (p i).r) (drP / 4) (idx k) rl rr) :
    bThetaAt n (fun k => p (idx k)) drP res k =
      clamp3 (lerp rl (magnetic n p co rl) rr (magnetic n p co rr) (p (idx k)).r) := by
  obtain ⟨hl, hr⟩ := cell_sorted hd hs hk hc
  have hn : 0 < n := by omega
  have hw : 0 < drP / 4 := by linarith
  obtain ⟨_, hab⟩ := axis_unique ok hn (sorted_good hs hq hψ hd) n le_rfl res hres _ _
    (sorted_solves hd hs hn h)
  have hin := left_inside hd hs hk
  rw [← hl] at hin
  have hin' := right_inside hd hs hk hw
  rw [← hr] at hin'
  have ml : magnetic n p co rl = fieldOf (co k) rl := by
    unfold magnetic; rw [rank_eq hs hk.le hin]
  have mr : magnetic n p co rr = fieldOf (co (k + 1)) rr := by
    unfold magnetic; rw [rank_eq hs hk hin']
  have er : ((p (idx k)).r + (if k + 1 < n then (p (idx (k + 1))).r else (p (idx k)).r + drP / 2)) / 2
      = rr := by
    rw [hr]; split_ifs <;> ring
  have el : (if 0 < k then ((p (idx (k - 1))).r + (p (idx k)).r) / 2 else 0) = rl := hl.symm
  have el' : (if 0 < k then (res.ab (k - 1)).1 * rl + (res.ab (k - 1)).2 / rl else 0) =
      fieldOf (co k) rl := by
    by_cases h0 : 0 < k
    · rw [if_pos h0, hab _ (by omega), Nat.sub_add_cancel (by omega)]; rfl
    · have : k = 0 := by omega
      subst this
      rw [if_neg h0, hl, if_neg h0]
      unfold fieldOf; simp
  unfold bThetaAt
  simp only [er, el, el']
  rw [limit3_eq, ml, mr, hab k hk]
  congr 1
  unfold lerp fieldOf; ring

end Magnetic

/-! ### C105 -/

namespace QS
variable (c : QS)

/-- The values of particle `i` that enter the magnetic field. -/
def partOf (x : ℕ → RP) (f : ℕ → AtPart) (i : ℕ) : BPart :=
  ⟨(x i).r, (x i).pr, c.q i, (f i).kin.gamma, (f i).psi, (f i).drPsi, (f i).dxiPsi,
    (f i).src.bTheta0, (f i).src.nablaA2⟩

/-- **C105, partial.** The fields that act on plasma particle `i` follow from the exact fields of
all particles at the two ends of its cell by linear interpolation, then limited:

* the potential, zero at the outer boundary, and its radial and longitudinal derivatives;
* energy and longitudinal momentum satisfy the quasistatic invariant and the mass shell condition;
* the magnetic field of any solution `co` of the boundary value problem, and there is one.

Nothing on the right hand sides depends on the numbering of the particles.  Missing: the longitudinal
derivative with a parabolic profile and particles beyond the edge of the column, for which it is
wrong (`dxi_violated`); particles at the same radius. -/
theorem at_particles_partial (hn : 0 < c.n) (hq : ∀ i < c.n, 0 ≤ c.q i) (hR : 0 < c.rMaxP)
    (hdr : 0 < c.drP) (x : ℕ → RP) (src : ℕ → Interp.Src)
    (hs : Sorts c.n (fun i => (x i).r) (c.argsort fun i => (x i).r))
    (hd : Distinct c.n fun i => (x i).r) (o : ℕ) (ho : o < c.n)
    (hout : ∀ i < c.n, (x i).r ≤ (x o).r) :
    let r := fun i => (x i).r
    let φ := potential c.n r c.q c.rMaxP c.pc
    let φ' := radialField c.n r c.q c.rMaxP c.pc
    ∃ f, c.atParticles x src = some f ∧
      (∀ i < c.n, (f i).src = src i ∧ (f i).kin.pr = (x i).pr ∧
        (f i).kin.gamma - (f i).kin.pz = 1 + (f i).psi ∧
        (f i).kin.gamma ^ 2 = 1 + (x i).pr ^ 2 + (src i).a2 + (f i).kin.pz ^ 2) ∧
      (∀ i < c.n, ∀ rl rr, CellOf c.n r (c.drP / 2) i rl rr →
        (f i).psi = max (-(9 / 10))
          (lerp rl (φ rl) rr (φ rr) (r i) - φ (max (r o + c.drP / 2) c.rMaxP)) ∧
        (f i).drPsi = lerp rl (φ' rl) rr (φ' rr) (r i) ∧
        (c.pc = 0 ∨ r o + c.drP / 2 ≤ c.rMaxP →
          let v := fun i => (x i).pr / (1 + (f i).psi)
          let j := currentInside c.n r c.q v
          (f i).dxiPsi = clamp3 (lerp rl (-j rl) rr (-j rr) (r i) +
            (∑ i ∈ Finset.range c.n, c.q i * v i / r i -
              if r o + c.drP / 2 ≤ c.rMaxP then 0
              else ((∑ i ∈ Finset.range c.n, c.q i) - c.rMaxP ^ 2 / 2 - c.pc * c.rMaxP ^ 4 / 4) *
                v o / (r o + c.drP / 2))))) ∧
      (∃ co, SolvesAny c.n (c.partOf x f) co) ∧
      ∀ co, SolvesAny c.n (c.partOf x f) co →
        ∀ i < c.n, ∀ rl rr, CellOf c.n r (c.drP / 4) i rl rr →
          (f i).bT = clamp3 (lerp rl (magnetic c.n (c.partOf x f) co rl) rr
            (magnetic c.n (c.partOf x f) co rr) (r i)) := by
  intro r φ φ'
  have hsr : Sorts c.n r (c.argsort r) := hs
  set idx := c.argsort r with hidx
  set sl := sortedSlice c.n r (fun i => (x i).pr) c.q idx c.rMaxP c.drP c.pc with hsl
  set psi := scatter c.n idx sl.psi with hpsi
  set kin := fun i => updateGamma (x i).pr (src i).a2 (psi i) with hkin
  set P : ℕ → BPart := fun i => ⟨(x i).r, (x i).pr, c.q i, (kin i).gamma, psi i,
    scatter c.n idx sl.drPsiAt i, scatter c.n idx sl.dxiPsi i, (src i).bTheta0, (src i).nablaA2⟩ with hP
  have hpsik : ∀ k < c.n, psi (idx k) = sl.psi k := fun k hk => scatter_sorted hsr _ hk
  have hψ : ∀ i < c.n, -1 < psi i := by
    intro i hi
    obtain ⟨k, hk, rfl⟩ := sorted_surj hsr hi
    rw [hpsik k hk]
    have := psi_ge sl k; linarith
  have hdP : Distinct c.n fun i => (P i).r := hd
  have hsP : Sorts c.n (fun i => (P i).r) idx := hsr
  obtain ⟨res, hres, hsol⟩ := axis_solves precise hn (sorted_good (p := P) hsP hq hψ hdP) c.n le_rfl
  refine ⟨fun i => ⟨src i, psi i, scatter c.n idx sl.drPsiAt i, scatter c.n idx sl.dxiPsi i,
    scatter c.n idx (bThetaAt c.n (fun k => P (idx k)) c.drP res) i, kin i⟩, ?_, ?_, ?_, ?_, ?_⟩
  · unfold atParticles
    show (aiBiFromAxis precise c.n (fun k => P (idx k)) c.n).map _ = _
    rw [hres]; rfl
  · intro i hi
    have h1 : (0 : ℝ) < 1 + psi i := by have := hψ i hi; linarith
    refine ⟨rfl, rfl, ?_, ?_⟩
    · simp only [hkin, updateGamma]; field_simp; ring
    · simp only [hkin, updateGamma]; field_simp; ring
  · intro i hi rl rr hc
    obtain ⟨k, hk, rfl⟩ := sorted_surj hsr hi
    refine ⟨?_, ?_, fun hpc => ?_⟩
    · show psi (idx k) = _
      rw [hpsik k hk]
      exact psi_sorted hd hsr c.rMaxP c.drP c.pc hR hdr hk hc ⟨o, ho, rfl⟩ hout
    · show scatter c.n idx sl.drPsiAt (idx k) = _
      rw [scatter_sorted hsr _ hk]
      exact drPsi_sorted hd hsr c.rMaxP c.drP c.pc hdr hk hc
    · show scatter c.n idx sl.dxiPsi (idx k) = _
      rw [scatter_sorted hsr _ hk]
      exact dxiPsi_sorted hd hsr c.rMaxP c.drP c.pc hdr hk hc ho hout hpc
        (v := fun i => (x i).pr / (1 + psi i)) (fun l hl => by
          show (x (idx l)).pr / (1 + psi (idx l)) = (x (idx l)).pr / (1 + sl.psi l)
          rw [hpsik l hl])
  · exact ⟨_, unsorted_solves hdP hsP hn hsol⟩
  · intro co hco i hi rl rr hc
    obtain ⟨k, hk, rfl⟩ := sorted_surj hsr hi
    show scatter c.n idx (bThetaAt c.n (fun k => P (idx k)) c.drP res) (idx k) = _
    rw [scatter_sorted hsr _ hk]
    exact bTheta_sorted hdP hsP hq hψ precise hdr hres hco hk hc

end QS

/-- Two particles, the outer one first, for the hypotheses of `at_particles_partial`. -/
noncomputable def demoPair : QS where
  n := 2
  r0 := fun i => if i = 0 then 2 else 1
  q := fun _ => 1
  rMaxP := 2
  drP := 1
  pc := 0
  nXi := 5
  nR := 3
  xiMin := 0
  dxi := 1
  dr := 1
  maxGamma := 10
  pShape := "linear"
  argsort := fun _ k => 1 - k

example : let x : ℕ → RP := fun i => ⟨demoPair.r0 i, 1 / 10⟩
    0 < demoPair.n ∧ (∀ i < demoPair.n, 0 ≤ demoPair.q i) ∧ 0 < demoPair.rMaxP ∧ 0 < demoPair.drP ∧
    Sorts demoPair.n (fun i => (x i).r) (demoPair.argsort fun i => (x i).r) ∧
    Distinct demoPair.n (fun i => (x i).r) ∧ (∀ i < demoPair.n, (x i).r ≤ (x 0).r) ∧
    CellOf demoPair.n (fun i => (x i).r) (demoPair.drP / 2) 0 (3 / 2) (5 / 2) ∧
    CellOf demoPair.n (fun i => (x i).r) (demoPair.drP / 2) 1 0 (3 / 2) ∧
    (demoPair.pc = 0 ∨ (x 0).r + demoPair.drP / 2 ≤ demoPair.rMaxP) := by
  have h2 : ∀ i, i < 2 → i = 0 ∨ i = 1 := by omega
  intro x
  refine ⟨by norm_num [demoPair], by norm_num [demoPair], by norm_num [demoPair],
    by norm_num [demoPair], ⟨?_, ?_, ?_⟩, ⟨?_, ?_⟩, ?_, ⟨?_, ?_⟩, ⟨?_, ?_⟩, Or.inl rfl⟩
  · intro k hk; rcases h2 k hk with rfl | rfl <;> simp [demoPair]
  · intro k hk l hl; rcases h2 k hk with rfl | rfl <;> rcases h2 l hl with rfl | rfl <;> simp [demoPair]
  · intro k l hkl hl
    rcases h2 l hl with rfl | rfl
    · rw [show k = 0 by omega]
    · rcases h2 k (by show k < 2; omega) with rfl | rfl <;> norm_num [x, demoPair]
  · intro i hi; rcases h2 i hi with rfl | rfl <;> norm_num [x, demoPair]
  · intro k hk l hl
    rcases h2 k hk with rfl | rfl <;> rcases h2 l hl with rfl | rfl <;> norm_num [x, demoPair]
  · intro i hi; rcases h2 i hi with rfl | rfl <;> norm_num [x, demoPair]
  · right
    refine ⟨1, by norm_num [demoPair], by norm_num [x, demoPair], fun l hl => ?_,
      by norm_num [x, demoPair]⟩
    rcases h2 l hl with rfl | rfl <;> norm_num [x, demoPair]
  · left
    refine ⟨by norm_num [x, demoPair], fun l hl => ?_⟩
    rcases h2 l hl with rfl | rfl <;> norm_num [x, demoPair]
  · left
    refine ⟨rfl, fun l hl => ?_⟩
    rcases h2 l hl with rfl | rfl <;> norm_num [x, demoPair]
  · right
    refine ⟨0, by norm_num [demoPair], by norm_num [x, demoPair], fun l hl => ?_,
      by norm_num [x, demoPair]⟩
    rcases h2 l hl with rfl | rfl <;> norm_num [x, demoPair]

end WakeT.Plasma
