import Verif.Plasma.AtParticles

/-! # What the plasma column of one slice contributes to the arrays (C107) -/

set_option linter.unusedSectionVars false

namespace WakeT.Plasma

open WakeT.Interp WakeT.Base WakeT.Util WakeT.Deposition

/-- The number of particles inside of a radius, counted in sorted order. -/
theorem rank_sorted {n : ℕ} {r : ℕ → ℝ} {idx : ℕ → ℕ} (hs : Sorts n r idx) (x : ℝ) :
    ((Finset.range n).filter fun k => r (idx k) < x).card = rank n r x := by
  unfold rank
  have e : (Finset.range n).filter (fun j => r j < x) =
      ((Finset.range n).filter fun k => r (idx k) < x).image idx := by
    ext i
    rw [Finset.mem_filter, Finset.mem_image]
    constructor
    · rintro ⟨hi, hix⟩
      obtain ⟨k, hk, rfl⟩ := sorted_surj hs (Finset.mem_range.mp hi)
      exact ⟨k, Finset.mem_filter.mpr ⟨Finset.mem_range.mpr hk, hix⟩, rfl⟩
    · rintro ⟨k, hk, rfl⟩
      obtain ⟨h1, h2⟩ := Finset.mem_filter.mp hk
      exact ⟨Finset.mem_range.mpr (hs.maps k (Finset.mem_range.mp h1)), h2⟩
  rw [e, Finset.card_image_of_injOn]
  intro a ha b hb hab
  have ha' := Finset.mem_range.mp (Finset.mem_filter.mp (Finset.mem_coe.mp ha)).1
  have hb' := Finset.mem_range.mp (Finset.mem_filter.mp (Finset.mem_coe.mp hb)).1
  exact hs.inj a ha' b hb' hab

theorem ringsInside_sum (n nr : ℕ) (dr : ℝ) (r w : ℕ → ℝ) :
    ((ringsInside nr dr ((List.range n).map fun i => (⟨r i, w i⟩ : PRing ℝ))).map PRing.w).sum =
      ∑ i ∈ (Finset.range n).filter (fun i => r i ≤ nr * dr), w i := by
  induction n with
  | zero => simp [ringsInside]
  | succ n ih =>
    rw [List.range_succ, List.map_append, ringsInside, List.filter_append, List.map_append,
      List.sum_append, ← ringsInside, ih, Finset.range_add_one, Finset.filter_insert]
    by_cases h : r n ≤ nr * dr
    · rw [if_pos h, Finset.sum_insert (by simp)]
      simp [h, add_comm]
    · rw [if_neg h]
      simp [not_le.mp h]

namespace QS
variable (c : QS)

theorem rFld_sorted (hdr : 0 < c.dr) : c.rFld.Pairwise (· ≤ ·) ∧ ∀ x ∈ c.rFld, 0 < x := by
  constructor
  · unfold rFld
    rw [List.pairwise_map]
    refine List.Pairwise.imp ?_ List.pairwise_lt_range
    intro a b hab
    have : (a : ℝ) ≤ b := by exact_mod_cast hab.le
    have := hdr.le
    gcongr
  · intro x hx
    obtain ⟨j, _, rfl⟩ := List.mem_map.mp hx
    positivity

/-- **C107.** What one slice of plasma adds to the arrays, in terms of the values at the particles:

* particles at or above `max_gamma` are put at rest, the others keep the momenta and energies of
  the equations; positions are unchanged;
* row `k` of the potential is the direct sum over the particles, zero at the outer boundary;
* row `k` of the magnetic field is the solution of the boundary value problem for the particles;
* the total of the density grows by the charge `q / (1 - vz)` of every ring inside of the box over
  its cell volume, the total of the susceptibility by the same divided by `gamma`. -/
theorem column_effect {s : Sources} {k : ℕ} {x : ℕ → RP} {old : ℕ → Src} {g : Grids}
    {y : ℕ → RP} {f : ℕ → AtPart} {g' : Grids} (h : c.column s k x old g = some (y, f, g'))
    (hk : k < c.nXi) (hdr : 0 < c.dr) (hn : 0 < c.n) (hq : ∀ i < c.n, 0 ≤ c.q i) (hR : 0 < c.rMaxP)
    (hsh : c.pShape = "linear" ∨ c.pShape = "cubic")
    (hs : Sorts c.n (fun i => (x i).r) (c.argsort fun i => (x i).r))
    (hd : Distinct c.n fun i => (x i).r) (o : ℕ) (ho : o < c.n)
    (hout : ∀ i < c.n, (x i).r ≤ (x o).r) :
    let r := fun i => (x i).r
    let φ := potential c.n r c.q c.rMaxP c.pc
    let grid : Grid ℝ := ⟨0, c.dr / 2, c.nXi, c.nR, 1, c.dr⟩
    let insideBox := (Finset.range c.n).filter fun i => r i ≤ c.nR * c.dr
    (∃ src f0, c.gather s r (c.xi k) old = some src ∧ c.atParticles x src = some f0 ∧ ∀ i,
      (y i).r = r i ∧ (y i).pr = (f i).kin.pr ∧ (f i).src = (f0 i).src ∧ (f i).psi = (f0 i).psi ∧
      (f i).drPsi = (f0 i).drPsi ∧ (f i).dxiPsi = (f0 i).dxiPsi ∧ (f i).bT = (f0 i).bT ∧
      (f i).kin = if (f0 i).kin.gamma < c.maxGamma then (f0 i).kin else ⟨0, 1, 0⟩) ∧
    (∀ j, g'.psi j = if j = k then c.rFld.map fun x =>
      φ x - (∑ i ∈ Finset.range c.n, c.q i * Real.log (max (r o) c.rMaxP / r i) -
        (c.rMaxP ^ 2 / 4 + c.pc * c.rMaxP ^ 4 / 16 +
          (c.rMaxP ^ 2 / 2 + c.pc * c.rMaxP ^ 4 / 4) * Real.log (max (r o) c.rMaxP / c.rMaxP)))
      else g.psi j) ∧
    ((∀ i < c.n, -1 < (f i).psi) → ∃ co, SolvesAny c.n (c.partOf y f) co ∧
      ∀ j, g'.bTBar j = if j = k then c.rFld.map (magnetic c.n (c.partOf y f) co) else g.bTBar j) ∧
    total grid g'.rho = total grid g.rho +
      ∑ i ∈ insideBox, c.q i / (c.dr * r i * (1 - (f i).kin.pz / (f i).kin.gamma)) ∧
    total grid g'.chi = total grid g.chi +
      ∑ i ∈ insideBox, c.q i / (c.dr * r i * (1 - (f i).kin.pz / (f i).kin.gamma) *
        (f i).kin.gamma) := by
  intro r φ grid insideBox
  unfold column at h
  simp only [Option.bind_eq_bind, Option.bind_eq_some_iff] at h
  obtain ⟨src, hg, f0, hf0, row, hrow, h⟩ := h
  have h' := Option.some.inj h
  have hy : (fun i => (⟨(x i).r, (slowDown c.maxGamma (f0 i).kin).pr⟩ : RP)) = y :=
    congrArg (fun z => z.1) h'
  have hf : (fun i => ({ f0 i with kin := slowDown c.maxGamma (f0 i).kin } : AtPart)) = f :=
    congrArg (fun z => z.2.1) h'
  obtain rfl : _ = g' := congrArg (fun z => z.2.2) h'
  obtain ⟨hF1, hF2⟩ := c.rFld_sorted hdr
  have hsrc : ∀ i, (f0 i).src = src i := by
    intro i
    unfold atParticles at hf0
    simp only [Option.map_eq_some_iff] at hf0
    obtain ⟨res, _, e⟩ := hf0
    rw [← e]
  have hkin : ∀ i, (f i).kin = slowDown c.maxGamma (f0 i).kin := by intro i; rw [← hf]
  have htot : ∀ (w : ℝ → ℝ → ℝ → Kin → ℝ) (a : ℤ → ℤ → ℝ),
      total grid (depositPlasma c.pShape (k : ℝ) (c.dr / 2) c.nXi c.nR c.dr ((List.range c.n).map
        fun i => (⟨(x i).r, w (c.q i) c.dr (x i).r (slowDown c.maxGamma (f0 i).kin)⟩ : PRing ℝ)) a) =
      total grid a + ∑ i ∈ insideBox, w (c.q i) c.dr (x i).r (f i).kin := by
    intro w a
    have := plasma_conserved c.pShape hsh k c.nXi c.nR c.dr hdr ((List.range c.n).map
        fun i => (⟨(x i).r, w (c.q i) c.dr (x i).r (slowDown c.maxGamma (f0 i).kin)⟩ : PRing ℝ))
        (by
          intro p hp
          obtain ⟨i, hi, rfl⟩ := List.mem_map.mp hp
          exact (hd.pos i (List.mem_range.mp hi)).le) hk a
    rw [this, ringsInside_sum]
    simp only [hkin]
    rfl
  refine ⟨⟨src, f0, hg, hf0, fun i => ?_⟩, fun j => ?_, fun hψ => ?_, ?_, ?_⟩
  · rw [← hy, ← hf]
    refine ⟨rfl, rfl, rfl, rfl, rfl, rfl, rfl, ?_⟩
    show slowDown c.maxGamma (f0 i).kin = _
    unfold slowDown
    by_cases hlt : (f0 i).kin.gamma < c.maxGamma
    · rw [if_pos hlt, if_neg (not_le.mpr hlt)]
    · rw [if_neg hlt, if_pos (not_lt.mp hlt)]
  · show Function.update g.psi k _ j = _
    by_cases hj : j = k
    · subst hj
      rw [Function.update_self, if_pos rfl]
      exact psi_direct_sum c.rFld hF1 hF2 c.n hn _ c.q hd.pos _ hs c.rMaxP c.pc hR _ ⟨o, ho, rfl⟩ hout
    · rw [Function.update_of_ne hj, if_neg hj]
  · have hyr : ∀ i, (y i).r = (x i).r := by intro i; rw [← hy]
    have hdP : Distinct c.n fun i => (c.partOf y f i).r := by
      have : (fun i => (c.partOf y f i).r) = fun i => (x i).r := funext hyr
      rw [this]; exact hd
    have hsP : Sorts c.n (fun i => (c.partOf y f i).r) (c.argsort fun i => (x i).r) := by
      have : (fun i => (c.partOf y f i).r) = fun i => (x i).r := funext hyr
      rw [this]; exact hs
    have hbp : c.bParts (c.argsort fun i => (x i).r) y (fun i => (f i).kin.gamma)
        (fun i => (f i).psi) (fun i => (f i).drPsi) (fun i => (f i).dxiPsi) src =
        fun k => c.partOf y f (c.argsort (fun i => (x i).r) k) := by
      funext k
      unfold bParts partOf
      have : (f (c.argsort (fun i => (x i).r) k)).src = src (c.argsort (fun i => (x i).r) k) := by
        rw [← hf]; exact hsrc _
      rw [this]
    have hgood := sorted_good (p := c.partOf y f) hsP hq hψ hdP
    obtain ⟨res, hres, hsol⟩ := axis_solves precise hn hgood c.n le_rfl
    have hco := unsorted_solves hdP hsP hn hsol
    have hrow' : calculateBTheta precise c.rFld c.n
        (fun k => c.partOf y f (c.argsort (fun i => (x i).r) k)) c.n = some row := by
      rw [← hbp, ← hy, ← hf]; exact hrow
    rw [bTheta_grid precise hn hgood c.n le_rfl c.rFld hF1 _ _ hsol] at hrow'
    refine ⟨_, hco, fun j => ?_⟩
    show Function.update g.bTBar k row j = _
    by_cases hj : j = k
    · subst hj
      rw [Function.update_self, if_pos rfl, ← Option.some.inj hrow']
      apply List.map_congr_left
      intro z _
      unfold magnetic
      rw [← rank_sorted hsP]
    · rw [Function.update_of_ne hj, if_neg hj]
  · exact htot wRho g.rho
  · rw [htot wChi g.chi]
    congr 1
    apply Finset.sum_congr rfl
    intro i _
    unfold wChi wRho
    rw [div_div]

/-- The column of `demoPair` can be calculated (its other hypotheses are checked at
`at_particles_partial`). -/
example (L B : ℕ → ℕ → ℝ) (old : ℕ → Src) (g : Grids) :
    let x : ℕ → RP := fun i => ⟨demoPair.r0 i, 1 / 10⟩
    ∃ y f g', demoPair.column (demoPair.sources L B) 3 x old g = some (y, f, g') ∧
      3 < demoPair.nXi ∧ 0 < demoPair.dr ∧ demoPair.pShape = "linear" := by
  intro x
  obtain ⟨y, f, g', h, _⟩ := column_ends (c := demoPair) (by norm_num [demoPair])
    (by norm_num [demoPair]) (sources_onGrid (c := demoPair) L B) 3 x
    (by intro i _; show 0 ≤ (if i = 0 then (2 : ℝ) else 1); split_ifs <;> norm_num) old g
  exact ⟨y, f, g', h, by norm_num [demoPair], by norm_num [demoPair], rfl⟩

end QS

end WakeT.Plasma
