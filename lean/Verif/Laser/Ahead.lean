import Verif.Laser.Subgrid

/-! # The laser pulse is not affected by what is behind (C146) -/

set_option linter.unusedSectionVars false

namespace WakeT.Laser

open Complex (I)

/-! ### Specification -/

/-- Two arrays with `n` slices that agree in slice `m` and ahead of it. -/
def SlicesFrom {V : Type} (m n : ℕ) (a a' : ℕ → V) : Prop := ∀ j, m ≤ j → j < n → a' j = a j

/-! ### The solvers -/

/-- Differences of the phase depend on the two slices only. -/
theorem theta_ahead (p : EnvParams) {m : ℕ} {a a' : GridC} (h : SlicesFrom m (p.nz + 2) a a') {j : ℕ} (hj : m ≤ j)
    (hjn : j < p.nz) : p.theta (EnvParams.phases a') j = p.theta (EnvParams.phases a) j := by
  unfold EnvParams.theta EnvParams.phases
  rw [unwrap_diff, unwrap_diff, unwrap_diff, unwrap_diff, h j hj (by omega), h (j + 1) (by omega) (by omega),
    h (j + 2) (by omega) (by omega)]

theorem row_ahead (p : EnvParams) (hn : 1 ≤ p.nr) (centered : Bool) {chi chi' : ℕ → ℕ → ℝ} {m : ℕ} {a a' o o' : GridC}
    (ha : SlicesFrom m (p.nz + 2) a a') (ho : SlicesFrom m (p.nz + 2) o o')
    (hc : ∀ j, m ≤ j → j < p.nz → ∀ k < p.nr, chi' j k = chi j k) {j : ℕ} (hj : m ≤ j) (hjn : j < p.nz) (n1 n2 : RowC) :
    p.row centered chi' (EnvParams.phases a') j a' o' n1 n2 = p.row centered chi (EnvParams.phases a) j a o n1 n2 := by
  rw [row_congr_chi p hn centered _ (fun k hk => hc j hj hjn k hk)]
  have hl := row_local p centered chi (EnvParams.phases a') j a' a o' o n1 n2 (fun i h1 h2 =>
    ⟨ha i (by omega) (by omega), ho i (by omega) (by omega)⟩)
  rw [hl]
  unfold EnvParams.row
  rw [theta_ahead p ha hj hjn]

theorem step_ahead (p : EnvParams) (hn : 1 ≤ p.nr) (centered : Bool) {chi chi' : ℕ → ℕ → ℝ} {m : ℕ} {s s' : GridC × GridC}
    (ha : SlicesFrom m (p.nz + 2) s.1 s'.1) (ho : SlicesFrom m (p.nz + 2) s.2 s'.2)
    (hc : ∀ j, m ≤ j → j < p.nz → ∀ k < p.nr, chi' j k = chi j k) :
    SlicesFrom m (p.nz + 2) (p.step centered chi s).1 (p.step centered chi' s').1 ∧
      SlicesFrom m (p.nz + 2) (p.step centered chi s).2 (p.step centered chi' s').2 := by
  obtain ⟨new, h⟩ := newLevel_exists (p.row centered chi (EnvParams.phases s.1)) p.nz s.1 s.2
  obtain ⟨new', h'⟩ := newLevel_exists (p.row centered chi' (EnvParams.phases s'.1)) p.nz s'.1 s'.2
  have hnew : ∀ d j, m ≤ j → p.nz ≤ j + d → new' j = new j := by
    intro d
    induction d with
    | zero =>
      intro j _ hj
      rw [h.outside j hj, h'.outside j hj]
    | succ d ih =>
      intro j hj hd
      by_cases hjn : j < p.nz
      · rw [h.inside j hjn, h'.inside j hjn, ih (j + 1) (by omega) (by omega), ih (j + 2) (by omega) (by omega)]
        exact row_ahead p hn centered ha ho hc hj hjn _ _
      · rw [h.outside j (by omega), h'.outside j (by omega)]
  have h1 := fun i hi => sweep_two_level (row_local p centered chi _) h i hi
  have h2 := fun i hi => sweep_two_level (row_local p centered chi' _) h' i hi
  constructor
  · intro j hj hjn
    show (sweep _ p.nz s'.1 s'.2).1 j = (sweep _ p.nz s.1 s.2).1 j
    rw [(h1 j hjn).1, (h2 j hjn).1]
    exact hnew p.nz j hj (by omega)
  · intro j hj hjn
    show (sweep _ p.nz s'.1 s'.2).2 j = (sweep _ p.nz s.1 s.2).2 j
    rw [(h1 j hjn).2, (h2 j hjn).2]
    exact ha j hj hjn

/-- The envelope in slice `m` and ahead of it, after any number of steps, depends on the envelope and the susceptibility in
slice `m` and ahead of it only. -/
theorem evolve_ahead (p : EnvParams) (hn : 1 ≤ p.nr) (centered : Bool) {chi chi' : ℕ → ℕ → ℝ} {m : ℕ} {s s' : GridC × GridC}
    (ha : SlicesFrom m (p.nz + 2) s.1 s'.1) (ho : SlicesFrom m (p.nz + 2) s.2 s'.2)
    (hc : ∀ j, m ≤ j → j < p.nz → ∀ k < p.nr, chi' j k = chi j k) :
    SlicesFrom m (p.nz + 2) (p.evolve centered chi s).1 (p.evolve centered chi' s').1 ∧
      SlicesFrom m (p.nz + 2) (p.evolve centered chi s).2 (p.evolve centered chi' s').2 := by
  unfold EnvParams.evolve
  induction p.nt with
  | zero => exact ⟨ha, ho⟩
  | succ n ih =>
    rw [Function.iterate_succ_apply', Function.iterate_succ_apply']
    exact step_ahead p hn centered ih.1 ih.2 hc

/-! ### The pulse -/

theorem regrid_ahead {V : Type} [AddCommGroup V] [Module ℝ V] {src dst : Mesh} (hs : src.Ok) (hb : SameBox src dst)
    (hz : dst.nz = src.nz) {m : ℕ} {f f' : ℕ → ℕ → V} (h : ∀ i, m ≤ i → i < src.nz → ∀ j < src.nr, f' i j = f i j) {i : ℕ}
    (hi : m ≤ i) (hin : i < src.nz) (j : ℕ) : regrid src dst f' i j = regrid src dst f i j := by
  have hcell : (dst.zs i - src.zMin) / src.dz = i := by
    have e : dst.zs i = src.zMin + i * src.dz := by
      unfold Mesh.zs linspace Mesh.dz
      rw [hz, hb.zMin, hb.zMax]
    rw [e, add_sub_cancel_left, mul_div_cancel_right₀ _ hs.dz_pos.ne']
  have hget : ∀ (x : ℤ) (y : ℤ), (m : ℤ) ≤ x → (src.array f').get x y = (src.array f).get x y := by
    intro x y hx
    unfold Arr.get
    show (if _ then _ else _) = if _ then _ else _
    by_cases hc : 0 ≤ x ∧ x < (src.array f).ni ∧ 0 ≤ y ∧ y < (src.array f).nj
    · have hc' : 0 ≤ x ∧ x < (src.array f').ni ∧ 0 ≤ y ∧ y < (src.array f').nj := hc
      have h1 : x < (src.nz : ℤ) := hc.2.1
      have h2 : y < (src.nr : ℤ) := hc.2.2.2
      rw [if_pos hc, if_pos hc']
      exact congrArg some (h x.toNat (by omega) (by omega) y.toNat (by omega))
    · have hc' : ¬ (0 ≤ x ∧ x < (src.array f').ni ∧ 0 ≤ y ∧ y < (src.array f').nj) := hc
      rw [if_neg hc, if_neg hc']
  unfold regrid Interp.interpPoint
  dsimp only
  have e1 : (src.array f').ni = src.nz := rfl
  have e2 : (src.array f).ni = src.nz := rfl
  have e3 : (src.array f').nj = (src.array f).nj := rfl
  have hf : ⌊((i : ℕ) : ℝ)⌋ = (i : ℤ) := Int.floor_natCast i
  rw [hcell, hf, e1, e2, e3]
  have hu : (m : ℤ) ≤ min ((i : ℤ) + 1) ((src.nz : ℤ) - 1) := by omega
  have hl : (m : ℤ) ≤ (i : ℤ) := by omega
  simp only [hget _ _ hu, hget _ _ hl]

/-- Two pulses that agree in slice `m` and ahead of it. -/
structure Setup.SameFront (s : Setup) (m : ℕ) (e e' : PulseArrays) : Prop where
  steps : e'.nSteps = e.nSteps
  a : SlicesFrom m (s.solver.nz + 2) e.a e'.a
  old : SlicesFrom m (s.solver.nz + 2) e.old e'.old
  out : ∀ i, m ≤ i → i < s.nz → ∀ j < s.nr, e'.out i j = e.out i j

theorem Setup.SameFront.refl (s : Setup) (m : ℕ) (e : PulseArrays) : s.SameFront m e e :=
  ⟨rfl, fun _ _ _ => rfl, fun _ _ _ => rfl, fun _ _ _ _ _ => rfl⟩

theorem solver_nz {s : Setup} (hz : s.subNz.getD s.nz = s.nz) : s.solver.nz = s.nz := by
  unfold Setup.solver
  split_ifs
  · exact hz
  · rfl

/-- One evolution of the pulse, without a finer grid in the longitudinal direction. -/
theorem pulse_ahead {s : Setup} (hs : s.Ok) (hz : s.subNz.getD s.nz = s.nz) {m : ℕ} {chi chi' : ℕ → ℕ → ℝ} (kp : ℝ)
    (hc : ∀ i, m ≤ i → i < s.nz → ∀ j < s.nr, chi' i j = chi i j) {e e' : PulseArrays} (he : s.SameFront m e e') :
    ∃ r r', s.evolve (chi, kp) e = some r ∧ s.evolve (chi', kp) e' = some r' ∧ s.SameFront m r r' := by
  have hb := s.sameBox
  have hb' : SameBox s.solver s.main := ⟨hb.zMin.symm, hb.zMax.symm, hb.rMax.symm⟩
  have hnz := solver_nz hz
  obtain ⟨c, c', h1, h2, h3⟩ : ∃ c c', s.solverChi chi = some c ∧ s.solverChi chi' = some c' ∧
      ∀ i, m ≤ i → i < s.solver.nz → ∀ j < s.solver.nr, c' i j = c i j := by
    unfold Setup.solverChi
    by_cases hu : s.useSub = true
    · rw [if_pos hu, if_pos hu, regridAll_eq hs.main hs.solver hb, regridAll_eq hs.main hs.solver hb]
      refine ⟨_, _, rfl, rfl, fun i hi hin j _ => ?_⟩
      rw [regrid_ahead hs.main hb hnz hc hi (by rw [hnz] at hin; exact hin)]
    · have e0 : s.solver = s.main := by unfold Setup.solver; rw [if_neg hu]
      rw [if_neg hu, if_neg hu, e0]
      exact ⟨_, _, rfl, rfl, hc⟩
  obtain ⟨g1, g2⟩ := evolve_ahead (s.params kp) (show 1 ≤ s.solver.nr by have := hs.solver.nr; omega) (decide (e.nSteps ≠ 0))
    (s := (e.a, e.old)) (s' := (e'.a, e'.old)) he.a he.old h3
  obtain ⟨o, o', k1, k2, k3⟩ : ∃ o o', s.output ((s.params kp).evolve (decide (e.nSteps ≠ 0)) c (e.a, e.old)).1 = some o ∧
      s.output ((s.params kp).evolve (decide (e.nSteps ≠ 0)) c' (e'.a, e'.old)).1 = some o' ∧
      ∀ i, m ≤ i → i < s.nz → ∀ j < s.nr, o' i j = o i j := by
    unfold Setup.output
    have hg : ∀ i, m ≤ i → i < s.solver.nz → ∀ j < s.solver.nr, _ := fun i hi hin j _ => congrFun (g1 i hi (by
      show i < s.solver.nz + 2
      omega)) j
    by_cases hu : s.useSub = true
    · rw [if_pos hu, if_pos hu, regridAll_eq hs.solver hs.main hb', regridAll_eq hs.solver hs.main hb']
      refine ⟨_, _, rfl, rfl, fun i hi hin j _ => ?_⟩
      rw [regrid_ahead hs.solver hb' hnz.symm hg hi (by rw [hnz]; exact hin)]
    · rw [if_neg hu, if_neg hu]
      refine ⟨_, _, rfl, rfl, fun i hi hin j _ => ?_⟩
      exact congrFun (g1 i hi (by show i < s.solver.nz + 2; omega)) j
  refine ⟨⟨_, _, e.nSteps + 1, o⟩, ⟨_, _, e'.nSteps + 1, o'⟩, ?_, ?_, ⟨by rw [he.steps], g1, g2, k3⟩⟩
  · unfold Setup.evolve
    simp only [Option.bind_eq_bind]
    rw [h1, Option.bind_some, k1, Option.bind_some]
  · unfold Setup.evolve
    simp only [Option.bind_eq_bind]
    rw [h2, he.steps, Option.bind_some, k2, Option.bind_some]

end WakeT.Laser
