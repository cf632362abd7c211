import Verif.Laser.Envelope

/-! # Properties of the laser envelope solvers (C50, C87, C88, C89) -/

set_option linter.unusedSectionVars false

namespace WakeT.Laser

open Complex (I)

/-! ### C50: the in-place sweep -/

/-- `new` is the new level of a scheme: row `j` is computed from untouched copies of the
two previous levels and the two next rows of the new level, which is zero outside the
grid. -/
structure NewLevel (row : ℕ → GridC → GridC → RowC → RowC → RowC) (nz : ℕ) (a aOld new : GridC) : Prop where
  inside : ∀ j < nz, new j = row j a aOld (new (j + 1)) (new (j + 2))
  outside : ∀ j, nz ≤ j → new j = 0

/-- The computation of row `j` uses only the rows `j`, `j + 1`, `j + 2`. -/
def Local (row : ℕ → GridC → GridC → RowC → RowC → RowC) : Prop :=
  ∀ j a a' o o' n1 n2, (∀ i, j ≤ i → i ≤ j + 2 → a i = a' i ∧ o i = o' i) → row j a o n1 n2 = row j a' o' n1 n2

theorem newLevel_exists (row : ℕ → GridC → GridC → RowC → RowC → RowC) (nz : ℕ) (a aOld : GridC) :
    ∃ new, NewLevel row nz a aOld new := by
  have : ∀ m ≤ nz, ∃ new : GridC, (∀ j, nz - m ≤ j → j < nz → new j = row j a aOld (new (j + 1)) (new (j + 2))) ∧
      ∀ j, nz ≤ j → new j = 0 := by
    intro m
    induction m with
    | zero => exact fun _ => ⟨fun _ => 0, fun j h1 h2 => by omega, fun _ _ => rfl⟩
    | succ m ih =>
      intro hm
      obtain ⟨new, h1, h2⟩ := ih (by omega)
      refine ⟨Function.update new (nz - (m + 1)) (row (nz - (m + 1)) a aOld (new (nz - (m + 1) + 1))
        (new (nz - (m + 1) + 2))), ?_, ?_⟩
      · intro j hj hj'
        rw [Function.update_of_ne (a := j + 1) (by omega), Function.update_of_ne (a := j + 2) (by omega)]
        by_cases h : j = nz - (m + 1)
        · subst h
          rw [Function.update_self]
        · rw [Function.update_of_ne h]
          exact h1 j (by omega) hj'
      · intro j hj
        rw [Function.update_of_ne (by omega)]
        exact h2 j hj
  obtain ⟨new, h1, h2⟩ := this nz le_rfl
  exact ⟨new, fun j hj => h1 j (by omega) hj, h2⟩

theorem newLevel_unique {row : ℕ → GridC → GridC → RowC → RowC → RowC} {nz : ℕ} {a aOld new new' : GridC}
    (h : NewLevel row nz a aOld new) (h' : NewLevel row nz a aOld new') : new = new' := by
  have : ∀ m j, nz ≤ j + m → new j = new' j := by
    intro m
    induction m with
    | zero =>
      intro j hj
      rw [h.outside j hj, h'.outside j hj]
    | succ m ih =>
      intro j hj
      by_cases hjn : j < nz
      · rw [h.inside j hjn, h'.inside j hjn, ih (j + 1) (by omega), ih (j + 2) (by omega)]
      · rw [h.outside j (by omega), h'.outside j (by omega)]
  funext j
  exact this nz j (by omega)

theorem sweepFrom_inv {row : ℕ → GridC → GridC → RowC → RowC → RowC} (hl : Local row) {nz : ℕ} {a aOld new : GridC}
    (hnew : NewLevel row nz a aOld new) (m : ℕ) (hm : m ≤ nz) (s : Sweep)
    (h1 : ∀ i < m + 2, s.a i = a i ∧ s.aOld i = aOld i)
    (h2 : ∀ i, m + 2 ≤ i → i < nz + 2 → s.a i = new i ∧ s.aOld i = a i)
    (h3 : s.new1 = new m) (h4 : s.new2 = new (m + 1)) :
    (∀ i < 2, (sweepFrom row m s).a i = a i) ∧
    (∀ i, 2 ≤ i → i < nz + 2 → (sweepFrom row m s).a i = new i ∧ (sweepFrom row m s).aOld i = a i) ∧
    (sweepFrom row m s).new1 = new 0 ∧ (sweepFrom row m s).new2 = new 1 := by
  induction m generalizing s with
  | zero =>
    exact ⟨fun i hi => (h1 i (by omega)).1, fun i hi hi' => h2 i (by omega) hi', h3, h4⟩
  | succ m ih =>
    rw [sweepFrom]
    apply ih (by omega)
    · intro i hi
      have := h1 i (by omega)
      simp only [sweepStep]
      rw [Function.update_of_ne (by omega), Function.update_of_ne (by omega)]
      exact this
    · intro i hi hi'
      simp only [sweepStep]
      by_cases h : i = m + 2
      · subst h
        rw [Function.update_self, Function.update_self]
        exact ⟨h4, (h1 (m + 2) (by omega)).1⟩
      · rw [Function.update_of_ne h, Function.update_of_ne h]
        exact h2 i (by omega) hi'
    · simp only [sweepStep]
      rw [hnew.inside m (by omega), h3, h4]
      apply hl
      intro i hi hi'
      exact h1 i (by omega)
    · simp only [sweepStep]
      exact h3

/-- A sweep that overwrites both arrays row by row gives the new level in the first array
(zero in the guard rows) and the current level in the second. -/
theorem sweep_two_level {row : ℕ → GridC → GridC → RowC → RowC → RowC} (hl : Local row) {nz : ℕ}
    {a aOld new : GridC} (hnew : NewLevel row nz a aOld new) (i : ℕ) (hi : i < nz + 2) :
    (sweep row nz a aOld).1 i = new i ∧ (sweep row nz a aOld).2 i = a i := by
  obtain ⟨h1, h2, h3, h4⟩ := sweepFrom_inv hl hnew nz le_rfl ⟨a, aOld, 0, 0⟩ (fun _ _ => ⟨rfl, rfl⟩)
    (fun i h h' => by omega) (hnew.outside nz le_rfl).symm (hnew.outside (nz + 1) (by omega)).symm
  unfold sweep
  dsimp only
  by_cases hi1 : i = 1
  · subst hi1
    rw [Function.update_self, Function.update_self]
    exact ⟨h4, h1 1 (by omega)⟩
  · rw [Function.update_of_ne hi1, Function.update_of_ne hi1]
    by_cases hi0 : i = 0
    · subst hi0
      rw [Function.update_self, Function.update_self]
      exact ⟨h3, h1 0 (by omega)⟩
    · rw [Function.update_of_ne hi0, Function.update_of_ne hi0]
      exact h2 i (by omega) hi

theorem row_local (p : EnvParams) (centered : Bool) (chi : ℕ → ℕ → ℝ) (ph : ℕ → ℝ) :
    Local (p.row centered chi ph) := by
  intro j a a' o o' n1 n2 h
  have h0 := h j (by omega) (by omega)
  have h1 := h (j + 1) (by omega) (by omega)
  have h2 := h (j + 2) (by omega) (by omega)
  unfold EnvParams.row
  dsimp only
  split_ifs
  · congr 1
    funext k
    simp only [EnvParams.rhs, h0.1, h0.2, h1.2, h2.2]
  · congr 1
    funext k
    simp only [EnvParams.rhsN, h0.1, h1.1, h2.1]

/-- The levels of the two-level scheme: the sequence of envelopes that results from
computing every new level from untouched copies of the two before. -/
structure Levels (p : EnvParams) (centered : Bool) (chi : ℕ → ℕ → ℝ) (aOld a : GridC) (lev : ℕ → GridC) : Prop where
  zero : lev 0 = aOld
  one : lev 1 = a
  next : ∀ n, NewLevel (p.row centered chi (EnvParams.phases (lev (n + 1)))) p.nz (lev (n + 1)) (lev n) (lev (n + 2))

theorem phases_congr {a a' : GridC} {N : ℕ} (h : ∀ i < N, a i = a' i) (i : ℕ) (hi : i < N) :
    EnvParams.phases a i = EnvParams.phases a' i := by
  unfold EnvParams.phases
  rcases i with _ | i
  · simp only [unwrap, h 0 hi]
  · simp only [unwrap, h (i + 1) hi]
    congr 1
    apply Finset.sum_congr rfl
    intro j hj
    rw [Finset.mem_range] at hj
    rw [h (j + 1) (by omega), h j (by omega)]

/-- Rows that exist in the arrays. -/
def SameRows (N : ℕ) (a a' : GridC) : Prop := ∀ i < N, a i = a' i

theorem newLevel_congr {p : EnvParams} {centered : Bool} {chi : ℕ → ℕ → ℝ} {a a' o o' new : GridC}
    (ha : SameRows (p.nz + 2) a a') (ho : SameRows (p.nz + 2) o o')
    (h : NewLevel (p.row centered chi (EnvParams.phases a')) p.nz a' o' new) :
    NewLevel (p.row centered chi (EnvParams.phases a)) p.nz a o new := by
  refine ⟨fun j hj => ?_, h.outside⟩
  rw [h.inside j hj]
  have hth : p.theta (EnvParams.phases a') j = p.theta (EnvParams.phases a) j := by
    unfold EnvParams.theta
    rw [phases_congr ha j (by omega), phases_congr ha (j + 1) (by omega), phases_congr ha (j + 2) (by omega)]
  have : ∀ A O n1 n2, p.row centered chi (EnvParams.phases a') j A O n1 n2 =
      p.row centered chi (EnvParams.phases a) j A O n1 n2 := by
    intro A O n1 n2
    unfold EnvParams.row
    rw [hth]
  rw [this]
  apply row_local
  intro i _ hi
  exact ⟨(ha i (by omega)).symm, (ho i (by omega)).symm⟩

/-- The solvers return the levels `nt + 1` and `nt` of the two-level scheme, for every number of steps. -/
theorem evolve_two_level (p : EnvParams) (centered : Bool) (chi : ℕ → ℕ → ℝ) (a aOld : GridC) (lev : ℕ → GridC)
    (h : Levels p centered chi aOld a lev) :
    SameRows (p.nz + 2) (p.evolve centered chi (a, aOld)).1 (lev (p.nt + 1)) ∧
    SameRows (p.nz + 2) (p.evolve centered chi (a, aOld)).2 (lev p.nt) := by
  unfold EnvParams.evolve
  generalize p.nt = n
  induction n with
  | zero =>
    rw [Function.iterate_zero, id]
    exact ⟨fun i _ => by rw [h.one], fun i _ => by rw [h.zero]⟩
  | succ n ih =>
    rw [Function.iterate_succ_apply']
    set s := (p.step centered chi)^[n] (a, aOld) with hs
    have hn := newLevel_congr ih.1 ih.2 (h.next n)
    have := fun i hi => sweep_two_level (row_local p centered chi _) hn i hi
    unfold EnvParams.step
    exact ⟨fun i hi => (this i hi).1, fun i hi => by rw [(this i hi).2]; exact ih.1 i hi⟩

/-- The levels exist and are unique. -/
theorem levels_exist (p : EnvParams) (centered : Bool) (chi : ℕ → ℕ → ℝ) (a aOld : GridC) :
    ∃! lev, Levels p centered chi aOld a lev := by
  choose f hf using fun x o : GridC => newLevel_exists (p.row centered chi (EnvParams.phases x)) p.nz x o
  let pairs : ℕ → GridC × GridC := fun n => Nat.rec (aOld, a) (fun _ q => (q.2, f q.2 q.1)) n
  refine ⟨fun n => (pairs n).1, ⟨rfl, rfl, fun n => hf (pairs n).2 (pairs n).1⟩, ?_⟩
  intro lev hlev
  have : ∀ n, lev n = (pairs n).1 ∧ lev (n + 1) = (pairs n).2 := by
    intro n
    induction n with
    | zero => exact ⟨hlev.zero, hlev.one⟩
    | succ n ih =>
      refine ⟨ih.2, ?_⟩
      have h1 := hlev.next n
      rw [ih.1, ih.2] at h1
      exact newLevel_unique h1 (hf (pairs n).2 (pairs n).1)
  funext n
  exact (this n).1

/-! ### C88: no division by zero -/

/-- Strict diagonal dominance, row by row. -/
structure Dominant (n : ℕ) (a b c : ℕ → ℂ) : Prop where
  first : ‖c 0‖ < ‖b 0‖
  next : ∀ i, i + 1 < n → ‖a i‖ + ‖c (i + 1)‖ < ‖b (i + 1)‖
  last : ‖a (n - 3)‖ < ‖b (n - 1)‖

theorem tdmaW_le {n : ℕ} {a b c : ℕ → ℂ} (h : Dominant n a b c) (hn : 1 ≤ n) (i : ℕ) (hi : i < n) :
    ‖tdmaW a b c i‖ ≤ 1 ∧ (i + 1 < n → b (i + 1) - a i * tdmaW a b c i ≠ 0) := by
  have piv : ∀ i, ‖tdmaW a b c i‖ ≤ 1 → i + 1 < n → ‖c (i + 1)‖ < ‖b (i + 1) - a i * tdmaW a b c i‖ := by
    intro i h1 hi
    have h2 := norm_sub_norm_le (b (i + 1)) (a i * tdmaW a b c i)
    rw [norm_mul] at h2
    have h3 := mul_le_mul_of_nonneg_left h1 (norm_nonneg (a i))
    have := h.next i hi
    linarith
  have main : ∀ i, i < n → ‖tdmaW a b c i‖ ≤ 1 := by
    intro i
    induction i with
    | zero =>
      intro _
      rw [tdmaW, norm_div]
      exact div_le_one_of_le₀ h.first.le (norm_nonneg _)
    | succ i ih =>
      intro hi
      have h1 := piv i (ih (by omega)) hi
      rw [tdmaW, norm_mul, norm_div, norm_one, mul_one_div]
      exact div_le_one_of_le₀ h1.le (norm_nonneg _)
  refine ⟨main i hi, fun hi' hz => ?_⟩
  have := piv i (main i hi) hi'
  rw [hz, norm_zero] at this
  exact absurd this (not_lt.mpr (norm_nonneg _))

theorem Dominant.pivots {n : ℕ} {a b c : ℕ → ℂ} (h : Dominant n a b c) (hn : 3 ≤ n) : Pivots n a b c := by
  refine ⟨?_, fun i hi => (tdmaW_le h (by omega) i (by omega)).2 (by omega), ?_⟩
  · intro hz
    have := h.first
    rw [hz, norm_zero] at this
    exact absurd this (not_lt.mpr (norm_nonneg _))
  · intro hz
    have h1 := norm_sub_norm_le (b (n - 1)) (a (n - 3) * tdmaW a b c (n - 3))
    rw [hz, norm_zero, norm_mul] at h1
    have h2 := mul_le_mul_of_nonneg_left (tdmaW_le h (by omega) (n - 3) (by omega)).1 (norm_nonneg (a (n - 3)))
    have := h.last
    linarith

/-- Arguments with a grid of positive spacing and a positive step. -/
structure EnvParams.Ok (p : EnvParams) : Prop where
  kp : 0 < p.kp
  c : 0 < p.c
  z : p.zmin < p.zmax
  nz : 2 ≤ p.nz
  r : 0 < p.rmax
  nr : 3 ≤ p.nr
  dt : 0 < p.dt

theorem EnvParams.Ok.pos {p : EnvParams} (h : p.Ok) : 0 < p.dz ∧ 0 < p.dr ∧ 0 < p.dtn := by
  have h1 := h.kp
  have h2 := h.c
  have h3 := h.r
  have h4 := h.dt
  have h5 : (0 : ℝ) < p.nz - 1 := by
    have : (2 : ℝ) ≤ p.nz := by exact_mod_cast h.nz
    linarith
  have h6 : (0 : ℝ) < p.nr := by
    have := h.nr
    exact_mod_cast (by omega : 0 < p.nr)
  have h7 := sub_pos.mpr h.z
  unfold EnvParams.dz EnvParams.dr EnvParams.dtn
  exact ⟨by positivity, by positivity, by positivity⟩

theorem norm_lower {p : EnvParams} (k : ℕ) : ‖p.dLower k‖ = (1 - 1 / (2 * k + 3)) * p.invDr ^ 2 / 2 := by
  unfold EnvParams.dLower EnvParams.lMinus
  have h : (0 : ℝ) ≤ 1 - 1 / (2 * (k : ℝ) + 3) := by
    have : (1 : ℝ) / (2 * (k : ℝ) + 3) ≤ 1 := div_le_one_of_le₀ (by linarith [Nat.cast_nonneg (α := ℝ) k]) (by positivity)
    linarith
  rw [Complex.norm_real, Real.norm_eq_abs]
  have e : (1 - 1 / (2 * (((k + 1 : ℕ) : ℝ) + 0.5))) * p.invDr ^ 2 * 0.5 = (1 - 1 / (2 * k + 3)) * p.invDr ^ 2 / 2 := by
    have : (2 * (((k + 1 : ℕ) : ℝ) + 0.5)) = 2 * k + 3 := by push_cast; ring
    rw [this]
    norm_num
    ring
  rw [e, abs_of_nonneg]
  positivity

theorem norm_upper {p : EnvParams} (k : ℕ) : ‖p.dUpper k‖ = (1 + 1 / (2 * k + 1)) * p.invDr ^ 2 / 2 := by
  unfold EnvParams.dUpper EnvParams.lPlus
  rw [Complex.norm_real, Real.norm_eq_abs]
  have e : (1 + 1 / (2 * ((k : ℝ) + 0.5))) * p.invDr ^ 2 * 0.5 = (1 + 1 / (2 * k + 1)) * p.invDr ^ 2 / 2 := by
    have : (2 * ((k : ℝ) + 0.5)) = 2 * k + 1 := by ring
    rw [this]
    norm_num
    ring
  rw [e, abs_of_nonneg]
  positivity

/-- Enough for both schemes: the real part of the main diagonal is below `-1/dr²`. -/
theorem dominant_of_re {p : EnvParams} (hn : 3 ≤ p.nr) {b : ℕ → ℂ} (hb : ∀ k, (b k).re < -p.invDr ^ 2) :
    Dominant p.nr p.dLower b p.dUpper := by
  have hb' : ∀ k, p.invDr ^ 2 < ‖b k‖ := by
    intro k
    have h1 := Complex.abs_re_le_norm (b k)
    have h2 := neg_abs_le (b k).re
    have := hb k
    linarith
  have hp := sq_nonneg p.invDr
  refine ⟨?_, ?_, ?_⟩
  · rw [norm_upper]
    have := hb' 0
    norm_num at this ⊢
    exact this
  · intro i _
    rw [norm_lower, norm_upper]
    have e : (2 * ((i + 1 : ℕ) : ℝ) + 1) = 2 * i + 3 := by push_cast; ring
    rw [e]
    have := hb' (i + 1)
    linarith
  · rw [norm_lower]
    have h1 := hb' (p.nr - 1)
    have : (0 : ℝ) ≤ 1 / (2 * ((p.nr - 3 : ℕ) : ℝ) + 3) := by positivity
    nlinarith

theorem dMain_re (p : EnvParams) (chi : ℕ → ℕ → ℝ) (th : ℝ × ℝ) (j k : ℕ) :
    (p.dMain chi th j k).re = -p.invDr ^ 2 - 1.5 * p.invDzdt - p.invDt ^ 2 - chi j k * 0.5 := by
  have e1 : p.dMain chi th j k = ((-p.invDr ^ 2 - 1.5 * p.invDzdt - p.invDt ^ 2 - chi j k * 0.5 : ℝ) : ℂ) +
      ((p.k0 / p.kp * p.invDt + p.invDt * p.bigD th : ℝ) : ℂ) * I := by
    unfold EnvParams.dMain EnvParams.cPlus
    push_cast
    ring
  rw [e1, Complex.add_re, Complex.ofReal_re, Complex.re_ofReal_mul, Complex.I_re, mul_zero, add_zero]

theorem dMainN_re (p : EnvParams) (chi : ℕ → ℕ → ℝ) (th : ℝ × ℝ) (j k : ℕ) :
    (p.dMainN chi th j k).re = -p.invDr ^ 2 - 3 * p.invDzdt - chi j k * 0.5 := by
  have e1 : p.dMainN chi th j k = ((-p.invDr ^ 2 - 3 * p.invDzdt - chi j k * 0.5 : ℝ) : ℂ) +
      ((2 * p.k0 / p.kp * p.invDt + 2 * p.invDt * p.bigD th : ℝ) : ℂ) * I := by
    unfold EnvParams.dMainN EnvParams.cPlusN
    push_cast
    ring
  rw [e1, Complex.add_re, Complex.ofReal_re, Complex.re_ofReal_mul, Complex.I_re, mul_zero, add_zero]

/-- For a plasma response that is not negative the solvers never divide by zero, whatever
the envelope, its phase, and the step. -/
theorem envelope_pivots {p : EnvParams} (hp : p.Ok) {chi : ℕ → ℕ → ℝ} (hchi : ∀ j k, 0 ≤ chi j k) (th : ℝ × ℝ) (j : ℕ) :
    Pivots p.nr p.dLower (p.dMain chi th j) p.dUpper ∧ Pivots p.nr p.dLower (p.dMainN chi th j) p.dUpper := by
  obtain ⟨h1, h2, h3⟩ := hp.pos
  have h4 : 0 < p.invDzdt := by unfold EnvParams.invDzdt EnvParams.invDt EnvParams.invDz; positivity
  constructor
  · apply Dominant.pivots (dominant_of_re hp.nr _) hp.nr
    intro k
    rw [dMain_re]
    have := hchi j k
    have := sq_nonneg p.invDt
    norm_num at *
    linarith
  · apply Dominant.pivots (dominant_of_re hp.nr _) hp.nr
    intro k
    rw [dMainN_re]
    have := hchi j k
    norm_num at *
    linarith

example : ∃ p : EnvParams, p.Ok :=
  ⟨⟨1, 1, 1, 0, 1, 2, 1, 3, 1, 1, true⟩, ⟨by norm_num, by norm_num, by norm_num, by norm_num, by norm_num, by norm_num,
    by norm_num⟩⟩

end WakeT.Laser
