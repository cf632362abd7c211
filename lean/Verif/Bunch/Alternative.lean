import Verif.Bunch.Props

/-! # The alternative phase space matrix: C22 -/

set_option linter.unusedSectionVars false

namespace WakeT.Bunch

open Push (Ph)

/-- Specification: building a bunch from the alternative matrix of `b` and the
reference energy returned with it gives the phase space of `b`. -/
def AlternativeRoundTrip (b : Bunch) : Prop :=
  ∀ i < b.n, (b.setAlternative b.getAlternative.1 b.n b.getAlternative.2).ph i = b.ph i

/-- Specification: weighted mean of the Lorentz factors. -/
noncomputable def Bunch.meanGamma (b : Bunch) : ℝ :=
  (∑ i ∈ Finset.range b.n, b.w i * (b.ph i).gamma) / b.weight

/-- Specification: a bunch of forward-moving particles with positive weights. -/
def Bunch.Forward (b : Bunch) : Prop := 0 < b.n ∧ ∀ i < b.n, 0 < b.w i ∧ 0 < (b.ph i).pz

theorem gamma_gt_one (p : Ph) (h : 0 < p.pz) : 1 < p.gamma := by
  unfold Push.Ph.gamma
  rw [show (1 : ℝ) = √1 by simp]
  refine Real.sqrt_lt_sqrt zero_le_one ?_
  rw [Real.sqrt_one]
  have := sq_nonneg p.px
  have := sq_nonneg p.py
  have : 0 < p.pz ^ 2 := by positivity
  linarith

theorem gamma_sq (p : Ph) : p.gamma ^ 2 = 1 + p.px ^ 2 + p.py ^ 2 + p.pz ^ 2 := by
  unfold Push.Ph.gamma
  rw [Real.sq_sqrt (by positivity)]

theorem weight_pos {b : Bunch} (h : b.Forward) : 0 < b.weight :=
  Finset.sum_pos (fun i hi => (h.2 i (Finset.mem_range.mp hi)).1) ⟨0, Finset.mem_range.mpr h.1⟩

theorem getAlternative_mean (b : Bunch) : b.getAlternative.2 = b.meanGamma := by
  unfold Bunch.getAlternative average Bunch.meanGamma Bunch.weight
  dsimp only
  congr 1
  exact Finset.sum_congr rfl fun i _ => mul_comm _ _

theorem meanGamma_gt_one {b : Bunch} (h : b.Forward) : 1 < b.meanGamma := by
  unfold Bunch.meanGamma
  rw [lt_div_iff₀ (weight_pos h), one_mul]
  refine Finset.sum_lt_sum_of_nonempty ⟨0, Finset.mem_range.mpr h.1⟩ fun i hi => ?_
  have hi := h.2 i (Finset.mem_range.mp hi)
  nlinarith [gamma_gt_one _ hi.2, hi.1]

/-- Velocity of the reference energy, over `c`. -/
noncomputable def Bunch.beta (b : Bunch) : ℝ := √(1 - 1 / b.meanGamma ^ 2)

theorem beta_pos_lt_one {b : Bunch} (h : b.Forward) : 0 < b.beta ∧ b.beta < 1 := by
  have hg := meanGamma_gt_one h
  have h1 : 1 < b.meanGamma ^ 2 := by nlinarith
  have h2 : 1 / b.meanGamma ^ 2 < 1 := by rw [div_lt_one (by positivity)]; exact h1
  have h3 : 0 < 1 / b.meanGamma ^ 2 := by positivity
  unfold Bunch.beta
  exact ⟨Real.sqrt_pos.mpr (by linarith), by
    rw [show (1 : ℝ) = √1 by simp]; exact Real.sqrt_lt_sqrt (by rw [Real.sqrt_one]; linarith) (by rw [Real.sqrt_one]; linarith)⟩

/-- **C22**, what happens: the energy of a particle comes back with its distance to
the mean energy divided by the reference velocity (over `c`), and the position is
unchanged. -/
theorem alternative_energy (b : Bunch) (h : b.Forward) (i : ℕ) :
    (b.getAlternative.1 5 i + 1) * b.getAlternative.2 =
      b.meanGamma + ((b.ph i).gamma - b.meanGamma) / b.beta ∧
    ((b.setAlternative b.getAlternative.1 b.n b.getAlternative.2).ph i).x = (b.ph i).x ∧
    ((b.setAlternative b.getAlternative.1 b.n b.getAlternative.2).ph i).y = (b.ph i).y ∧
    ((b.setAlternative b.getAlternative.1 b.n b.getAlternative.2).ph i).xi = (b.ph i).xi := by
  refine ⟨?_, rfl, rfl, rfl⟩
  have hg := meanGamma_gt_one h
  have hb := beta_pos_lt_one h
  have h1 : b.getAlternative.1 5 i =
      ((b.ph i).gamma - b.getAlternative.2) / (b.getAlternative.2 *
        √(1 - 1 / b.getAlternative.2 ^ 2)) := rfl
  rw [h1, getAlternative_mean]
  change (((b.ph i).gamma - b.meanGamma) / (b.meanGamma * b.beta) + 1) * b.meanGamma = _
  have := hb.1.ne'
  have : b.meanGamma ≠ 0 := by linarith
  field_simp
  ring

private theorem alternative_ph (b : Bunch) (i : ℕ) :
    let g' := (b.getAlternative.1 5 i + 1) * b.getAlternative.2
    let p' := (b.setAlternative b.getAlternative.1 b.n b.getAlternative.2).ph i
    p'.px = (b.ph i).px / √((b.ph i).gamma ^ 2 - 1) * √(g' ^ 2 - 1) ∧
    p'.py = (b.ph i).py / √((b.ph i).gamma ^ 2 - 1) * √(g' ^ 2 - 1) ∧
    p'.pz = √(g' ^ 2 - p'.px ^ 2 - p'.py ^ 2 - 1) := ⟨rfl, rfl, rfl⟩

/-- **C22** for one particle: its phase space comes back exactly if its energy is the
mean energy. -/
theorem alternative_particle_iff (b : Bunch) (h : b.Forward) (i : ℕ) (hi : i < b.n) :
    (b.setAlternative b.getAlternative.1 b.n b.getAlternative.2).ph i = b.ph i ↔
      (b.ph i).gamma = b.meanGamma := by
  obtain ⟨he, hx, hy, hxi⟩ := alternative_energy b h i
  obtain ⟨hpx, hpy, hpz⟩ := alternative_ph b i
  have hpzi := (h.2 i hi).2
  have hg := gamma_gt_one _ hpzi
  have hG := meanGamma_gt_one h
  have hb := beta_pos_lt_one h
  have hsq := gamma_sq (b.ph i)
  rw [he] at hpx hpy hpz
  constructor
  · intro heq
    rw [heq] at hpz hpx hpy
    generalize hg' : b.meanGamma + ((b.ph i).gamma - b.meanGamma) / b.beta = g' at *
    have hrad : g' ^ 2 - (b.ph i).px ^ 2 - (b.ph i).py ^ 2 - 1 = (b.ph i).pz ^ 2 := by
      have hpos : 0 < g' ^ 2 - (b.ph i).px ^ 2 - (b.ph i).py ^ 2 - 1 := by
        rw [hpz] at hpzi
        exact Real.sqrt_pos.mp hpzi
      conv_rhs => rw [hpz, Real.sq_sqrt hpos.le]
    have hgg : g' ^ 2 = (b.ph i).gamma ^ 2 := by linarith
    have hmul : g' * b.beta = b.meanGamma * b.beta + ((b.ph i).gamma - b.meanGamma) := by
      rw [← hg', add_mul, div_mul_cancel₀ _ hb.1.ne']
    have hbeta : b.meanGamma ^ 2 * (1 - b.beta ^ 2) = 1 := by
      unfold Bunch.beta
      have h2 : 0 ≤ 1 - 1 / b.meanGamma ^ 2 := by
        have : 1 / b.meanGamma ^ 2 ≤ 1 := by rw [div_le_one (by positivity)]; nlinarith
        linarith
      rw [Real.sq_sqrt h2]
      field_simp
      ring
    rcases sq_eq_sq_iff_eq_or_eq_neg.mp hgg with e | e
    · rw [e] at hmul
      have : ((b.ph i).gamma - b.meanGamma) * (1 - b.beta) = 0 := by linarith
      rcases mul_eq_zero.mp this with h' | h'
      · linarith
      · linarith [hb.2]
    · exfalso
      rw [e] at hmul
      have h4 : (b.ph i).gamma * (1 + b.beta) = b.meanGamma * (1 - b.beta) := by linarith
      have h5 : (b.ph i).gamma * (1 + b.beta) * (b.meanGamma * (1 + b.beta)) = 1 := by
        rw [h4]; linarith
      have h6 : 1 < (b.ph i).gamma * (1 + b.beta) := by nlinarith [hb.1]
      have h7 : 1 < b.meanGamma * (1 + b.beta) := by nlinarith [hb.1]
      nlinarith
  · intro heq
    rw [← heq, sub_self, zero_div, add_zero] at hpx hpy hpz
    have hk : √((b.ph i).gamma ^ 2 - 1) ≠ 0 := by
      apply (Real.sqrt_pos.mpr _).ne'
      nlinarith
    rw [div_mul_cancel₀ _ hk] at hpx hpy
    rw [hpx, hpy, show (b.ph i).gamma ^ 2 - (b.ph i).px ^ 2 - (b.ph i).py ^ 2 - 1 =
      (b.ph i).pz ^ 2 by linarith, Real.sqrt_sq hpzi.le] at hpz
    ext <;> assumption

/-- **C22** (partial) A bunch whose particles all have the same energy round-trips.
Missing: energy spread, with which the round trip fails
(`alternative_roundtrip_iff`). -/
theorem alternative_roundtrip_partial (b : Bunch) (h : b.Forward)
    (hm : ∀ i < b.n, ∀ j < b.n, (b.ph i).gamma = (b.ph j).gamma) : AlternativeRoundTrip b := by
  intro i hi
  rw [alternative_particle_iff b h i hi]
  unfold Bunch.meanGamma
  rw [eq_div_iff (weight_pos h).ne', Bunch.weight, Finset.mul_sum]
  refine Finset.sum_congr rfl fun j hj => ?_
  rw [hm i hi j (Finset.mem_range.mp hj)]
  ring

/-- **C22**, exactly when: the round trip holds for the bunches without energy spread
and for no other. -/
theorem alternative_roundtrip_iff (b : Bunch) (h : b.Forward) :
    AlternativeRoundTrip b ↔ ∀ i < b.n, ∀ j < b.n, (b.ph i).gamma = (b.ph j).gamma := by
  refine ⟨fun hr i hi j hj => ?_, alternative_roundtrip_partial b h⟩
  rw [(alternative_particle_iff b h i hi).mp (hr i hi),
    (alternative_particle_iff b h j hj).mp (hr j hj)]

theorem sample_forward (z : Option ℝ) : (sample z).Forward := by
  refine ⟨by simp [sample, init], fun i _ => ?_⟩
  simp only [sample, init]
  constructor <;> positivity

/-- **C22** is violated: two electrons with different energies. -/
theorem alternative_roundtrip_fails : ∃ b : Bunch, b.Forward ∧ ¬ AlternativeRoundTrip b := by
  refine ⟨sample none, sample_forward _, ?_⟩
  rw [alternative_roundtrip_iff _ (sample_forward _)]
  intro h
  have h := congrArg (· ^ 2) (h 0 (by simp [sample, init]) 1 (by simp [sample, init]))
  simp only [gamma_sq] at h
  norm_num [sample, init] at h

/-- Non-vacuity of the partial theorem: two particles with the same energy and
different directions. -/
example : ∃ b : Bunch, b.Forward ∧ b.n = 2 ∧
    (∀ i < b.n, ∀ j < b.n, (b.ph i).gamma = (b.ph j).gamma) ∧ b.ph 0 ≠ b.ph 1 := by
  refine ⟨{ sample none with ph := fun i => if i = 0 then ⟨0, 0, 0, 3, 0, 4⟩ else ⟨0, 0, 0, 0, 4, 3⟩ },
    ⟨by simp [sample, init], fun i _ => ?_⟩, rfl, fun i _ j _ => ?_, ?_⟩
  · simp only [sample, init]
    split_ifs <;> norm_num
  · simp only [Push.Ph.gamma]
    split_ifs <;> norm_num
  · simp

end WakeT.Bunch
