import Verif.Stage.Model
import Verif.Base.Tactics
import Mathlib.Analysis.SpecialFunctions.Exp
import Mathlib.Order.Monotone.Basic

/-! # Properties of ramps and automatic time steps (C46, C47) -/

set_option linter.unusedSectionVars false

namespace WakeT.Stage

open Bunch (Bunch)
open CSR (linspace)

/-! ### C46 -/

/-- A density profile that decreases strictly from `top`, is positive, and is `down` at
`pos`. -/
structure Downramp (n : ℝ → ℝ) (top : ℝ) : Prop where
  top : n 0 = top
  pos : ∀ z, 0 ≤ z → 0 < n z
  anti : StrictAntiOn n (Set.Ici 0)

theorem inverseSquare_downramp {a : Args} (ht : 0 < a.top)
    (hl : 0 < a.decayLength.getD (a.position / (√(a.top / a.down) - 1))) : Downramp (inverseSquare a) a.top := by
  unfold inverseSquare
  dsimp only
  generalize a.decayLength.getD (a.position / (√(a.top / a.down) - 1)) = l at *
  have hp : ∀ z, 0 ≤ z → 0 < 1 + z / l := fun z hz => by positivity
  refine ⟨by simp, fun z hz => by have := hp z hz; positivity, ?_⟩
  intro x hx y hy hxy
  dsimp only
  have h1 := hp x hx
  apply div_lt_div_of_pos_left ht (by positivity)
  have : x / l < y / l := div_lt_div_of_pos_right hxy hl
  exact pow_lt_pow_left₀ (by linarith) h1.le (by norm_num)

theorem exponential_downramp {a : Args} (ht : 0 < a.top)
    (hl : 0 < a.decayLength.getD (a.position / Real.log (a.top / a.down))) : Downramp (exponential a) a.top := by
  unfold exponential
  dsimp only
  generalize a.decayLength.getD (a.position / Real.log (a.top / a.down)) = l at *
  refine ⟨by simp, fun z _ => by positivity, ?_⟩
  intro x _ y _ hxy
  dsimp only
  apply mul_lt_mul_of_pos_left _ ht
  rw [Real.exp_lt_exp]
  exact div_lt_div_of_pos_right (by linarith) hl

theorem gaussian_downramp {a : Args} (ht : 0 < a.top)
    (hl : 0 < a.decayLength.getD (a.position / √(2 * Real.log (a.top / a.down)))) :
    Downramp (gaussian a) a.top := by
  unfold gaussian
  dsimp only
  generalize a.decayLength.getD (a.position / √(2 * Real.log (a.top / a.down))) = l at *
  refine ⟨by simp, fun z _ => by positivity, ?_⟩
  intro x hx y _ hxy
  dsimp only
  apply mul_lt_mul_of_pos_left _ ht
  rw [Real.exp_lt_exp]
  apply div_lt_div_of_pos_right _ (by positivity)
  have := pow_lt_pow_left₀ hxy hx (n := 2) (by norm_num)
  linarith

/-- The derived decay lengths are positive, and the profiles have the value `down` at the
given position. -/
theorem derived {a : Args} (hd : 0 < a.down) (ht : a.down < a.top) (hp : 0 < a.position)
    (hn : a.decayLength = none) :
    (0 < a.decayLength.getD (a.position / (√(a.top / a.down) - 1)) ∧
      0 < a.decayLength.getD (a.position / Real.log (a.top / a.down)) ∧
      0 < a.decayLength.getD (a.position / √(2 * Real.log (a.top / a.down)))) ∧
    inverseSquare a a.position = a.down ∧ exponential a a.position = a.down ∧ gaussian a a.position = a.down := by
  have ht0 : 0 < a.top := hd.trans ht
  have hr : 1 < a.top / a.down := by rwa [one_lt_div hd]
  have hs : 0 < √(a.top / a.down) - 1 := by
    have : √1 < √(a.top / a.down) := Real.sqrt_lt_sqrt (by norm_num) hr
    rw [Real.sqrt_one] at this
    linarith
  have hlog : 0 < Real.log (a.top / a.down) := Real.log_pos hr
  have hs2 : 0 < √(2 * Real.log (a.top / a.down)) := Real.sqrt_pos.mpr (by positivity)
  simp only [hn, Option.getD_none]
  refine ⟨⟨by positivity, by positivity, by positivity⟩, ?_, ?_, ?_⟩
  · simp only [inverseSquare, hn, Option.getD_none]
    rw [div_div_cancel₀ hp.ne', add_sub_cancel, Real.sq_sqrt (by positivity), div_div_cancel₀ ht0.ne']
  · simp only [exponential, hn, Option.getD_none]
    rw [neg_div, div_div_cancel₀ hp.ne', Real.exp_neg, Real.exp_log (by positivity), inv_div,
      mul_div_cancel₀ _ ht0.ne']
  · simp only [gaussian, hn, Option.getD_none]
    have : -a.position ^ 2 / (2 * (a.position / √(2 * Real.log (a.top / a.down))) ^ 2) =
        -Real.log (a.top / a.down) := by
      rw [div_pow, Real.sq_sqrt (by positivity)]
      field_simp
    rw [this, Real.exp_neg, Real.exp_log (by positivity), inv_div, mul_div_cancel₀ _ ht0.ne']

/-- The names of the built-in profiles. -/
def Builtin (s : String) : Prop := s = "inverse_square" ∨ s = "exponential" ∨ s = "gaussian"

/-- A downramp decreases strictly from the top density; an upramp is its mirror image. -/
theorem ramp_shape {s : String} (hs : Builtin s) (L : ℝ) {dl : Option ℝ} {top down : ℝ} {pos : Option ℝ}
    (hd : 0 < down) (ht : down < top) (hp : 0 < pos.getD L) (hdl : ∀ l ∈ dl, 0 < l) :
    ∃ n nUp, ramp L s "downramp" dl top down pos = some n ∧ ramp L s "upramp" dl top down pos = some nUp ∧
      (∀ z, nUp z = n (L - z)) ∧ n 0 = top ∧ (∀ z, 0 ≤ z → 0 < n z) ∧ StrictAntiOn n (Set.Ici 0) ∧
      (dl = none → n (pos.getD L) = down ∧ ∀ z, 0 ≤ z → z ≤ pos.getD L → down ≤ n z ∧ n z ≤ top) := by
  have ht0 : 0 < top := hd.trans ht
  have bounds : ∀ n : ℝ → ℝ, Downramp n top → (dl = none → n (pos.getD L) = down) →
      (dl = none → n (pos.getD L) = down ∧ ∀ z, 0 ≤ z → z ≤ pos.getD L → down ≤ n z ∧ n z ≤ top) := by
    intro n hn h hnone
    refine ⟨h hnone, fun z hz hzp => ⟨?_, ?_⟩⟩
    · rw [← h hnone]
      exact hn.anti.antitoneOn hz hp.le hzp
    · rw [← hn.top]
      exact hn.anti.antitoneOn (Set.mem_Ici.mpr le_rfl) hz hz
  have len : ∀ d : ℝ, (dl = none → 0 < d) → 0 < dl.getD d := by
    intro d h
    cases dl with
    | none => exact h rfl
    | some l => exact hdl l rfl
  have hder : ∀ h : dl = none, _ := fun h => derived (a := ⟨dl, top, down, pos.getD L⟩) hd ht hp h
  rcases hs with rfl | rfl | rfl
  · refine ⟨inverseSquare ⟨dl, top, down, pos.getD L⟩, fun z => inverseSquare ⟨dl, top, down, pos.getD L⟩ (L - z),
      by simp [ramp, profiles], by simp [ramp, profiles], fun _ => rfl, ?_⟩
    have := inverseSquare_downramp (a := ⟨dl, top, down, pos.getD L⟩) ht0 (len _ fun h => by
      have := (hder h).1.1; rwa [h] at this)
    exact ⟨this.top, this.pos, this.anti, bounds _ this fun h => (hder h).2.1⟩
  · refine ⟨exponential ⟨dl, top, down, pos.getD L⟩, fun z => exponential ⟨dl, top, down, pos.getD L⟩ (L - z),
      by simp [ramp, profiles, List.lookup], by simp [ramp, profiles, List.lookup], fun _ => rfl, ?_⟩
    have := exponential_downramp (a := ⟨dl, top, down, pos.getD L⟩) ht0 (len _ fun h => by
      have := (hder h).1.2.1; rwa [h] at this)
    exact ⟨this.top, this.pos, this.anti, bounds _ this fun h => (hder h).2.2.1⟩
  · refine ⟨gaussian ⟨dl, top, down, pos.getD L⟩, fun z => gaussian ⟨dl, top, down, pos.getD L⟩ (L - z),
      by simp [ramp, profiles, List.lookup], by simp [ramp, profiles, List.lookup], fun _ => rfl, ?_⟩
    have := gaussian_downramp (a := ⟨dl, top, down, pos.getD L⟩) ht0 (len _ fun h => by
      have := (hder h).1.2.2; rwa [h] at this)
    exact ⟨this.top, this.pos, this.anti, bounds _ this fun h => (hder h).2.2.2⟩

example : Builtin "gaussian" ∧ (0 : ℝ) < 1 ∧ (1 : ℝ) < 10 ∧ 0 < (none : Option ℝ).getD 2 ∧ ∀ l ∈ (none : Option ℝ), 0 < l :=
  ⟨.inr (.inr rfl), by norm_num, by norm_num, by norm_num, by simp⟩

/-- Other profile names raise; other ramp types do not, and give a downramp. -/
theorem ramp_names (L : ℝ) (s t : String) (dl : Option ℝ) (top down : ℝ) (pos : Option ℝ) :
    (¬ Builtin s → ramp L s t dl top down pos = none) ∧
    (t ≠ "upramp" → ramp L s t dl top down pos = ramp L s "downramp" dl top down pos) := by
  constructor
  · intro h
    unfold Builtin at h
    push Not at h
    obtain ⟨h1, h2, h3⟩ := h
    unfold ramp profiles
    simp [List.lookup, h1, h2, h3, beq_eq_false_iff_ne.mpr h1, beq_eq_false_iff_ne.mpr h2,
      beq_eq_false_iff_ne.mpr h3]
  · intro h
    simp [ramp, h]

/-! ### C47 -/

/-- Angular betatron frequency of a particle in a focusing gradient `g` (in T/m):
`m γ x'' = - |q| c g x`. -/
noncomputable def betatron (c q m gamma g : ℝ) : ℝ := √(|q| * c * g / (m * gamma))

/-- Focusing gradient of an ion channel of density `n`. -/
noncomputable def channel (k : Const) (n : ℝ) : ℝ := k.e * n / (2 * k.eps0 * k.c)

/-- Lorentz factor of a particle. -/
noncomputable def gamma (b : Bunch) (i : ℕ) : ℝ :=
  √(1 + (b.ph i).px ^ 2 + (b.ph i).py ^ 2 + (b.ph i).pz ^ 2)

/-- The step resolves the motion of all particles in the gradient `g`, and is not smaller
than needed: it is exactly 0.1 of the inverse frequency for a particle that has
the smallest longitudinal momentum and no transverse one. -/
structure Resolves (k : Const) (b : Bunch) (g dt : ℝ) : Prop where
  pos : 0 < dt
  le : ∀ i < b.n, dt * betatron k.c b.qSpecies b.mSpecies (gamma b i) g ≤ 1 / 10
  sharp : ∀ i < b.n, (∀ j < b.n, (b.ph i).pz ≤ (b.ph j).pz) → (b.ph i).px = 0 → (b.ph i).py = 0 →
    dt * betatron k.c b.qSpecies b.mSpecies (gamma b i) g = 1 / 10

/-- Forward moving bunches with a charge. -/
structure Forward (b : Bunch) : Prop where
  n : 0 < b.n
  pz : ∀ i < b.n, 0 < (b.ph i).pz
  q : b.qSpecies ≠ 0
  m : 0 < b.mSpecies

theorem minGamma_spec {b : Bunch} (hb : Forward b) : ∃ p, minGamma b = some √(p ^ 2 + 1) ∧ 0 < p ∧
    (∀ i < b.n, p ≤ (b.ph i).pz) ∧ ∃ i < b.n, p = (b.ph i).pz := by
  have hne : ((List.range b.n).map fun i => (b.ph i).pz) ≠ [] := by
    have := hb.n
    simp [List.range_eq_nil]; omega
  obtain ⟨p, hp⟩ : ∃ p, ((List.range b.n).map fun i => (b.ph i).pz).min? = some p :=
    Option.isSome_iff_exists.mp (List.isSome_min?_of_ne_nil hne)
  have h := List.min?_eq_some_iff.mp hp
  obtain ⟨i, hi, rfl⟩ := List.mem_map.mp h.1
  rw [List.mem_range] at hi
  refine ⟨_, by unfold minGamma; rw [hp]; rfl, hb.pz i hi, ?_, i, hi, rfl⟩
  intro j hj
  exact h.2 _ (List.mem_map.mpr ⟨j, List.mem_range.mpr hj, rfl⟩)

/-- The step `0.1 / √|q / m * c * g / min_gamma|`. -/
theorem period_resolves {k : Const} (hk : k.Pos) {b : Bunch} (hb : Forward b) {g p : ℝ} (hg : 0 < g) (hp : 0 < p)
    (h1 : ∀ i < b.n, p ≤ (b.ph i).pz) (h2 : ∃ i < b.n, p = (b.ph i).pz) :
    ∃ dt, period √|b.qSpecies / b.mSpecies * k.c * g / √(p ^ 2 + 1)| = .finite dt ∧ Resolves k b g dt := by
  have hq : 0 < |b.qSpecies| := abs_pos.mpr hb.q
  have hm := hb.m
  have hc := hk.c
  have hG : 0 < √(p ^ 2 + 1) := Real.sqrt_pos.mpr (by positivity)
  have habs : |b.qSpecies / b.mSpecies * k.c * g / √(p ^ 2 + 1)| =
      |b.qSpecies| * k.c * g / (b.mSpecies * √(p ^ 2 + 1)) := by
    rw [abs_div, abs_mul, abs_mul, abs_div, abs_of_pos hm, abs_of_pos hc, abs_of_pos hg, abs_of_pos hG]
    field_simp
  have hw : 0 < √(|b.qSpecies| * k.c * g / (b.mSpecies * √(p ^ 2 + 1))) := Real.sqrt_pos.mpr (by positivity)
  rw [habs]
  refine ⟨_, by unfold period; rw [if_neg hw.ne'], by positivity, ?_, ?_⟩
  · intro i hi
    have hle : √(p ^ 2 + 1) ≤ gamma b i := by
      apply Real.sqrt_le_sqrt
      have := pow_le_pow_left₀ hp.le (h1 i hi) 2
      nlinarith [sq_nonneg (b.ph i).px, sq_nonneg (b.ph i).py]
    have : betatron k.c b.qSpecies b.mSpecies (gamma b i) g ≤
        √(|b.qSpecies| * k.c * g / (b.mSpecies * √(p ^ 2 + 1))) := by
      apply Real.sqrt_le_sqrt
      apply div_le_div_of_nonneg_left (by positivity) (by positivity)
      exact mul_le_mul_of_nonneg_left hle hm.le
    rw [mul_assoc, div_mul_eq_mul_div, one_mul]
    have h := (div_le_one hw).mpr this
    linarith
  · intro i hi hmin hx hy
    obtain ⟨j, hj, rfl⟩ := h2
    have hij : (b.ph i).pz = (b.ph j).pz := le_antisymm (hmin j hj) (h1 i hi)
    have : gamma b i = √((b.ph j).pz ^ 2 + 1) := by
      unfold gamma
      rw [hx, hy, hij]
      congr 1
      ring
    unfold betatron
    rw [this, mul_assoc, div_mul_cancel₀ _ hw.ne']
    norm_num

/-- The automatic step of a quadrupole or (without wakefields) of a plasma lens resolves
the motion of every particle. -/
theorem auto_dt_lens {k : Const} (hk : k.Pos) {b : Bunch} (hb : Forward b) {foc : ℝ} (hf : foc ≠ 0)
    (density : ℝ → ℝ) (L : ℝ) :
    ∃ dt, quadDt k foc b = .finite dt ∧ lensDt k false foc density L b = .finite dt ∧ Resolves k b |foc| dt := by
  obtain ⟨p, h1, h2, h3, h4⟩ := minGamma_spec hb
  obtain ⟨dt, h5, h6⟩ := period_resolves hk hb (abs_pos.mpr hf) h2 h3 h4
  have : quadDt k foc b = .finite dt := by
    unfold quadDt
    rw [h1, ← h5]
    dsimp only
    congr 2
    rw [abs_div, abs_mul, abs_div (_ * |foc|), abs_mul _ |foc|, abs_abs]
  exact ⟨dt, this, this, h6⟩

/-- Where a plasma stage looks at the density. -/
def Sampled (L z : ℝ) : Prop := ∃ j : ℕ, j < 100 ∧ z = j * (L / 99)

theorem sampled_max (density : ℝ → ℝ) (L : ℝ) :
    ∃ z, Sampled L z ∧ (((List.range 100).map fun j => density (linspace 0 L 100 j)).max?.getD 0) = density z ∧
      ∀ z', Sampled L z' → density z' ≤ density z := by
  have hl : ∀ j : ℕ, linspace 0 L 100 j = j * (L / 99) := by
    intro j
    unfold linspace
    rw [if_neg (by norm_num)]
    push_cast
    ring
  have hne : ((List.range 100).map fun j => density (linspace 0 L 100 j)) ≠ [] := by simp
  obtain ⟨p, hp⟩ : ∃ p, ((List.range 100).map fun j => density (linspace 0 L 100 j)).max? = some p :=
    Option.isSome_iff_exists.mp (List.isSome_max?_of_ne_nil hne)
  have h := List.max?_eq_some_iff.mp hp
  rw [hp, Option.getD_some]
  obtain ⟨j, hj, rfl⟩ := List.mem_map.mp h.1
  refine ⟨linspace 0 L 100 j, ⟨j, List.mem_range.mp hj, hl j⟩, rfl, ?_⟩
  rintro z' ⟨i, hi, rfl⟩
  rw [← hl i]
  exact h.2 _ (List.mem_map.mpr ⟨i, List.mem_range.mpr hi, rfl⟩)

theorem stageDt_eq {k : Const} (hk : k.Pos) {density : ℝ → ℝ} {L : ℝ} {b : Bunch} {p n : ℝ} (hn : 0 ≤ n)
    (h : minGamma b = some √(p ^ 2 + 1))
    (hmax : (((List.range 100).map fun j => density (linspace 0 L 100 j)).max?.getD 0) = n) :
    stageDt k density L b = period √|b.qSpecies / b.mSpecies * k.c * channel k n / √(p ^ 2 + 1)| := by
  have := hk.c
  have := hk.e
  have := hk.me
  have := hk.eps0
  unfold stageDt
  rw [h]
  dsimp only
  rw [hmax, Real.sq_sqrt (by positivity)]
  have : k.me / (2 * k.e * k.c) * (n * k.e ^ 2 / (k.me * k.eps0)) = channel k n := by
    unfold channel
    field_simp
  rw [this]

/-- Partial: the automatic step of a plasma stage resolves the motion of every particle at
every position where the density is not larger than at the 100 sampled positions; in
particular at all sampled positions.  Missing: other positions, where the claim fails
(`auto_dt_violated`), and lenses with wakefields (`auto_dt_lens_violated`). -/
theorem auto_dt_partial {k : Const} (hk : k.Pos) {b : Bunch} (hb : Forward b) {density : ℝ → ℝ} {L : ℝ}
    (hpos : ∃ z, Sampled L z ∧ 0 < density z) :
    ∃ dt zMax, stageDt k density L b = .finite dt ∧ Sampled L zMax ∧
      (∀ z, Sampled L z → density z ≤ density zMax) ∧ Resolves k b (channel k (density zMax)) dt ∧
      ∀ z, density z ≤ density zMax → ∀ i < b.n,
        dt * betatron k.c b.qSpecies b.mSpecies (gamma b i) (channel k (density z)) ≤ 1 / 10 := by
  obtain ⟨zMax, hs, hmax, hle⟩ := sampled_max density L
  obtain ⟨z0, hz0, hz0p⟩ := hpos
  have hn : 0 < density zMax := lt_of_lt_of_le hz0p (hle z0 hz0)
  obtain ⟨p, h1, h2, h3, h4⟩ := minGamma_spec hb
  have hc := hk.c
  have he := hk.e
  have hme := hk.me
  have heps := hk.eps0
  have hg : 0 < channel k (density zMax) := by unfold channel; positivity
  obtain ⟨dt, h5, h6⟩ := period_resolves hk hb hg h2 h3 h4
  refine ⟨dt, zMax, by rw [stageDt_eq hk hn.le h1 hmax, h5], hs, hle, h6, ?_⟩
  intro z hz i hi
  refine le_trans (mul_le_mul_of_nonneg_left ?_ h6.pos.le) (h6.le i hi)
  have hm := hb.m
  have hgam : 0 ≤ gamma b i := Real.sqrt_nonneg _
  apply Real.sqrt_le_sqrt
  apply div_le_div_of_nonneg_right _ (by positivity)
  apply mul_le_mul_of_nonneg_left _ (by positivity)
  unfold channel
  apply div_le_div_of_nonneg_right _ (by positivity)
  exact mul_le_mul_of_nonneg_left hz he.le

/-- For a density that is monotonic along the stage (in particular constant ones and ramps)
the step resolves the motion everywhere in the stage. -/
theorem auto_dt_monotone {k : Const} (hk : k.Pos) {b : Bunch} (hb : Forward b) {density : ℝ → ℝ} {L : ℝ}
    (hL : 0 < L) (hpos : ∀ z ∈ Set.Icc 0 L, 0 < density z)
    (hmono : AntitoneOn density (Set.Icc 0 L) ∨ MonotoneOn density (Set.Icc 0 L)) :
    ∃ dt, stageDt k density L b = .finite dt ∧ 0 < dt ∧ ∀ z ∈ Set.Icc 0 L, ∀ i < b.n,
      dt * betatron k.c b.qSpecies b.mSpecies (gamma b i) (channel k (density z)) ≤ 1 / 10 := by
  have h0 : (0 : ℝ) ∈ Set.Icc 0 L := ⟨le_rfl, hL.le⟩
  have hL' : L ∈ Set.Icc 0 L := ⟨hL.le, le_rfl⟩
  have hs0 : Sampled L 0 := ⟨0, by norm_num, by simp⟩
  have hsL : Sampled L L := ⟨99, by norm_num, by push_cast; field_simp⟩
  obtain ⟨dt, zMax, h1, -, hle, h3, h4⟩ := auto_dt_partial hk hb ⟨0, hs0, hpos 0 h0⟩
  refine ⟨dt, h1, h3.pos, ?_⟩
  intro z hz i hi
  apply h4 z _ i hi
  rcases hmono with h | h
  · exact (h h0 hz hz.1).trans (hle 0 hs0)
  · exact (h hz hL' hz.2).trans (hle L hsL)

/-- A particle moving along the axis. -/
noncomputable def axial : Bunch :=
  (Bunch.init 1 (fun _ => 1) (fun _ => ⟨0, 0, 0, 0, 0, 100⟩) none 0 0 none (some "b") (-1) 1 0).1

theorem axial_forward : Forward axial :=
  ⟨by norm_num [axial, Bunch.init], fun i _ => by norm_num [axial, Bunch.init], by norm_num [axial, Bunch.init],
    by norm_num [axial, Bunch.init]⟩

/-- A downramp meets the hypotheses. -/
example : ∃ n, ramp 2 "gaussian" "downramp" none 10 1 none = some n ∧ (∀ z ∈ Set.Icc (0 : ℝ) 2, 0 < n z) ∧
    AntitoneOn n (Set.Icc 0 2) := by
  obtain ⟨n, -, h, -, -, -, h2, h3, -⟩ := ramp_shape (s := "gaussian") (.inr (.inr rfl)) 2 (dl := none) (top := 10)
    (down := 1) (pos := none) (by norm_num) (by norm_num) (by norm_num) (by simp)
  exact ⟨n, h, fun z hz => h2 z hz.1, h3.antitoneOn.mono fun z hz => hz.1⟩

theorem betatron_four {c q m g G : ℝ} : betatron c q m g (4 * G) = 2 * betatron c q m g G := by
  unfold betatron
  rw [show |q| * c * (4 * G) / (m * g) = 2 ^ 2 * (|q| * c * G / (m * g)) by ring,
    Real.sqrt_mul (by norm_num), Real.sqrt_sq (by norm_num)]

/-- The claim fails for a continuous density with a maximum between the samples. -/
theorem auto_dt_violated {k : Const} (hk : k.Pos) : ∃ (density : ℝ → ℝ) (z dt : ℝ), Continuous density ∧
    (∀ z, 0 < density z) ∧ z ∈ Set.Icc (0 : ℝ) 1 ∧ stageDt k density 1 axial = .finite dt ∧
    dt * betatron k.c axial.qSpecies axial.mSpecies (gamma axial 0) (channel k (density z)) = 2 / 10 := by
  have hd : ∀ z, Sampled 1 z → 1 + 3 * max 0 (1 - |z - 1 / 198| * 198) = (1 : ℝ) := by
    rintro z ⟨j, -, rfl⟩
    have : max 0 (1 - |(j : ℝ) * (1 / 99) - 1 / 198| * 198) = 0 := by
      apply max_eq_left
      rcases Nat.eq_zero_or_pos j with rfl | hj
      · norm_num [abs_of_nonneg]
      · have hj' : (1 : ℝ) ≤ j := by exact_mod_cast hj
        rw [abs_of_nonneg (by linarith)]
        linarith
    rw [this]
    norm_num
  have hpos : ∀ z : ℝ, 0 < 1 + 3 * max 0 (1 - |z - 1 / 198| * 198) := fun z => by
    have := le_max_left 0 (1 - |z - 1 / 198| * 198)
    linarith
  obtain ⟨dt, zMax, h1, h2, -, h3, -⟩ := auto_dt_partial hk axial_forward
    (density := fun z => 1 + 3 * max 0 (1 - |z - 1 / 198| * 198)) (L := 1) ⟨0, ⟨0, by norm_num, by simp⟩, hpos 0⟩
  refine ⟨_, 1 / 198, dt, by fun_prop, hpos, ⟨by norm_num, by norm_num⟩, h1, ?_⟩
  have h := h3.sharp 0 (by norm_num [axial, Bunch.init]) (fun j _ => by norm_num [axial, Bunch.init])
    (by norm_num [axial, Bunch.init]) (by norm_num [axial, Bunch.init])
  beta_reduce at h
  rw [hd zMax h2] at h
  have hc : channel k (1 + 3 * max 0 (1 - |(1 / 198 : ℝ) - 1 / 198| * 198)) = 4 * channel k 1 := by
    rw [sub_self, abs_zero, zero_mul, sub_zero, max_eq_right (by norm_num)]
    unfold channel
    ring
  beta_reduce
  rw [hc, betatron_four]
  linarith

/-- The claim fails for a plasma lens with wakefields: its own focusing is ignored. -/
theorem auto_dt_lens_violated {k : Const} (hk : k.Pos) {n : ℝ} (hn : 0 < n) : ∃ foc dt,
    lensDt k true foc (fun _ => n) 1 axial = .finite dt ∧
    dt * betatron k.c axial.qSpecies axial.mSpecies (gamma axial 0) foc = 2 / 10 := by
  obtain ⟨dt, zMax, h1, h2, -, h3, -⟩ := auto_dt_partial hk axial_forward
    (density := fun _ => n) (L := 1) ⟨0, ⟨0, by norm_num, by simp⟩, hn⟩
  refine ⟨4 * channel k n, dt, h1, ?_⟩
  have h := h3.sharp 0 (by norm_num [axial, Bunch.init]) (fun j _ => by norm_num [axial, Bunch.init])
    (by norm_num [axial, Bunch.init]) (by norm_num [axial, Bunch.init])
  rw [betatron_four]
  linarith

/-- The step takes the smallest longitudinal momentum with its sign: for a bunch that
contains a particle moving backwards it can be too large for the slowest particle. -/
theorem auto_dt_backward_violated {k : Const} (hk : k.Pos) : ∃ (b : Bunch) (dt : ℝ), b.n = 2 ∧
    quadDt k 1 b = .finite dt ∧ 1 < dt * betatron k.c b.qSpecies b.mSpecies (gamma b 1) 1 := by
  let b : Bunch := (Bunch.init 2 (fun _ => 1) (fun i => ⟨0, 0, 0, 0, 0, if i = 0 then -100000 else 0⟩) none 0 0
    none (some "b") (-1) 1 0).1
  have hc := hk.c
  have hmin : minGamma b = some √(100000 ^ 2 + 1) := by
    have : ((List.range b.n).map fun i => (b.ph i).pz) = [-100000, 0] := by
      simp [b, Bunch.init, List.range_succ]
    unfold minGamma
    rw [this]
    have h2 : ([-100000, 0] : List ℝ).min? = some (-100000) := by
      rw [List.min?_eq_some_iff]
      refine ⟨by simp, ?_⟩
      intro x hx
      simp only [List.mem_cons, List.not_mem_nil, or_false] at hx
      rcases hx with rfl | rfl <;> norm_num
    rw [h2]
    norm_num
  have hG : 0 < √((100000 : ℝ) ^ 2 + 1) := Real.sqrt_pos.mpr (by positivity)
  have hG2 : 100000 ≤ √((100000 : ℝ) ^ 2 + 1) := by
    apply Real.le_sqrt_of_sq_le
    linarith
  have hgam : gamma b 1 = 1 := by simp [gamma, b, Bunch.init]
  have hb : betatron k.c b.qSpecies b.mSpecies (gamma b 1) 1 = √k.c := by
    rw [hgam]
    simp [betatron, b, Bunch.init]
  have hs : 0 < √k.c := Real.sqrt_pos.mpr hc
  have hw : √|b.qSpecies / b.mSpecies * k.c * 1 / √((100000 : ℝ) ^ 2 + 1)| = √k.c / √(√((100000 : ℝ) ^ 2 + 1)) := by
    rw [← Real.sqrt_div' _ hG.le]
    congr 1
    have : b.qSpecies / b.mSpecies = -1 := by norm_num [b, Bunch.init]
    rw [this, mul_one, abs_div, abs_of_pos hG, neg_one_mul, abs_neg, abs_of_pos hc]
  have hGG : 0 < √(√((100000 : ℝ) ^ 2 + 1)) := Real.sqrt_pos.mpr hG
  refine ⟨b, 0.1 * (1 / (√k.c / √(√((100000 : ℝ) ^ 2 + 1)))), rfl, ?_, ?_⟩
  · unfold quadDt
    rw [hmin]
    dsimp only
    rw [hw]
    unfold period
    rw [if_neg (by positivity)]
  · rw [hb, one_div_div, mul_assoc, div_mul_cancel₀ _ hs.ne']
    have : (100 : ℝ) < √(√((100000 : ℝ) ^ 2 + 1)) := by
      apply Real.lt_sqrt_of_sq_lt
      linarith
    norm_num at this ⊢
    linarith

end WakeT.Stage
