import Verif.BunchGen.Props
import Mathlib.Analysis.SpecialFunctions.Trigonometric.Basic
import Mathlib.Analysis.SpecialFunctions.Trigonometric.Deriv
import Mathlib.Analysis.Calculus.MeanValue

/-! # Matched bunches (C155) -/

set_option linter.unusedSectionVars false

namespace WakeT.BunchGen

open WakeT.Bunch WakeT.Push

/-- `get_matched_bunch` with the call of `ge.matched_plasma_beta_function` (bunch_generation.py 183-249).
`betaFn` is this external function (aptools) of the energy, the density in cm^-3 (243-244) and
the focusing gradient; the species is not among its arguments (245). -/
noncomputable def getMatched (betaFn : ℝ → Option ℝ → Option ℝ → ℝ) (nP kX : Option ℝ) (enX enY ene qTot : ℝ) (nPart : ℕ)
    (xOff yOff thetaX thetaY : ℝ) (rnd : ℕ → Rnd) (name : Option String) (qSpecies mSpecies : ℝ) (nUnnamed : ℕ) : Bunch × ℕ :=
  let nP := nP.map fun n => n * (1 / 10 ^ 6)
  let bM := betaFn ene nP kX
  matched bM enX enY ene qTot nPart xOff yOff thetaX thetaY rnd name qSpecies mSpecies nUnnamed

/-! ### Specification -/

/-- The betatron oscillation of a particle of constant energy: position and slope along the
propagation distance `s`, for the focusing strength `κ`. -/
def Oscillates (κ : ℝ) (x x' : ℝ → ℝ) : Prop :=
  ∀ s, HasDerivAt x (x' s) s ∧ HasDerivAt x' (-κ * x s) s

/-- Positions and slopes are matched: the mean square of the positions does not change along the
propagation.  `E` is the average over the particles. -/
def Matched (E : (ℕ → ℝ) →ₗ[ℝ] ℝ) (κ : ℝ) (x xp : ℕ → ℝ) : Prop :=
  ∀ X X' : ℕ → ℝ → ℝ, (∀ i, Oscillates κ (X i) (X' i) ∧ X i 0 = x i ∧ X' i 0 = xp i) →
    ∀ s, E (fun i => X i s ^ 2) = E fun i => x i ^ 2

/-- The focusing strength for particles of charge `q`, mass `m` and momentum `ene` in units of `m c`,
in transverse fields of gradient `g` (T/m). -/
noncomputable def strength (c q m ene g : ℝ) : ℝ := -(q * g) / (ene * (m * c))

/-- The random numbers of a plane are standard and uncorrelated. -/
structure Standard (E : (ℕ → ℝ) →ₗ[ℝ] ℝ) (u v : ℕ → ℝ) : Prop where
  uu : E (fun i => u i ^ 2) = 1
  vv : E (fun i => v i ^ 2) = 1
  uv : E (fun i => u i * v i) = 0

/-! ### Oscillations -/

/-- The solution. -/
noncomputable def swing (w x xp s : ℝ) : ℝ := x * Real.cos (w * s) + xp / w * Real.sin (w * s)

noncomputable def swing' (w x xp s : ℝ) : ℝ := -(w * x) * Real.sin (w * s) + xp * Real.cos (w * s)

theorem swing_oscillates {w : ℝ} (hw : 0 < w) (x xp : ℝ) : Oscillates (w ^ 2) (swing w x xp) (swing' w x xp) := by
  intro s
  have hl : HasDerivAt (fun s => w * s) w s := by simpa using (hasDerivAt_id s).const_mul w
  have hc := hl.cos
  have hs := hl.sin
  constructor
  · refine ((hc.const_mul x).add (hs.const_mul (xp / w))).congr_deriv ?_
    unfold swing'
    field_simp
  · refine ((hs.const_mul (-(w * x))).add (hc.const_mul xp)).congr_deriv ?_
    unfold swing
    field_simp
    ring

theorem swing_unique {w : ℝ} (hw : 0 < w) {X X' : ℝ → ℝ} (h : Oscillates (w ^ 2) X X') (s : ℝ) :
    X s = swing w (X 0) (X' 0) s := by
  have h2 := swing_oscillates hw (X 0) (X' 0)
  let D : ℝ → ℝ := fun s => (X' s - swing' w (X 0) (X' 0) s) ^ 2 + w ^ 2 * (X s - swing w (X 0) (X' 0) s) ^ 2
  have hD : ∀ s, HasDerivAt D 0 s := by
    intro s
    have a := ((h s).1.sub (h2 s).1).pow 2
    have b := ((h s).2.sub (h2 s).2).pow 2
    refine (b.add (a.const_mul (w ^ 2))).congr_deriv ?_
    simp only [Pi.sub_apply]
    push_cast
    ring
  have hc : D s = D 0 := is_const_of_deriv_eq_zero (fun s => (hD s).differentiableAt) (fun s => (hD s).deriv) s 0
  have h0 : D 0 = 0 := by
    simp [D, swing, swing']
  rw [h0] at hc
  have hp : 0 < w ^ 2 := by positivity
  have h3 : w ^ 2 * (X s - swing w (X 0) (X' 0) s) ^ 2 = 0 := by
    have e1 := sq_nonneg (X' s - swing' w (X 0) (X' 0) s)
    have e2 := mul_nonneg hp.le (sq_nonneg (X s - swing w (X 0) (X' 0) s))
    have : (X' s - swing' w (X 0) (X' 0) s) ^ 2 + w ^ 2 * (X s - swing w (X 0) (X' 0) s) ^ 2 = 0 := hc
    linarith
  rcases mul_eq_zero.mp h3 with h4 | h4
  · exact absurd h4 hp.ne'
  · exact sub_eq_zero.mp (pow_eq_zero_iff two_ne_zero |>.mp h4)

/-- A waist with beta function `b` is matched exactly if `b^2 κ = 1`. -/
theorem waist_matched {E : (ℕ → ℝ) →ₗ[ℝ] ℝ} {u v : ℕ → ℝ} (h : Standard E u v) {a em κ : ℝ} (ha : 0 < a) (he : 0 < em)
    (hκ : 0 < κ) : Matched E κ (fun i => a * u i) (fun i => em / a * v i) ↔ κ * a ^ 4 = em ^ 2 := by
  obtain ⟨w, hw, rfl⟩ : ∃ w, 0 < w ∧ κ = w ^ 2 := ⟨√κ, Real.sqrt_pos.mpr hκ, (Real.sq_sqrt hκ.le).symm⟩
  have key : ∀ s, E (fun i => swing w (a * u i) (em / a * v i) s ^ 2) =
      a ^ 2 * Real.cos (w * s) ^ 2 + (em / (a * w)) ^ 2 * Real.sin (w * s) ^ 2 := by
    intro s
    have : (fun i => swing w (a * u i) (em / a * v i) s ^ 2) =
        (a ^ 2 * Real.cos (w * s) ^ 2) • (fun i => u i ^ 2) +
        (2 * (em / w) * Real.cos (w * s) * Real.sin (w * s)) • (fun i => u i * v i) +
        ((em / (a * w)) ^ 2 * Real.sin (w * s) ^ 2) • (fun i => v i ^ 2) := by
      funext i
      simp only [swing, Pi.add_apply, Pi.smul_apply, smul_eq_mul]
      field_simp
      ring
    rw [this, map_add, map_add, map_smul, map_smul, map_smul, h.uu, h.uv, h.vv]
    simp
  have h0 : E (fun i => (a * u i) ^ 2) = a ^ 2 := by
    have : (fun i => (a * u i) ^ 2) = (a ^ 2) • fun i => u i ^ 2 := by
      funext i
      simp only [Pi.smul_apply, smul_eq_mul]
      ring
    rw [this, map_smul, h.uu]
    simp
  have hiff : w ^ 2 * a ^ 4 = em ^ 2 ↔ (em / (a * w)) ^ 2 = a ^ 2 := by
    rw [div_pow, div_eq_iff (by positivity)]
    constructor <;> intro h <;> linarith
  rw [hiff]
  constructor
  · intro hm
    have h1 := hm (fun i => swing w (a * u i) (em / a * v i)) (fun i => swing' w (a * u i) (em / a * v i))
      (fun i => ⟨swing_oscillates hw _ _, by simp [swing], by simp [swing']⟩) (Real.pi / 2 / w)
    rw [key, h0, show w * (Real.pi / 2 / w) = Real.pi / 2 by field_simp, Real.cos_pi_div_two, Real.sin_pi_div_two] at h1
    linarith
  · intro hm X X' hX s
    have : (fun i => X i s ^ 2) = fun i => swing w (a * u i) (em / a * v i) s ^ 2 := by
      funext i
      obtain ⟨h1, h2, h3⟩ := hX i
      rw [swing_unique hw h1, h2, h3]
    rw [this, key, hm, h0, ← mul_add, Real.cos_sq_add_sin_sq, mul_one]

/-! ### The generated bunch -/

/-- Positions and slopes of the generated particles. -/
theorem getMatched_particles {betaFn : ℝ → Option ℝ → Option ℝ → ℝ} {nP kX : Option ℝ} {enX enY ene : ℝ} (qTot : ℝ) (nPart : ℕ)
    {rnd : ℕ → Rnd} (name : Option String) (q m : ℝ) (nU : ℕ) (he : 0 < ene) (hx : 0 < enX) (hy : 0 < enY)
    (hb : 0 < betaFn ene (nP.map fun n => n * (1 / 10 ^ 6)) kX) (hz : ∀ i, (rnd i).pz ≠ 0) (i : ℕ) :
    let b := (getMatched betaFn nP kX enX enY ene qTot nPart 0 0 0 0 rnd name q m nU).1
    let bM := betaFn ene (nP.map fun n => n * (1 / 10 ^ 6)) kX
    (b.ph i).x = √(enX * bM / ene) * (rnd i).ux ∧ (b.ph i).px / (b.ph i).pz = enX / ene / √(enX * bM / ene) * (rnd i).vx ∧
    (b.ph i).y = √(enY * bM / ene) * (rnd i).uy ∧ (b.ph i).py / (b.ph i).pz = enY / ene / √(enY * bM / ene) * (rnd i).vy := by
  intro b bM
  have h := (matched_bunch bM enX enY ene qTot nPart 0 0 0 0 rnd name q m nU he hx hy hb i).2
  have hb' : b = (matched bM enX enY ene qTot nPart 0 0 0 0 rnd name q m nU).1 := rfl
  rw [← hb'] at h
  rw [h]
  have hzi := hz i
  refine ⟨by simp, ?_, by simp, ?_⟩
  · simp only [zero_mul, add_zero]
    rw [mul_div_assoc, div_self hzi, mul_one, div_div]
  · simp only [zero_mul, add_zero]
    rw [mul_div_assoc, div_self hzi, mul_one, div_div]

/-- The generated bunch keeps its size in focusing fields of gradient `g` exactly if the beta
function returned by aptools is the matched one of this species. -/
theorem getMatched_iff {E : (ℕ → ℝ) →ₗ[ℝ] ℝ} {betaFn : ℝ → Option ℝ → Option ℝ → ℝ} {nP kX : Option ℝ} {enX enY ene : ℝ}
    (qTot : ℝ) (nPart : ℕ) {rnd : ℕ → Rnd} (name : Option String) {c q m g : ℝ} (nU : ℕ) (he : 0 < ene) (hx : 0 < enX)
    (hy : 0 < enY) (hb : 0 < betaFn ene (nP.map fun n => n * (1 / 10 ^ 6)) kX) (hz : ∀ i, (rnd i).pz ≠ 0)
    (hk : 0 < strength c q m ene g)
    (h1 : Standard E (fun i => (rnd i).ux) fun i => (rnd i).vx) (h2 : Standard E (fun i => (rnd i).uy) fun i => (rnd i).vy) :
    let b := (getMatched betaFn nP kX enX enY ene qTot nPart 0 0 0 0 rnd name q m nU).1
    let bM := betaFn ene (nP.map fun n => n * (1 / 10 ^ 6)) kX
    (Matched E (strength c q m ene g) (fun i => (b.ph i).x) (fun i => (b.ph i).px / (b.ph i).pz) ↔
      bM ^ 2 * strength c q m ene g = 1) ∧
    (Matched E (strength c q m ene g) (fun i => (b.ph i).y) (fun i => (b.ph i).py / (b.ph i).pz) ↔
      bM ^ 2 * strength c q m ene g = 1) := by
  intro b bM
  have hp := getMatched_particles (enX := enX) (enY := enY) qTot nPart name q m nU he hx hy hb hz
  have e1 : (fun i => (b.ph i).x) = fun i => √(enX * bM / ene) * (rnd i).ux := funext fun i => (hp i).1
  have e2 : (fun i => (b.ph i).px / (b.ph i).pz) = fun i => enX / ene / √(enX * bM / ene) * (rnd i).vx :=
    funext fun i => (hp i).2.1
  have e3 : (fun i => (b.ph i).y) = fun i => √(enY * bM / ene) * (rnd i).uy := funext fun i => (hp i).2.2.1
  have e4 : (fun i => (b.ph i).py / (b.ph i).pz) = fun i => enY / ene / √(enY * bM / ene) * (rnd i).vy :=
    funext fun i => (hp i).2.2.2
  have fin : ∀ en : ℝ, 0 < en → (strength c q m ene g * √(en * bM / ene) ^ 4 = (en / ene) ^ 2 ↔
      bM ^ 2 * strength c q m ene g = 1) := by
    intro en hen
    have hq : √(en * bM / ene) ^ 4 = (en / ene) ^ 2 * bM ^ 2 := by
      rw [show (4 : ℕ) = 2 * 2 from rfl, pow_mul, Real.sq_sqrt (by positivity)]
      ring
    have hp : (en / ene) ^ 2 ≠ 0 := by positivity
    rw [hq, show strength c q m ene g * ((en / ene) ^ 2 * bM ^ 2) = (en / ene) ^ 2 * (bM ^ 2 * strength c q m ene g) by ring]
    exact mul_eq_left₀ hp
  rw [e1, e2, e3, e4]
  exact ⟨(waist_matched h1 (Real.sqrt_pos.mpr (by positivity)) (by positivity) hk).trans (fin enX hx),
    (waist_matched h2 (Real.sqrt_pos.mpr (by positivity)) (by positivity) hk).trans (fin enY hy)⟩

/-- **C155** (partial).  A matched bunch of electrons: if aptools returns the matched beta function
of electrons in the focusing fields `g`, the generated bunch keeps its size in both planes.

Missing: other species.  The claim is that a bunch of any species is matched, see
`matched_violated`. -/
theorem matched_partial {E : (ℕ → ℝ) →ₗ[ℝ] ℝ} {betaFn : ℝ → Option ℝ → Option ℝ → ℝ} {nP kX : Option ℝ} {enX enY ene : ℝ}
    (qTot : ℝ) (nPart : ℕ) {rnd : ℕ → Rnd} (name : Option String) {c e mE g : ℝ} (nU : ℕ) (he : 0 < ene) (hx : 0 < enX)
    (hy : 0 < enY) (hc : 0 < c) (hm : 0 < mE) (heg : 0 < e * g) (hz : ∀ i, (rnd i).pz ≠ 0)
    (hbeta : betaFn ene (nP.map fun n => n * (1 / 10 ^ 6)) kX = √(ene * mE * c / (e * g)))
    (h1 : Standard E (fun i => (rnd i).ux) fun i => (rnd i).vx) (h2 : Standard E (fun i => (rnd i).uy) fun i => (rnd i).vy) :
    let b := (getMatched betaFn nP kX enX enY ene qTot nPart 0 0 0 0 rnd name (-e) mE nU).1
    Matched E (strength c (-e) mE ene g) (fun i => (b.ph i).x) (fun i => (b.ph i).px / (b.ph i).pz) ∧
    Matched E (strength c (-e) mE ene g) (fun i => (b.ph i).y) (fun i => (b.ph i).py / (b.ph i).pz) := by
  intro b
  have hs : strength c (-e) mE ene g = e * g / (ene * (mE * c)) := by
    unfold strength
    ring
  have hk : 0 < strength c (-e) mE ene g := by
    rw [hs]
    positivity
  have hb : 0 < betaFn ene (nP.map fun n => n * (1 / 10 ^ 6)) kX := by
    rw [hbeta]
    exact Real.sqrt_pos.mpr (by positivity)
  have h := getMatched_iff (E := E) (enX := enX) (enY := enY) qTot nPart name nU he hx hy hb hz hk h1 h2
  have hq : betaFn ene (nP.map fun n => n * (1 / 10 ^ 6)) kX ^ 2 * strength c (-e) mE ene g = 1 := by
    rw [hbeta, Real.sq_sqrt (by positivity), hs]
    have h0 := heg.ne'
    generalize e * g = a at h0
    field_simp
  exact ⟨h.1.mpr hq, h.2.mpr hq⟩

/-- **C155** (violation).  Whatever function of energy, density and gradient aptools uses: of two
species with the same charge and different masses, at most one is matched. -/
theorem matched_violated {E : (ℕ → ℝ) →ₗ[ℝ] ℝ} (betaFn : ℝ → Option ℝ → Option ℝ → ℝ) (nP kX : Option ℝ) {enX enY ene : ℝ}
    (qTot : ℝ) (nPart : ℕ) {rnd : ℕ → Rnd} (name : Option String) {c q m m' g : ℝ} (nU : ℕ) (he : 0 < ene) (hx : 0 < enX)
    (hy : 0 < enY) (hc : 0 < c) (hm : 0 < m) (hm' : 0 < m') (hmm : m ≠ m') (hqg : q * g < 0) (hz : ∀ i, (rnd i).pz ≠ 0)
    (hb : 0 < betaFn ene (nP.map fun n => n * (1 / 10 ^ 6)) kX)
    (h1 : Standard E (fun i => (rnd i).ux) fun i => (rnd i).vx) (h2 : Standard E (fun i => (rnd i).uy) fun i => (rnd i).vy) :
    let b := (getMatched betaFn nP kX enX enY ene qTot nPart 0 0 0 0 rnd name q m nU).1
    let b' := (getMatched betaFn nP kX enX enY ene qTot nPart 0 0 0 0 rnd name q m' nU).1
    ¬ (Matched E (strength c q m ene g) (fun i => (b.ph i).x) (fun i => (b.ph i).px / (b.ph i).pz) ∧
      Matched E (strength c q m' ene g) (fun i => (b'.ph i).x) (fun i => (b'.ph i).px / (b'.ph i).pz)) := by
  rintro b b' ⟨g1, g2⟩
  have hk : ∀ μ : ℝ, 0 < μ → 0 < strength c q μ ene g := by
    intro μ hμ
    unfold strength
    have : 0 < -(q * g) := by linarith
    positivity
  have f1 := (getMatched_iff (E := E) (enX := enX) (enY := enY) qTot nPart name nU he hx hy hb hz (hk m hm) h1 h2).1.mp g1
  have f2 := (getMatched_iff (E := E) (enX := enX) (enY := enY) qTot nPart name nU he hx hy hb hz (hk m' hm') h1 h2).1.mp g2
  have f3 := mul_left_cancel₀ (pow_ne_zero 2 hb.ne') (f1.trans f2.symm)
  unfold strength at f3
  have hq0 : -(q * g) ≠ 0 := by linarith
  rw [div_eq_div_iff (by positivity) (by positivity)] at f3
  have f4 := mul_left_cancel₀ hq0 f3
  have f5 := mul_left_cancel₀ he.ne' f4
  exact hmm (mul_right_cancel₀ hc.ne' f5).symm

/-- The assumptions hold for a bunch of four particles, with positive and negative slopes on
both sides of the axis. -/
example : ∃ (E : (ℕ → ℝ) →ₗ[ℝ] ℝ) (rnd : ℕ → Rnd), (∀ i, (rnd i).pz ≠ 0) ∧
    Standard E (fun i => (rnd i).ux) (fun i => (rnd i).vx) ∧ Standard E (fun i => (rnd i).uy) (fun i => (rnd i).vy) := by
  refine ⟨{ toFun := fun f => (f 0 + f 1 + f 2 + f 3) / 4
            map_add' := by intro f g; simp only [Pi.add_apply]; ring
            map_smul' := by intro c f; simp only [Pi.smul_apply, smul_eq_mul, RingHom.id_apply]; ring },
    fun i => ⟨if i < 2 then 1 else -1, if i % 2 = 0 then 1 else -1, if i < 2 then 1 else -1, if i % 2 = 0 then 1 else -1, 0,
      1000⟩, fun i => by norm_num, ?_, ?_⟩ <;> constructor <;> norm_num

end WakeT.BunchGen
