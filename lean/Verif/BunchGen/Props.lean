import Verif.BunchGen.Model
import Mathlib.Algebra.Module.LinearMap.Basic

/-! # Properties of generated, loaded and saved bunches (C70, C71, C94) -/

set_option linter.unusedSectionVars false

namespace WakeT.BunchGen

open WakeT.Bunch WakeT.Push

/-! ### C70: charge -/

/-- **C70** (charge): the total charge of a generated bunch has the requested magnitude and the
sign of the species. -/
theorem twiss_charge (px py : Plane) (ene qTot : ℝ) (nPart : ℕ) (hn : 0 < nPart)
    (rnd : ℕ → Rnd) (name : Option String) (qs ms : ℝ) (hq : qs ≠ 0) (k : ℕ) :
    let b := (fromTwiss px py ene qTot nPart rnd name qs ms k).1
    ∑ i ∈ Finset.range b.n, b.q i = (if 0 < qs then 1 else -1) * (|qTot| * (1 / 10 ^ 12)) := by
  intro b
  have hnR : (0 : ℝ) < nPart := by exact_mod_cast hn
  have hb : ∀ i, b.q i = |1 * (qTot / 10 ^ 12) / ((nPart : ℝ) * qs)| * qs := fun i => rfl
  have hbn : b.n = nPart := rfl
  rw [hbn]
  simp only [hb, Finset.sum_const, Finset.card_range, nsmul_eq_mul]
  rw [one_mul, abs_div, abs_div, abs_mul, abs_of_pos hnR, abs_of_pos (show (0:ℝ) < 10 ^ 12 by norm_num)]
  have hq' : |qs| ≠ 0 := abs_ne_zero.mpr hq
  by_cases h : 0 < qs
  · rw [if_pos h, abs_of_pos h]; field_simp
  · have hneg : qs < 0 := lt_of_le_of_ne (not_lt.mp h) hq
    rw [if_neg h, abs_of_neg hneg]; field_simp

theorem size_charge (enX enY sX sY ene qTot : ℝ) (nPart : ℕ) (hn : 0 < nPart)
    (xOff yOff thetaX thetaY : ℝ) (rnd : ℕ → Rnd) (name : Option String) (qs ms : ℝ)
    (hq : qs ≠ 0) (k : ℕ) :
    let b := (fromSize enX enY sX sY ene qTot nPart xOff yOff thetaX thetaY rnd name qs ms k).1
    ∑ i ∈ Finset.range b.n, b.q i = (if 0 < qs then 1 else -1) * (|qTot| * (1 / 10 ^ 12)) :=
  twiss_charge _ _ ene qTot nPart hn rnd name qs ms hq k

/-! ### C70: moments -/

/-- The correlation coefficient used for sampling is between -1 and 1, so that its square root
is real; the variances are those of the Twiss parameters. -/
theorem plane_coefficients (p : Plane) (ene : ℝ) (he : 0 < ene) (hen : 0 < p.en) (hb : 0 < p.b) :
    let em := p.en / ene
    let s := √(em * p.b)
    let sp := √(em * ((1 + p.a ^ 2) / p.b))
    let rho := -p.a * em / (s * sp)
    0 < s ∧ 0 < sp ∧ s ^ 2 = em * p.b ∧ sp ^ 2 = em * ((1 + p.a ^ 2) / p.b) ∧
      s * sp * rho = -p.a * em ∧ rho ^ 2 < 1 := by
  intro em s sp rho
  have hem : 0 < em := div_pos hen he
  have h1 : 0 < em * p.b := mul_pos hem hb
  have h2 : 0 < em * ((1 + p.a ^ 2) / p.b) := by positivity
  have hs : 0 < s := Real.sqrt_pos.mpr h1
  have hsp : 0 < sp := Real.sqrt_pos.mpr h2
  have es : s ^ 2 = em * p.b := Real.sq_sqrt h1.le
  have esp : sp ^ 2 = em * ((1 + p.a ^ 2) / p.b) := Real.sq_sqrt h2.le
  have er : s * sp * rho = -p.a * em := by
    show s * sp * (-p.a * em / (s * sp)) = _
    field_simp
  refine ⟨hs, hsp, es, esp, er, ?_⟩
  have e2 : (s * sp) ^ 2 * rho ^ 2 = p.a ^ 2 * em ^ 2 := by rw [← mul_pow, er]; ring
  have e3 : (s * sp) ^ 2 = em ^ 2 * (1 + p.a ^ 2) := by rw [mul_pow, es, esp]; field_simp
  rw [e3] at e2
  have hp : 0 < em ^ 2 := by positivity
  have e4 : (1 + p.a ^ 2) * rho ^ 2 = p.a ^ 2 := by
    have : em ^ 2 * ((1 + p.a ^ 2) * rho ^ 2) = em ^ 2 * p.a ^ 2 := by linarith
    exact mul_left_cancel₀ hp.ne' this
  by_contra hc
  have : 1 ≤ rho ^ 2 := not_lt.mp hc
  nlinarith [sq_nonneg p.a]

/-- **C70** (Twiss parameters).  Let `E` be an average (any linear functional with `E 1 = 1`: the
expectation of the random numbers, or the mean over a finite sample) for which the random
numbers `u`, `v` are standard and uncorrelated.  Then the generated positions and slopes have
the requested mean, size, divergence and correlation; their emittance is the requested
one, and their alpha and beta are the requested ones. -/
theorem twiss_moments {Ω : Type} (E : (Ω → ℝ) →ₗ[ℝ] ℝ) (h1 : E (fun _ => 1) = 1) (u v : Ω → ℝ)
    (hu : E u = 0) (hv : E v = 0) (huu : E (fun ω => u ω ^ 2) = 1) (hvv : E (fun ω => v ω ^ 2) = 1)
    (huv : E (fun ω => u ω * v ω) = 0) (p : Plane) (ene : ℝ) (he : 0 < ene) (hen : 0 < p.en)
    (hb : 0 < p.b) :
    let x := fun ω => (p.sample ene (u ω) (v ω)).1
    let xp := fun ω => (p.sample ene (u ω) (v ω)).2
    let em := p.en / ene
    let sxx := E fun ω => (x ω - E x) ^ 2
    let sxp := E fun ω => (x ω - E x) * (xp ω - E xp)
    let spp := E fun ω => (xp ω - E xp) ^ 2
    E x = p.off ∧ E xp = 0 ∧ sxx = em * p.b ∧ sxp = -p.a * em ∧
      spp = em * ((1 + p.a ^ 2) / p.b) ∧ √(sxx * spp - sxp ^ 2) * ene = p.en ∧
      sxx / √(sxx * spp - sxp ^ 2) = p.b ∧ -sxp / √(sxx * spp - sxp ^ 2) = p.a := by
  intro x xp em sxx sxp spp
  obtain ⟨hs, hsp, es, esp, er, hr⟩ := plane_coefficients p ene he hen hb
  set s := √(p.en / ene * p.b) with hsdef
  set sp := √(p.en / ene * ((1 + p.a ^ 2) / p.b)) with hspdef
  set rho := -p.a * (p.en / ene) / (s * sp) with hrdef
  set t := √(1 - rho ^ 2) with htdef
  have ht : t ^ 2 = 1 - rho ^ 2 := Real.sq_sqrt (by linarith)
  have hx : x = s • u + p.off • (fun _ => (1 : ℝ)) := by
    funext ω; show s * u ω + p.off = s * u ω + p.off * 1; ring
  have hxp : xp = (sp * rho) • u + (sp * t) • v := by
    funext ω; show sp * (rho * u ω + t * v ω) = sp * rho * u ω + sp * t * v ω; ring
  have Ex : E x = p.off := by
    rw [hx, map_add, map_smul, map_smul, hu, h1]; simp
  have Exp : E xp = 0 := by
    rw [hxp, map_add, map_smul, map_smul, hu, hv]; simp
  have hsxx : sxx = em * p.b := by
    have : (fun ω => (x ω - E x) ^ 2) = (s ^ 2) • (fun ω => u ω ^ 2) := by
      funext ω
      rw [Ex]
      show (s * u ω + p.off - p.off) ^ 2 = s ^ 2 * u ω ^ 2
      ring
    show E _ = _
    rw [this, map_smul, huu, smul_eq_mul, mul_one, es]
  have hsxp : sxp = -p.a * em := by
    have : (fun ω => (x ω - E x) * (xp ω - E xp)) =
        (s * sp * rho) • (fun ω => u ω ^ 2) + (s * sp * t) • (fun ω => u ω * v ω) := by
      funext ω
      rw [Ex, Exp]
      show (s * u ω + p.off - p.off) * (sp * (rho * u ω + t * v ω) - 0) =
        s * sp * rho * u ω ^ 2 + s * sp * t * (u ω * v ω)
      ring
    show E _ = _
    rw [this, map_add, map_smul, map_smul, huu, huv, smul_eq_mul, mul_one, smul_zero, add_zero, er]
  have hspp : spp = em * ((1 + p.a ^ 2) / p.b) := by
    have : (fun ω => (xp ω - E xp) ^ 2) =
        (sp ^ 2 * rho ^ 2) • (fun ω => u ω ^ 2) + (2 * sp ^ 2 * rho * t) • (fun ω => u ω * v ω) +
          (sp ^ 2 * t ^ 2) • (fun ω => v ω ^ 2) := by
      funext ω
      rw [Exp]
      show (sp * (rho * u ω + t * v ω) - 0) ^ 2 =
        sp ^ 2 * rho ^ 2 * u ω ^ 2 + 2 * sp ^ 2 * rho * t * (u ω * v ω) + sp ^ 2 * t ^ 2 * v ω ^ 2
      ring
    show E _ = _
    rw [this, map_add, map_add, map_smul, map_smul, map_smul, huu, huv, hvv, smul_eq_mul, mul_one,
      smul_zero, add_zero, smul_eq_mul, mul_one, ← mul_add, ht, add_sub_cancel, mul_one, esp]
  have hem : 0 < em := div_pos hen he
  have hroot : √(sxx * spp - sxp ^ 2) = em := by
    rw [hsxx, hspp, hsxp]
    rw [show em * p.b * (em * ((1 + p.a ^ 2) / p.b)) - (-p.a * em) ^ 2 = em ^ 2 by field_simp; ring]
    exact Real.sqrt_sq hem.le
  refine ⟨Ex, Exp, hsxx, hsxp, hspp, ?_, ?_, ?_⟩
  · rw [hroot]; show p.en / ene * ene = p.en; field_simp
  · rw [hroot, hsxx]; field_simp
  · rw [hroot, hsxp]; field_simp

/-- **C70** (size): a bunch generated from its size has that size and no correlation (it is at a
waist), and the requested emittance. -/
theorem size_moments {Ω : Type} (E : (Ω → ℝ) →ₗ[ℝ] ℝ) (h1 : E (fun _ => 1) = 1) (u v : Ω → ℝ)
    (hu : E u = 0) (hv : E v = 0) (huu : E (fun ω => u ω ^ 2) = 1) (hvv : E (fun ω => v ω ^ 2) = 1)
    (huv : E (fun ω => u ω * v ω) = 0) (en sX ene off theta : ℝ) (he : 0 < ene) (hen : 0 < en)
    (hs : 0 < sX) :
    let p : Plane := ⟨en, 0, sX ^ 2 * ene / en, off, theta⟩
    let x := fun ω => (p.sample ene (u ω) (v ω)).1
    let xp := fun ω => (p.sample ene (u ω) (v ω)).2
    √(E fun ω => (x ω - E x) ^ 2) = sX ∧ (E fun ω => (x ω - E x) * (xp ω - E xp)) = 0 ∧
      √((E fun ω => (x ω - E x) ^ 2) * (E fun ω => (xp ω - E xp) ^ 2)) * ene = en := by
  intro p x xp
  obtain ⟨_, _, h3, h4, h5, h6, _, _⟩ := twiss_moments E h1 u v hu hv huu hvv huv p ene he hen
    (by show 0 < sX ^ 2 * ene / en; positivity)
  have e3 : (E fun ω => (x ω - E x) ^ 2) = sX ^ 2 := by
    rw [h3]; show en / ene * (sX ^ 2 * ene / en) = _; field_simp
  have e4 : (E fun ω => (x ω - E x) * (xp ω - E xp)) = 0 := by
    rw [h4]; show -0 * (en / ene) = _; ring
  refine ⟨by rw [e3]; exact Real.sqrt_sq hs.le, e4, ?_⟩
  have h6' := h6
  rw [show (E fun ω => ((p.sample ene (u ω) (v ω)).1 - E fun ω => (p.sample ene (u ω) (v ω)).1) *
      ((p.sample ene (u ω) (v ω)).2 - E fun ω => (p.sample ene (u ω) (v ω)).2)) = 0 from e4] at h6'
  rw [zero_pow two_ne_zero, sub_zero] at h6'
  exact h6'

/-- **C70** (the bunch): what the bunch contains is the sample of each plane; the mean transverse
momentum is given by the pointing angle if slopes and energies are uncorrelated. -/
theorem twiss_bunch (px py : Plane) (ene qTot : ℝ) (nPart : ℕ) (rnd : ℕ → Rnd)
    (name : Option String) (qs ms : ℝ) (k : ℕ) (i : ℕ) :
    let b := (fromTwiss px py ene qTot nPart rnd name qs ms k).1
    (b.ph i).x = (px.sample ene (rnd i).ux (rnd i).vx).1 ∧
    (b.ph i).y = (py.sample ene (rnd i).uy (rnd i).vy).1 ∧
    ((b.ph i).px - px.theta * ene) = (px.sample ene (rnd i).ux (rnd i).vx).2 * (b.ph i).pz ∧
    ((b.ph i).py - py.theta * ene) = (py.sample ene (rnd i).uy (rnd i).vy).2 * (b.ph i).pz ∧
    (b.ph i).xi = (rnd i).xi ∧ (b.ph i).pz = (rnd i).pz ∧ b.qSpecies = qs ∧ b.mSpecies = ms := by
  refine ⟨rfl, rfl, ?_, ?_, rfl, rfl, rfl, rfl⟩
  · exact add_sub_cancel_right _ _
  · exact add_sub_cancel_right _ _

/-- Position and slope in a plane at a waist with beta function `b`. -/
theorem waist_sample (en b off theta ene u v s : ℝ) (he : 0 < ene) (hen : 0 < en) (hb : 0 < b)
    (hs : 0 < s) (h : s ^ 2 = en / ene * b) :
    (⟨en, 0, b, off, theta⟩ : Plane).sample ene u v = (off + s * u, en / (ene * s) * v) := by
  have h1 : √(en / ene * b) = s := by rw [← h, Real.sqrt_sq hs.le]
  have h2 : √(en / ene * ((1 + (0 : ℝ) ^ 2) / b)) = en / (ene * s) := by
    rw [Real.sqrt_eq_iff_mul_self_eq (by positivity) (by positivity)]
    have : b = s ^ 2 * ene / en := by rw [h]; field_simp
    rw [this]
    field_simp
    ring
  unfold Plane.sample
  dsimp only
  rw [h1, h2]
  simp only [neg_zero, zero_mul, zero_div, zero_pow two_ne_zero, sub_zero, Real.sqrt_one,
    zero_add, one_mul]
  rw [add_comm]

/-- **C70** (size, the bunch): positions and slopes of a bunch generated from its sizes are the
normal random numbers scaled by the sizes and by the divergences `emittance / (energy · size)`;
the momenta include the pointing angles. -/
theorem size_bunch (enX enY sX sY ene qTot : ℝ) (nPart : ℕ) (xOff yOff thetaX thetaY : ℝ)
    (rnd : ℕ → Rnd) (name : Option String) (qs ms : ℝ) (k : ℕ) (he : 0 < ene) (hx : 0 < enX)
    (hy : 0 < enY) (hsx : 0 < sX) (hsy : 0 < sY) (i : ℕ) :
    let b := (fromSize enX enY sX sY ene qTot nPart xOff yOff thetaX thetaY rnd name qs ms k).1
    let r := rnd i
    b.n = nPart ∧ b.ph i =
      { x := xOff + sX * r.ux, y := yOff + sY * r.uy, xi := r.xi,
        px := enX / (ene * sX) * r.vx * r.pz + thetaX * ene,
        py := enY / (ene * sY) * r.vy * r.pz + thetaY * ene, pz := r.pz } := by
  intro b r
  have ex := waist_sample enX (sX ^ 2 * ene / enX) xOff thetaX ene r.ux r.vx sX he hx
    (by positivity) hsx (by field_simp)
  have ey := waist_sample enY (sY ^ 2 * ene / enY) yOff thetaY ene r.uy r.vy sY he hy
    (by positivity) hsy (by field_simp)
  obtain ⟨h1, h2, h3, h4, h5, h6, _, _⟩ := twiss_bunch ⟨enX, 0, sX ^ 2 * ene / enX, xOff, thetaX⟩
    ⟨enY, 0, sY ^ 2 * ene / enY, yOff, thetaY⟩ ene qTot nPart rnd name qs ms k i
  rw [ex] at h1 h3
  rw [ey] at h2 h4
  rw [h6] at h3 h4
  refine ⟨rfl, ?_⟩
  ext
  · exact h1
  · exact h2
  · exact h5
  · exact sub_eq_iff_eq_add.mp h3
  · exact sub_eq_iff_eq_add.mp h4
  · exact h6

/-- **C70** (matched bunch): the same for a matched bunch: the size is that of the matched beta
function `bM`. -/
theorem matched_bunch (bM enX enY ene qTot : ℝ) (nPart : ℕ) (xOff yOff thetaX thetaY : ℝ)
    (rnd : ℕ → Rnd) (name : Option String) (qs ms : ℝ) (k : ℕ) (he : 0 < ene) (hx : 0 < enX)
    (hy : 0 < enY) (hb : 0 < bM) (i : ℕ) :
    let b := (matched bM enX enY ene qTot nPart xOff yOff thetaX thetaY rnd name qs ms k).1
    let r := rnd i
    let sX := √(enX * bM / ene)
    let sY := √(enY * bM / ene)
    b.n = nPart ∧ b.ph i =
      { x := xOff + sX * r.ux, y := yOff + sY * r.uy, xi := r.xi,
        px := enX / (ene * sX) * r.vx * r.pz + thetaX * ene,
        py := enY / (ene * sY) * r.vy * r.pz + thetaY * ene, pz := r.pz } := by
  intro b r sX sY
  have ex := waist_sample enX bM xOff thetaX ene r.ux r.vx sX he hx hb
    (Real.sqrt_pos.mpr (by positivity))
    (by rw [Real.sq_sqrt (by positivity)]; ring)
  have ey := waist_sample enY bM yOff thetaY ene r.uy r.vy sY he hy hb
    (Real.sqrt_pos.mpr (by positivity))
    (by rw [Real.sq_sqrt (by positivity)]; ring)
  obtain ⟨h1, h2, h3, h4, h5, h6, _, _⟩ := twiss_bunch ⟨enX, 0, bM, xOff, thetaX⟩
    ⟨enY, 0, bM, yOff, thetaY⟩ ene qTot nPart rnd name qs ms k i
  rw [ex] at h1 h3
  rw [ey] at h2 h4
  rw [h6] at h3 h4
  refine ⟨rfl, ?_⟩
  ext
  · exact h1
  · exact h2
  · exact h5
  · exact sub_eq_iff_eq_add.mp h3
  · exact sub_eq_iff_eq_add.mp h4
  · exact h6

/-- Non-vacuity: a bunch of size 1 µm with emittance 1 µm at gamma 1000. -/
example : (0 : ℝ) < 1000 ∧ (0 : ℝ) < 1 / 10 ^ 6 := by norm_num

/-- An average that meets the hypotheses: four equally likely points with `u, v = ± 1`. -/
example : let E : ((Bool × Bool) → ℝ) →ₗ[ℝ] ℝ :=
      { toFun := fun f => (f (false, false) + f (false, true) + f (true, false) + f (true, true)) / 4
        map_add' := by intro f g; simp only [Pi.add_apply]; ring
        map_smul' := by intro c f; simp only [Pi.smul_apply, smul_eq_mul, RingHom.id_apply]; ring }
    let u : Bool × Bool → ℝ := fun ω => if ω.1 then 1 else -1
    let v : Bool × Bool → ℝ := fun ω => if ω.2 then 1 else -1
    E (fun _ => 1) = 1 ∧ E u = 0 ∧ E v = 0 ∧ E (fun ω => u ω ^ 2) = 1 ∧
      E (fun ω => v ω ^ 2) = 1 ∧ E (fun ω => u ω * v ω) = 0 := by
  intro E u v
  refine ⟨?_, ?_, ?_, ?_, ?_, ?_⟩ <;> norm_num [E, u, v]

/-! ### C71 -/

/-- **C71.** A loaded bunch is centred, keeps the relative positions and everything else of the
file, and has the propagation distance zero or, on request, the mean position. -/
theorem loaded_centred (openpmd : Bool) (available : List String) (read : Option String → Dist)
    (preserve : Bool) (name species : Option String) (k : ℕ) (b : Bunch) (k' : ℕ)
    (h : getFromFile openpmd available read preserve name species k = .ok (b, k')) :
    ∃ (nm sp : Option String), pickSpecies openpmd available name species = .ok (nm, sp) ∧
      let d := read (if openpmd then sp else none)
      let zAvg := (∑ i ∈ Finset.range d.n, d.z i * d.w i) / ∑ i ∈ Finset.range d.n, d.w i
      b.n = d.n ∧ b.w = d.w ∧ b.qSpecies = d.qSpecies ∧ b.mSpecies = d.mSpecies ∧
      (∀ i, (b.ph i).x = d.x i ∧ (b.ph i).y = d.y i ∧ (b.ph i).px = d.px i ∧
        (b.ph i).py = d.py i ∧ (b.ph i).pz = d.pz i) ∧
      (∀ i j, (b.ph i).xi - (b.ph j).xi = d.z i - d.z j) ∧
      ∑ i ∈ Finset.range b.n, b.w i ≠ 0 ∧
      ∑ i ∈ Finset.range b.n, (b.ph i).xi * b.w i = 0 ∧
      b.propDistance = (if preserve then zAvg else 0) ∧
      (preserve = true → ∀ i, b.propDistance + (b.ph i).xi = d.z i) := by
  unfold getFromFile at h
  cases hp : pickSpecies openpmd available name species with
  | error e => rw [hp] at h; simp at h
  | ok ns =>
    obtain ⟨nm, sp⟩ := ns
    rw [hp] at h
    refine ⟨nm, sp, rfl, ?_⟩
    intro d zAvg
    simp only at h
    by_cases hw : ∑ i ∈ Finset.range (read (if openpmd then sp else none)).n,
        (read (if openpmd then sp else none)).w i = 0
    · rw [if_pos hw] at h; simp at h
    · rw [if_neg hw] at h
      have hb := congrArg Prod.fst (Except.ok.inj h)
      simp only at hb
      have hw' : ∑ i ∈ Finset.range d.n, d.w i ≠ 0 := hw
      have hz : average d.n d.z d.w = zAvg := rfl
      have hph : ∀ i, b.ph i = (
          { x := d.x i, y := d.y i, xi := d.z i - zAvg, px := d.px i, py := d.py i,
            pz := d.pz i } : Ph) := by
        intro i; rw [← hb]; cases preserve <;> rfl
      have hn : b.n = d.n := by rw [← hb]; cases preserve <;> rfl
      have hbw : b.w = d.w := by rw [← hb]; cases preserve <;> rfl
      have hpd : b.propDistance = if preserve then zAvg else 0 := by
        rw [← hb]; cases preserve <;> rfl
      refine ⟨hn, hbw, by rw [← hb]; cases preserve <;> rfl,
        by rw [← hb]; cases preserve <;> rfl, fun i => by rw [hph i]; exact ⟨rfl, rfl, rfl, rfl, rfl⟩,
        fun i j => by rw [hph i, hph j]; show d.z i - zAvg - (d.z j - zAvg) = _; ring,
        by rw [hn, hbw]; exact hw', ?_, hpd, ?_⟩
      · rw [hn, hbw]
        have : ∀ i ∈ Finset.range d.n, (b.ph i).xi * d.w i = d.z i * d.w i - zAvg * d.w i := by
          intro i _; rw [hph i]; show (d.z i - zAvg) * d.w i = _; ring
        rw [Finset.sum_congr rfl this, Finset.sum_sub_distrib, ← Finset.mul_sum]
        show _ - (∑ i ∈ Finset.range d.n, d.z i * d.w i) / (∑ i ∈ Finset.range d.n, d.w i) *
          ∑ i ∈ Finset.range d.n, d.w i = 0
        rw [div_mul_cancel₀ _ hw', sub_self]
      · intro hpres i
        rw [hpd, if_pos hpres, hph i]
        show zAvg + (d.z i - zAvg) = _; ring

/-- **C71** (species): an openPMD file without species or, unless a species is given, with several
of them, is rejected; otherwise the species is the only one or the one given, and an unnamed
bunch is named after it. -/
theorem species_selection (available : List String) (name species : Option String) :
    match pickSpecies true available name species with
    | .error .noSpecies => species = none ∧ available = []
    | .error .severalSpecies => species = none ∧ 2 ≤ available.length
    | .error .zeroDivision => False
    | .ok (nm, sp) => ∃ s, sp = some s ∧ nm = some (name.getD s) ∧
        (species = some s ∨ species = none ∧ available = [s]) := by
  unfold pickSpecies
  cases species with
  | some s => exact ⟨s, rfl, rfl, Or.inl rfl⟩
  | none =>
    match available with
    | [] => exact ⟨rfl, rfl⟩
    | [s] => exact ⟨s, rfl, rfl, Or.inr ⟨rfl, rfl⟩⟩
    | _ :: _ :: _ => exact ⟨rfl, by simp⟩

/-- A file with three particles is loaded. -/
example : ∃ b k', getFromFile true ["beam"] (fun _ => ⟨3, fun _ => 0, fun _ => 0, fun i => i,
    fun _ => 0, fun _ => 0, fun _ => 10, fun i => i + 1, -1, 1⟩) true none none 0 = .ok (b, k') ∧
    b.name = "beam" := by
  unfold getFromFile
  simp only [pickSpecies, if_true]
  rw [if_neg (by norm_num [Finset.sum_range_succ])]
  exact ⟨_, _, rfl, rfl⟩

/-! ### C94: saving and loading -/

/-- **C94, partial.** If the file format is lossless, a bunch that is saved and loaded again has
the same weights, species, transverse positions and momenta and the same longitudinal
positions relative to its mean; with openPMD it keeps its name.  Missing: the propagation distance
(`save_load_violated`). -/
theorem save_load_partial (openpmd : Bool) (b : Bunch) (sp : Option String)
    (available : List String) (read : Option String → Dist) (preserve : Bool) (k : ℕ)
    (hread : read (saveBunch openpmd b sp).1 = (saveBunch openpmd b sp).2)
    (havail : openpmd = true → available = [sp.getD b.name])
    (hw : ∑ i ∈ Finset.range b.n, b.w i ≠ 0) :
    ∃ b' k', getFromFile openpmd available read preserve none none k = .ok (b', k') ∧
      b'.n = b.n ∧ b'.w = b.w ∧ b'.qSpecies = b.qSpecies ∧ b'.mSpecies = b.mSpecies ∧
      (∀ i, (b'.ph i).x = (b.ph i).x ∧ (b'.ph i).y = (b.ph i).y ∧ (b'.ph i).px = (b.ph i).px ∧
        (b'.ph i).py = (b.ph i).py ∧ (b'.ph i).pz = (b.ph i).pz ∧
        (b'.ph i).xi = (b.ph i).xi -
          (∑ j ∈ Finset.range b.n, (b.ph j).xi * b.w j) / ∑ j ∈ Finset.range b.n, b.w j) ∧
      (openpmd = true → b'.name = sp.getD b.name) ∧
      b'.propDistance = (if preserve then
        (∑ j ∈ Finset.range b.n, (b.ph j).xi * b.w j) / ∑ j ∈ Finset.range b.n, b.w j else 0) := by
  cases openpmd with
  | false =>
    have hread' : read none = (saveBunch false b sp).2 := hread
    unfold getFromFile
    simp only [pickSpecies, Bool.false_eq_true, if_false, hread']
    have hw' : ¬ ∑ i ∈ Finset.range (saveBunch false b sp).2.n, (saveBunch false b sp).2.w i = 0 := hw
    rw [if_neg hw']
    refine ⟨_, _, rfl, ?_⟩
    cases preserve
    · exact ⟨rfl, rfl, rfl, rfl, fun i => ⟨rfl, rfl, rfl, rfl, rfl, rfl⟩, fun h => by simp at h, rfl⟩
    · exact ⟨rfl, rfl, rfl, rfl, fun i => ⟨rfl, rfl, rfl, rfl, rfl, rfl⟩, fun h => by simp at h, rfl⟩
  | true =>
    have hread' : read (some (sp.getD b.name)) = (saveBunch true b sp).2 := hread
    have ha := havail rfl
    unfold getFromFile
    simp only [pickSpecies, ha, if_true, hread']
    have hw' : ¬ ∑ i ∈ Finset.range (saveBunch true b sp).2.n, (saveBunch true b sp).2.w i = 0 := hw
    rw [if_neg hw']
    refine ⟨_, _, rfl, ?_⟩
    cases preserve
    · exact ⟨rfl, rfl, rfl, rfl, fun i => ⟨rfl, rfl, rfl, rfl, rfl, rfl⟩, fun _ => rfl, rfl⟩
    · exact ⟨rfl, rfl, rfl, rfl, fun i => ⟨rfl, rfl, rfl, rfl, rfl, rfl⟩, fun _ => rfl, rfl⟩

/-- **C94 violated**: a bunch that has propagated one unit, saved and loaded with
`preserve_prop_dist=True`, has propagation distance zero. -/
theorem save_load_violated : ∃ (b : Bunch) (read : Option String → Dist),
    read (saveBunch true b none).1 = (saveBunch true b none).2 ∧ b.propDistance = 1 ∧
    ∃ b' k', getFromFile true [b.name] read true none none 0 = .ok (b', k') ∧
      b'.propDistance = 0 := by
  let b : Bunch := { (WakeT.Bunch.init 1 (fun _ => 1) (fun _ => ⟨0, 0, 0, 0, 0, 10⟩) none 1 0 none
    (some "b") (-1) 1 0).1 with propDistance := 1 }
  refine ⟨b, fun _ => (saveBunch true b none).2, rfl, rfl, ?_⟩
  obtain ⟨b', k', h1, _, _, _, _, _, _, h⟩ := save_load_partial true b none [b.name]
    (fun _ => (saveBunch true b none).2) true 0 rfl (fun _ => rfl) (by
      show ∑ i ∈ Finset.range 1, (1 : ℝ) ≠ 0
      norm_num)
  refine ⟨b', k', h1, ?_⟩
  rw [h]
  simp only [if_true]
  show (∑ j ∈ Finset.range 1, (0 : ℝ) * 1) / _ = 0
  simp

end WakeT.BunchGen
