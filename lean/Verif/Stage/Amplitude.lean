import Verif.Stage.Betatron
import Verif.Tracker.Smooth
import Verif.Tracker.Interrupted

/-! # Particles in a plasma lens keep their amplitude (C186) -/

set_option linter.unusedSectionVars false

namespace WakeT.Push

open Fields (EB)

/-- Momentum of a particle with the Lorentz factor `g`. -/
noncomputable def Ph.absP (p : Ph) : ℝ := √(p.gamma ^ 2 - 1)

theorem Ph.gamma_sq' (p : Ph) : p.gamma ^ 2 = 1 + p.px ^ 2 + p.py ^ 2 + p.pz ^ 2 :=
  Real.sq_sqrt (by positivity)

theorem Ph.absP_sq (p : Ph) : p.absP ^ 2 = p.px ^ 2 + p.py ^ 2 + p.pz ^ 2 := by
  unfold Ph.absP
  rw [p.gamma_sq', Real.sq_sqrt (by nlinarith [sq_nonneg p.px, sq_nonneg p.py, sq_nonneg p.pz])]
  ring

theorem Ph.abs_pz_le (p : Ph) : |p.pz| ≤ p.absP :=
  abs_le_of_sq_le_sq (by rw [p.absP_sq]; nlinarith [sq_nonneg p.px, sq_nonneg p.py]) (Real.sqrt_nonneg _)

/-- The quantity that steps of size `h` conserve, `K = -q foc / (m c)`. -/
noncomputable def lensB (c K h : ℝ) (p : Ph) : ℝ :=
  K / 2 * (p.x ^ 2 + p.y ^ 2 - (h * c / (2 * p.gamma)) ^ 2 * (p.px ^ 2 + p.py ^ 2)) - p.pz + p.absP

/-- One Boris step in a lens. -/
theorem lens_step {k : Const} {fields : List PField} {foc : ℝ}
    (hf : ∀ t p, felt fields t p = ⟨0, 0, 0, foc * p.y, -(foc * p.x), 0⟩) (t h : ℝ) (p : Ph) :
    (borisStep k fields t h p).gamma = p.gamma ∧
      lensB k.c (-(k.q * foc) / (k.m * k.c)) h (borisStep k fields t h p) = lensB k.c (-(k.q * foc) / (k.m * k.c)) h p := by
  obtain ⟨sch, hs⟩ : ∃ sch : Sched, sch.Valid 1 := ⟨fun _ _ => List.range 1, fun _ _ => List.Perm.refl _⟩
  have hb : (boris k fields sch t h (fun _ => p) (fun _ => ⟨0, 0, 0, 0, 0, 0⟩)).1 0 = borisStep k fields t h p := by
    rw [boris_apply k fields hs, if_pos one_pos]
  have h1 := (boris_magnetic_no_work k fields hs t h (fun _ => p) (fun _ => ⟨0, 0, 0, 0, 0, 0⟩)
    (fun p => by simp [hf]) 0).2
  obtain ⟨p', ⟨x1, y1, -⟩, hc, h2⟩ := boris_centred k fields hs t h (fun _ => p) (fun _ => ⟨0, 0, 0, 0, 0, 0⟩) 0 one_pos
  rw [hb] at h1 h2
  refine ⟨h1, ?_⟩
  have hg : p'.gamma = p.gamma := by
    rw [← h1, h2]
    rfl
  have hP : (borisStep k fields t h p).absP = p.absP := by
    unfold Ph.absP
    rw [h1]
  unfold lensB
  rw [h1, hP, h2]
  rw [hf] at hc
  unfold Centred at hc
  have hgd : √(1 + (p.px + 0) ^ 2 + (p.py + 0) ^ 2 + (p.pz + 0) ^ 2) = p.gamma := by simp [Ph.gamma]
  simp only [Ph.drift, mul_zero, zero_add, zero_sub, sub_zero] at hc x1 y1 ⊢
  rw [hgd] at hc
  rw [hg, x1, y1]
  obtain ⟨c1, c2, c3⟩ := hc
  generalize p.gamma = g at *
  have e1 : h / 2 * (k.c * p.px / g) = h * k.c / (2 * g) * p.px := by ring
  have e2 : h / 2 * (k.c * p.py / g) = h * k.c / (2 * g) * p.py := by ring
  have e3 : h / 2 * (k.c * p'.px / g) = h * k.c / (2 * g) * p'.px := by ring
  have e4 : h / 2 * (k.c * p'.py / g) = h * k.c / (2 * g) * p'.py := by ring
  rw [e1, e2, e3, e4]
  rw [e1, e2] at c3
  have c3' : p'.pz - p.pz = -(k.q * foc) / (k.m * k.c) * (h * k.c / (2 * g)) *
      ((p.px + p'.px) * (p.x + h * k.c / (2 * g) * p.px) + (p.py + p'.py) * (p.y + h * k.c / (2 * g) * p.py)) := by
    rw [c3]
    ring
  generalize h * k.c / (2 * g) = s at *
  generalize -(k.q * foc) / (k.m * k.c) = K at *
  linear_combination -c3'

section
variable {c K d : ℝ} {p : Ph}

/-- The square of half the betatron phase advance in a step of size `d`. -/
noncomputable def Ph.phase2 (c K d : ℝ) (p : Ph) : ℝ := K * p.absP * (d * c) ^ 2 / (4 * p.gamma ^ 2)

theorem lensB_eq (h : ℝ) : lensB c K h p = K / 2 * (p.x ^ 2 + p.y ^ 2) +
    (p.absP - p.pz) * (1 - K / 2 * (h * c / (2 * p.gamma)) ^ 2 * (p.absP + p.pz)) := by
  unfold lensB
  linear_combination (K / 2 * (h * c / (2 * p.gamma)) ^ 2) * p.absP_sq

theorem lens_factor (hK : 0 ≤ K) {h : ℝ} (h0 : 0 ≤ h) (hd : h ≤ d) :
    0 ≤ K / 2 * (h * c / (2 * p.gamma)) ^ 2 * (p.absP + p.pz) ∧
      K / 2 * (h * c / (2 * p.gamma)) ^ 2 * (p.absP + p.pz) ≤ K / 2 * (d * c / (2 * p.gamma)) ^ 2 * (p.absP + p.pz) ∧
      K / 2 * (d * c / (2 * p.gamma)) ^ 2 * (p.absP + p.pz) ≤ p.phase2 c K d := by
  have h1 := abs_le.mp p.abs_pz_le
  have hs : (h * c / (2 * p.gamma)) ^ 2 ≤ (d * c / (2 * p.gamma)) ^ 2 := by
    have e : ∀ u : ℝ, (u * c / (2 * p.gamma)) ^ 2 = u ^ 2 * (c / (2 * p.gamma)) ^ 2 := fun u => by ring
    rw [e, e]
    exact mul_le_mul_of_nonneg_right (pow_le_pow_left₀ h0 hd 2) (sq_nonneg _)
  have hP : 0 ≤ p.absP + p.pz := by linarith
  refine ⟨by positivity, mul_le_mul_of_nonneg_right (mul_le_mul_of_nonneg_left hs (by positivity)) hP, ?_⟩
  have : p.phase2 c K d = K / 2 * (d * c / (2 * p.gamma)) ^ 2 * (2 * p.absP) := by
    unfold Ph.phase2
    ring
  rw [this]
  exact mul_le_mul_of_nonneg_left (by linarith) (by positivity)

theorem lensB_le (hK : 0 ≤ K) {h : ℝ} (h0 : 0 ≤ h) (hd : h ≤ d) : lensB c K d p ≤ lensB c K h p := by
  rw [lensB_eq, lensB_eq]
  obtain ⟨-, h2, -⟩ := lens_factor (c := c) (p := p) hK h0 hd
  have h1 := (abs_le.mp p.abs_pz_le).2
  have := mul_le_mul_of_nonneg_left h2 (sub_nonneg.mpr h1)
  linarith

theorem lensB_ge (hK : 0 ≤ K) (hθ : p.phase2 c K d ≤ 1) {h : ℝ} (h0 : 0 ≤ h) (hd : h ≤ d) :
    lensB c K h p * (1 - p.phase2 c K d) ≤ lensB c K d p := by
  rw [lensB_eq, lensB_eq]
  obtain ⟨h1, h2, h3⟩ := lens_factor (c := c) (p := p) hK h0 hd
  have h4 := sub_nonneg.mpr (abs_le.mp p.abs_pz_le).2
  generalize K / 2 * (h * c / (2 * p.gamma)) ^ 2 * (p.absP + p.pz) = u at *
  generalize K / 2 * (d * c / (2 * p.gamma)) ^ 2 * (p.absP + p.pz) = v at *
  generalize p.phase2 c K d = θ at *
  generalize p.absP - p.pz = a at *
  have hr : 0 ≤ K / 2 * (p.x ^ 2 + p.y ^ 2) := by positivity
  generalize K / 2 * (p.x ^ 2 + p.y ^ 2) = r at *
  have e1 : r * (1 - θ) ≤ r := by nlinarith
  have e2 : (1 - u) * (1 - θ) ≤ 1 - v := by nlinarith
  nlinarith [mul_le_mul_of_nonneg_left e2 h4]

theorem lensB_r (hK : 0 ≤ K) (hd : 0 ≤ d) (hθ : p.phase2 c K d ≤ 1) :
    K / 2 * (p.x ^ 2 + p.y ^ 2) + (p.absP - p.pz) * (1 - p.phase2 c K d) ≤ lensB c K d p := by
  rw [lensB_eq]
  obtain ⟨-, -, h3⟩ := lens_factor (c := c) (p := p) hK hd le_rfl
  have h4 := sub_nonneg.mpr (abs_le.mp p.abs_pz_le).2
  have := mul_le_mul_of_nonneg_left h3 h4
  linarith
end

end WakeT.Push

namespace WakeT.FieldElement

open Bunch Fields Push Tracker Stage

variable {F Φ : Type} [LinearOrder F]

/-- The tracking of a bunch with a fixed step follows the tracking of the map of phase space. -/
theorem tracked_by_ghost {e : Elem F Φ} {Good : (Ph → Ph) → Prop} {fields : List PField} {q m : ℝ}
    (hm : StepClass Good e.pusher ⟨e.c, q, m⟩ fields)
    (hs : ∀ n, (e.sch n).Valid n) (hp : e.pusher = "rk4" ∨ e.pusher = "boris") (hf : ∀ φ, e.felt φ = fields) {d : ℝ}
    (hd : e.dtBunch = .one (some d)) {opmd : Bool} {fuel : ℕ} {bunches : OneOrMany Bunch} {b0 : Bunch} {φ : Φ}
    {r : OneOrMany (List Bunch)} {w : World Φ} (hr : e.track opmd fuel bunches b0 φ = .returned (r, w)) :
    ∃ ls : List (List Bunch), r = pack ls ∧ ls.length = bunches.toList.length ∧
      ∀ (i : ℕ) (b : Bunch), bunches.toList[i]? = some b → b.Fits → b.zInjection = none → b.qSpecies = q → b.mSpecies = m →
        ∃ l dtF s, ls[i]? = some l ∧ e.dtFields = some dtF ∧ doTracking (classCfg e hm d dtF) fuel ⟨id, hm.id⟩ = .returned s ∧
          ∀ (j : ℕ) (b' : Bunch), l[j]? = some b' → b'.n = b.n ∧
            ∃ Ψ, s.snaps[j]? = some Ψ ∧ ∀ p < b.n, b'.ph p = Ψ.1 (b.ph p) := by
  unfold Elem.track at hr
  dsimp only at hr
  have hl : e.dtList bunches.toList.length = some (List.replicate bunches.toList.length (some d)) := by
    unfold Elem.dtList
    rw [hd]
  rw [hl] at hr
  dsimp only at hr
  cases hF : e.dtFields with
  | none => rw [hF] at hr; cases hr
  | some dtF =>
  rw [hF] at hr
  dsimp only at hr
  generalize bunches.toList = bs at hr ⊢
  cases ht : doTracking (e.cfg opmd bs.length (List.replicate bs.length (some d)) dtF) fuel (world bs b0 φ) with
  | raised x => rw [ht] at hr; cases x <;> cases hr
  | running => rw [ht] at hr; cases hr
  | returned st =>
  rw [ht] at hr
  dsimp only at hr
  injection hr with hr
  injection hr with hr1 hr2
  refine ⟨_, hr1.symm, by unfold bunchLists; rw [List.length_map, List.length_range], fun i b hib h1 h2 h3 h4 => ?_⟩
  have hi : i < bs.length := (List.getElem?_eq_some_iff.mp hib).1
  subst h3 h4
  have hb : (world bs b0 φ).bunch i = b := by
    show bs.getD i b0 = b
    rw [List.getD_eq_getElem?_getD, hib]
    rfl
  have h0 : CarriedBy i b (world bs b0 φ) id := by
    unfold CarriedBy
    rw [hb]
    exact ⟨h1, rfl, h2, rfl, rfl, fun _ _ => rfl⟩
  obtain ⟨s', g1, -, g3⟩ := corr_tracking (w' := ⟨id, hm.id⟩) (carriedBy_corr hm hs hp hf (d := d) opmd dtF hi) h0 ht
    ⟨fun _ _ _ _ _ _ _ => trivial, fun _ _ _ _ _ => trivial⟩
  refine ⟨st.snaps.map fun w => w.bunch i, dtF, s', ?_, rfl, g1, fun j b' hj => ?_⟩
  · unfold bunchLists
    rw [List.getElem?_map, List.getElem?_range hi]
    rfl
  · rw [List.getElem?_map, Option.map_eq_some_iff] at hj
    obtain ⟨w', hw', rfl⟩ := hj
    obtain ⟨hj1, hj2⟩ := List.getElem?_eq_some_iff.mp hw'
    have hlen := g3.length_eq
    have hc := g3.get hj1 (hlen ▸ hj1)
    rw [List.get_eq_getElem, List.get_eq_getElem, hj2] at hc
    exact ⟨hc.2.1, _, List.getElem?_eq_getElem (hlen ▸ hj1), hc.2.2.2.2.2⟩

/-- **C186** The amplitude of particles in an active plasma lens without wakefields, with the Boris pusher and a
fixed step `d`: if the betatron phase advance in a step is at most `2` (`θ`, its square over `4`, is at most `1`),
the Lorentz factor is constant, and at output `j` the offset from the axis and the transverse momentum are at most
those of an oscillation of the initial amplitude, up to a factor `1 / (1 - θ)` for each step that was shortened: the
last one, and if the bunches are pushed before the outputs, one before each output.  The number of steps and the length
of the lens do not matter. -/
theorem lens_amplitude {e : Elem F Φ} (he : e.Ok) (hmono : StrictMono e.f32) (hs : ∀ n, (e.sch n).Valid n)
    (hp : e.pusher = "boris") {foc : ℝ} (hf : ∀ φ, e.felt φ = lensFields foc) {d : ℝ} (hd : e.dtBunch = .one (some d))
    {opmd : Bool} {fuel : ℕ} {bunches : OneOrMany Bunch} {b0 : Bunch} {φ : Φ}
    {r : OneOrMany (List Bunch)} {w : World Φ} (hr : e.track opmd fuel bunches b0 φ = .returned (r, w)) :
    ∃ ls : List (List Bunch), r = pack ls ∧ ls.length = bunches.toList.length ∧
      ∀ (i : ℕ) (b : Bunch), bunches.toList[i]? = some b → b.Fits → b.zInjection = none →
        ∃ l, ls[i]? = some l ∧ ∀ p < b.n,
          let K := -(b.qSpecies * foc) / (b.mSpecies * e.c)
          let p0 := b.ph p
          let P := √(p0.px ^ 2 + p0.py ^ 2 + p0.pz ^ 2)
          let θ := K * P * (d * e.c) ^ 2 / (4 * p0.gamma ^ 2)
          let A := p0.x ^ 2 + p0.y ^ 2 + 2 * (p0.px ^ 2 + p0.py ^ 2) / (K * (P + p0.pz))
          0 < K → 0 < p0.pz → θ ≤ 1 → ∀ (j : ℕ) (b' : Bunch), l[j]? = some b' →
            let m := if e.pushBefore then j + 1 else 1
            (b'.ph p).gamma = p0.gamma ∧ ((b'.ph p).x ^ 2 + (b'.ph p).y ^ 2) * (1 - θ) ^ m ≤ A ∧
              ((b'.ph p).px ^ 2 + (b'.ph p).py ^ 2) * (1 - θ) ^ (m + 1) ≤ K * P * A := by
  have hfelt : ∀ t p, Push.felt (lensFields foc) t p = ⟨0, 0, 0, foc * p.y, -(foc * p.x), 0⟩ := by
    intro t p
    simp [Push.felt, lensFields, lensField, LibField.gather1]
  have hcl : ∀ q m : ℝ, StepClass (fun Ψ => ∀ p, (Ψ p).gamma = p.gamma) e.pusher ⟨e.c, q, m⟩ (lensFields foc) := fun q m =>
    ⟨fun _ => rfl, fun h h' p => (h _).trans (h' p), fun t h p => by
      unfold stepOf
      rw [hp, if_neg (by decide)]
      exact (lens_step (k := ⟨e.c, q, m⟩) hfelt t h p).1⟩
  obtain ⟨ls, h1, h2, -⟩ := tracked_by_ghost (hcl 0 0) hs (Or.inr hp) hf hd hr
  refine ⟨ls, h1, h2, fun i b hib hfit hz => ?_⟩
  obtain ⟨ls', h1', -, h3⟩ := tracked_by_ghost (hcl b.qSpecies b.mSpecies) hs (Or.inr hp) hf hd hr
  obtain rfl : ls = ls' := pack_inj (h1.symm.trans h1')
  obtain ⟨l, dtF, s, g1, g2, g3, g4⟩ := h3 i b hib hfit hz rfl rfl
  refine ⟨l, g1, fun p hpn => ?_⟩
  intro K p0 P θ A hK hpz hθ j b' hj
  obtain ⟨-, Ψ, g5, g6⟩ := g4 j b' hj
  intro m
  rw [g6 p hpn]
  have hd0 : 0 < d := he.steps d (by rw [hd]; exact List.mem_singleton.mpr rfl)
  have hPP : P = p0.absP := by
    unfold Ph.absP
    rw [p0.gamma_sq']
    show √(p0.px ^ 2 + p0.py ^ 2 + p0.pz ^ 2) = _
    congr 1
    ring
  have hθθ : ∀ q : Ph, q.gamma = p0.gamma → q.phase2 e.c K d = θ := by
    intro q hq
    have : q.absP = P := by rw [hPP]; unfold Ph.absP; rw [hq]
    unfold Ph.phase2
    rw [this, hq]
  have hstep : ∀ (t h : ℝ) (q : Ph), (stepOf e.pusher ⟨e.c, b.qSpecies, b.mSpecies⟩ (lensFields foc) t h q).gamma = q.gamma ∧
      lensB e.c K h (stepOf e.pusher ⟨e.c, b.qSpecies, b.mSpecies⟩ (lensFields foc) t h q) = lensB e.c K h q := by
    intro t h q
    unfold stepOf
    rw [hp, if_neg (by decide)]
    exact lens_step (k := ⟨e.c, b.qSpecies, b.mSpecies⟩) hfelt t h q
  have hμ0 : 0 ≤ 1 - θ := by linarith
  have hP0 : 0 ≤ P := Real.sqrt_nonneg _
  have hθ0 : 0 ≤ θ := by
    show 0 ≤ K * P * (d * e.c) ^ 2 / (4 * p0.gamma ^ 2)
    positivity
  have hpos : (classCfg e (hcl b.qSpecies b.mSpecies) d dtF).Positive := by
    obtain ⟨k1, k2⟩ := dtFields_pos he g2
    refine ⟨div_pos he.length he.c, fun i _ d' hd' => ?_, fun _ _ => one_pos, fun j hj => ?_⟩
    · rw [← Option.some.inj hd']
      exact hd0
    · have hj : j < e.numFields.length := hj
      exact k2 j (by omega)
  have hB0 : ∀ q : Ph, q.gamma = p0.gamma →
      K / 2 * (q.x ^ 2 + q.y ^ 2) + (q.absP - q.pz) * (1 - θ) ≤ lensB e.c K d q := by
    intro q hq
    have h := lensB_r (c := e.c) (p := q) hK.le hd0.le ((hθθ q hq).le.trans hθ)
    rwa [hθθ q hq] at h
  have key := interrupted (c := classCfg e (hcl b.qSpecies b.mSpecies) d dtF) (d := d) (μ := 1 - θ)
    (A := K / 2 * A) (V := fun Ψ => (Ψ.1 p0).gamma = p0.gamma) (B := fun Ψ => lensB e.c K d (Ψ.1 p0)) hpos hmono rfl rfl hμ0
    (by linarith)
    (fun Ψ hΨ => by
      refine le_trans ?_ (hB0 _ hΨ)
      have := sub_nonneg.mpr (abs_le.mp (Ψ.1 p0).abs_pz_le).2
      positivity)
    (fun Ψ t h hΨ => ((hstep t h (Ψ.1 p0)).1).trans hΨ)
    (fun Ψ t _ => ((hstep t d (Ψ.1 p0)).2).le)
    (fun Ψ t h hΨ h0 hh => by
      have e1 := lensB_ge (c := e.c) (p := Ψ.1 p0) hK.le ((hθθ _ hΨ).le.trans hθ) h0 hh
      rw [hθθ _ hΨ] at e1
      refine le_trans (mul_le_mul_of_nonneg_right ?_ hμ0) e1
      rw [← (hstep t h (Ψ.1 p0)).2]
      exact lensB_le hK.le h0 hh)
    (fun _ _ => rfl) rfl
    (by
      have e1 : lensB e.c K d p0 ≤ lensB e.c K 0 p0 := lensB_le hK.le le_rfl hd0.le
      refine e1.trans (le_of_eq ?_)
      have hPz : 0 < P + p0.pz := by linarith
      have hsq : P ^ 2 = p0.px ^ 2 + p0.py ^ 2 + p0.pz ^ 2 := Real.sq_sqrt (by positivity)
      have e2 : p0.px ^ 2 + p0.py ^ 2 = (P - p0.pz) * (P + p0.pz) := by linear_combination -hsq
      rw [lensB_eq, ← hPP]
      show _ = K / 2 * (p0.x ^ 2 + p0.y ^ 2 + 2 * (p0.px ^ 2 + p0.py ^ 2) / (K * (P + p0.pz)))
      rw [e2]
      field_simp
      ring) g3 j Ψ g5 (Ψ.2 p0)
  have hγ : (Ψ.1 p0).gamma = p0.gamma := Ψ.2 p0
  have hm : (classCfg e (hcl b.qSpecies b.mSpecies) d dtF).cuts j = m := rfl
  rw [hm] at key
  have hb := hB0 _ hγ
  have hpz' := abs_le.mp (Ψ.1 p0).abs_pz_le
  have hsq := (Ψ.1 p0).absP_sq
  have hP' : (Ψ.1 p0).absP = P := by rw [hPP]; unfold Ph.absP; rw [hγ]
  rw [hP'] at hb hpz' hsq
  refine ⟨hγ, ?_, ?_⟩
  all_goals
    generalize lensB e.c K d (Ψ.1 p0) = B at key hb
    have hμm : 0 ≤ (1 - θ) ^ m := pow_nonneg hμ0 m
    have e1 := (mul_le_mul_of_nonneg_right hb hμm).trans key
    rw [show (b.ph p) = p0 from rfl]
    generalize Ψ.1 p0 = q at *
    generalize A = A' at *
  · have e2 : 0 ≤ (P - q.pz) * (1 - θ) * (1 - θ) ^ m := mul_nonneg (mul_nonneg (by linarith) hμ0) hμm
    have e3 : K / 2 * ((q.x ^ 2 + q.y ^ 2) * (1 - θ) ^ m) ≤ K / 2 * A' := by linarith
    exact le_of_mul_le_mul_left e3 (by positivity)
  · have e2 : 0 ≤ K / 2 * (q.x ^ 2 + q.y ^ 2) * (1 - θ) ^ m := by positivity
    have e3 : (P - q.pz) * (1 - θ) ^ (m + 1) ≤ K / 2 * A' := by
      rw [pow_succ]
      linarith
    have e4 : q.px ^ 2 + q.py ^ 2 ≤ 2 * P * (P - q.pz) := by nlinarith
    calc (q.px ^ 2 + q.py ^ 2) * (1 - θ) ^ (m + 1) ≤ 2 * P * (P - q.pz) * (1 - θ) ^ (m + 1) :=
          mul_le_mul_of_nonneg_right e4 (pow_nonneg hμ0 _)
      _ = 2 * P * ((P - q.pz) * (1 - θ) ^ (m + 1)) := by ring
      _ ≤ 2 * P * (K / 2 * A') := mul_le_mul_of_nonneg_left e3 (by positivity)
      _ = K * P * A' := by ring

/-- Non-vacuous: an electron of about 500 MeV with an offset and a slope in a lens with the gradient `1000` (units of the
electron), with the step `1 / 2`, a quarter of the length over `c`: the tracking returns, `θ` is below `1 / 15`, and no output is
farther from the axis than `A` allows. -/
example (sch : ℕ → Push.Sched) (hsch : ∀ n, (sch n).Valid n) :
    let b : Bunch := (Bunch.init 1 (fun _ => 1) (fun _ => ⟨3, 0, 0, 4, 0, 1000⟩) none 0 0 none none (-1) 1 0).1
    let e : Elem ℝ Unit := { demo sch with felt := fun _ => lensFields 1000, dtBunch := .one (some (1 / 2)), numFields := [] }
    ∃ fuel w l, e.track false fuel (.one b) b () = .returned (.one l, w) ∧
      ∀ (j : ℕ) (b' : Bunch), l[j]? = some b' → ((b'.ph 0).x ^ 2 + (b'.ph 0).y ^ 2) * (14 / 15) ^ (j + 1) ≤ 10 := by
  intro b e
  have hok : e.Ok :=
    { demo_ok sch with
      steps := by
        intro d hd
        have hd : some d = some (1 / 2) := List.mem_singleton.mp hd
        rw [Option.some.inj hd]
        norm_num
      fields := by intro x hx; cases hx }
  obtain ⟨fuel, ⟨r, w⟩, hr⟩ := track_returns hok strictMono_id (by norm_num [e, demo]) (δ := 1 / 5) (by norm_num)
    (fun b => by show 1 / 5 ≤ 1 / 5 + b.propDistance ^ 2; nlinarith [sq_nonneg b.propDistance]) (.one b) (by intro l hl; cases hl) false b ()
  obtain ⟨ls, h1, h2, h3⟩ := lens_amplitude hok strictMono_id hsch rfl (foc := 1000) (fun _ => rfl) (d := 1 / 2) rfl hr
  obtain ⟨l, h4, h5⟩ := h3 0 b rfl ⟨fun _ h => (nomatch h), fun _ h => (nomatch h)⟩ rfl
  have hl : ls = [l] := by
    match ls, h2, h4 with
    | [x], _, h4 => exact congrArg (fun y => [y]) (Option.some.inj h4)
  subst h1 hl
  refine ⟨fuel, w, l, hr, fun j b' hj => ?_⟩
  have h6 := h5 0 one_pos
  have hK : -(b.qSpecies * 1000) / (b.mSpecies * e.c) = 1000 := by norm_num [b, Bunch.init, e, demo]
  have hc : e.c = 1 := rfl
  have hph : b.ph 0 = ⟨3, 0, 0, 4, 0, 1000⟩ := rfl
  have hpb : e.pushBefore = true := rfl
  have hγ := (b.ph 0).gamma_sq'
  dsimp only at h6
  rw [hph] at h6 hγ
  dsimp only at h6 hγ
  rw [hK, hc, hγ] at h6
  have P1 : √((4 : ℝ) ^ 2 + 0 ^ 2 + 1000 ^ 2) ≤ 1001 := Real.sqrt_le_iff.mpr (by norm_num)
  have P0 : 0 ≤ √((4 : ℝ) ^ 2 + 0 ^ 2 + 1000 ^ 2) := Real.sqrt_nonneg _
  generalize √((4 : ℝ) ^ 2 + 0 ^ 2 + 1000 ^ 2) = P at *
  have hθ : 1000 * P * (1 / 2 * 1) ^ 2 / (4 * (1 + 4 ^ 2 + 0 ^ 2 + 1000 ^ 2)) ≤ 1 / 15 := by
    rw [div_le_div_iff₀ (by norm_num) (by norm_num)]
    linarith
  obtain ⟨-, h7, -⟩ := h6 (by norm_num) (by norm_num) (hθ.trans (by norm_num)) j b' hj
  rw [if_pos hpb] at h7
  refine (mul_le_mul_of_nonneg_left (pow_le_pow_left₀ (by norm_num) (by linarith) _) (by positivity)).trans (h7.trans ?_)
  have : 2 * ((4 : ℝ) ^ 2 + 0 ^ 2) / (1000 * (P + 1000)) ≤ 1 := by
    rw [div_le_one (by positivity)]
    linarith
  linarith

end WakeT.FieldElement
