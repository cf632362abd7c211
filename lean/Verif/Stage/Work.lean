import Verif.Stage.Acceleration

/-!
# Work and energy (C172)

With the Boris pusher the energy of a particle changes only by the work of the electric field,
exactly, for any time step and any magnetic field.  So no particle gains or loses more energy
than the largest electric field can give it over the distance.
-/

set_option linter.unusedSectionVars false

namespace WakeT.Stage

open Tracker Bunch FieldElement
open Push (Ph PField Sched felt)
open Fields (EB)

variable {F Φ : Type} [LinearOrder F]

/-! ### Specification -/

/-- The electric field is nowhere larger than `E`. -/
def Weak (E : ℝ) (fs : List PField) : Prop :=
  ∀ t p, √((felt fs t p).ex ^ 2 + (felt fs t p).ey ^ 2 + (felt fs t p).ez ^ 2) ≤ E

/-- What the field `f` does to a charge with the mean momentum of `p` and `p'`. -/
noncomputable def power (f : EB ℝ) (p p' : Ph) : ℝ :=
  f.ex * ((p.px + p'.px) / 2) + f.ey * ((p.py + p'.py) / 2) + f.ez * ((p.pz + p'.pz) / 2)

/-! ### One step -/

theorem lorentz_pos (p : Ph) : 0 < lorentz p := Real.sqrt_pos.mpr (by positivity)

theorem lorentz_sq (p : Ph) : lorentz p ^ 2 = 1 + p.px ^ 2 + p.py ^ 2 + p.pz ^ 2 :=
  Real.sq_sqrt (by positivity)

/-- Centred momenta: the magnetic force does no work. -/
theorem centred_work {k : Push.Const} {dt : ℝ} {f : EB ℝ} {p p' : Ph} (h : Push.Centred k dt f p p') :
    lorentz p' ^ 2 - lorentz p ^ 2 = 2 * (k.q * dt / (k.m * k.c)) * power f p p' := by
  unfold Push.Centred at h
  dsimp only at h
  obtain ⟨h1, h2, h3⟩ := h
  rw [lorentz_sq, lorentz_sq]
  unfold power
  generalize k.q * dt / (k.m * k.c) = a at *
  generalize √(1 + (p.px + a / 2 * f.ex) ^ 2 + (p.py + a / 2 * f.ey) ^ 2 + (p.pz + a / 2 * f.ez) ^ 2) = g at *
  have e : ∀ x : ℝ, k.c * x / (2 * g) = k.c / (2 * g) * x := fun x => by ring
  simp only [e] at h1 h2 h3
  generalize k.c / (2 * g) = s at *
  linear_combination (p'.px + p.px) * h1 + (p'.py + p.py) * h2 + (p'.pz + p.pz) * h3

theorem boris_work_step (k : Push.Const) (fs : List PField) (t dt : ℝ) (p : Ph) : ∃ f : EB ℝ, f = felt fs (t + dt / 2) (p.drift k (dt / 2)) ∧
    lorentz (Push.borisStep k fs t dt p) ^ 2 - lorentz p ^ 2 =
      2 * (k.q * dt / (k.m * k.c)) * power f p (Push.borisStep k fs t dt p) := by
  have hs : Push.Sched.Valid (fun _ _ => [0]) 1 := fun _ _ => List.Perm.refl _
  obtain ⟨p', -, h2, h3⟩ := Push.boris_centred (k := k) (fields := fs) hs t dt (fun _ => p) (fun _ => ⟨0, 0, 0, 0, 0, 0⟩) 0 one_pos
  rw [Push.boris_apply k fs hs, if_pos one_pos] at h3
  refine ⟨_, rfl, ?_⟩
  rw [h3]
  exact centred_work h2

theorem power_le {f : EB ℝ} {E : ℝ} (h : √(f.ex ^ 2 + f.ey ^ 2 + f.ez ^ 2) ≤ E) (p p' : Ph) :
    |power f p p'| ≤ E * ((lorentz p + lorentz p') / 2) := by
  have hE : 0 ≤ E := (Real.sqrt_nonneg _).trans h
  have h1 : f.ex ^ 2 + f.ey ^ 2 + f.ez ^ 2 ≤ E ^ 2 := (Real.sqrt_le_left hE).mp h
  have key : ∀ q : Ph, |f.ex * q.px + f.ey * q.py + f.ez * q.pz| ≤ E * lorentz q := by
    intro q
    have hg := lorentz_sq q
    apply abs_le_of_sq_le_sq _ (mul_nonneg hE (lorentz_pos q).le)
    rw [mul_pow, hg]
    have h2 : (f.ex * q.px + f.ey * q.py + f.ez * q.pz) ^ 2 ≤
        (f.ex ^ 2 + f.ey ^ 2 + f.ez ^ 2) * (q.px ^ 2 + q.py ^ 2 + q.pz ^ 2) := by
      nlinarith only [sq_nonneg (f.ex * q.py - f.ey * q.px), sq_nonneg (f.ex * q.pz - f.ez * q.px), sq_nonneg (f.ey * q.pz - f.ez * q.py)]
    have h3 : (f.ex ^ 2 + f.ey ^ 2 + f.ez ^ 2) * (q.px ^ 2 + q.py ^ 2 + q.pz ^ 2) ≤ E ^ 2 * (q.px ^ 2 + q.py ^ 2 + q.pz ^ 2) := by gcongr
    nlinarith only [h2, h3, sq_nonneg E]
  have h2 := key p
  have h3 := key p'
  have e : power f p p' = ((f.ex * p.px + f.ey * p.py + f.ez * p.pz) + (f.ex * p'.px + f.ey * p'.py + f.ez * p'.pz)) / 2 := by
    unfold power; ring
  rw [e, abs_div, abs_of_pos (two_pos : (0 : ℝ) < 2)]
  have h4 := abs_add_le (f.ex * p.px + f.ey * p.py + f.ez * p.pz) (f.ex * p'.px + f.ey * p'.py + f.ez * p'.pz)
  linarith

theorem boris_energy {k : Push.Const} (hc : 0 < k.c) (hm : 0 < k.m) {fs : List PField} {E : ℝ} (hf : Weak E fs) (t : ℝ) {dt : ℝ} (hdt : 0 ≤ dt) (p : Ph) :
    |lorentz (Push.borisStep k fs t dt p) - lorentz p| ≤ |k.q| * E * dt / (k.m * k.c) := by
  obtain ⟨f, hfe, h⟩ := boris_work_step k fs t dt p
  generalize Push.borisStep k fs t dt p = p' at *
  have h1 := power_le (f := f) (E := E) (by rw [hfe]; exact hf _ _) p p'
  have hs : 0 < lorentz p + lorentz p' := add_pos (lorentz_pos _) (lorentz_pos _)
  have e1 : (lorentz p' - lorentz p) * (lorentz p + lorentz p') = 2 * (k.q * dt / (k.m * k.c)) * power f p p' := by
    rw [← h]; ring
  have e2 : |lorentz p' - lorentz p| * (lorentz p + lorentz p') ≤ |k.q| * E * dt / (k.m * k.c) * (lorentz p + lorentz p') := by
    calc |lorentz p' - lorentz p| * (lorentz p + lorentz p') = |(lorentz p' - lorentz p) * (lorentz p + lorentz p')| := by
          rw [abs_mul, abs_of_pos hs]
      _ = 2 * (|k.q| * dt / (k.m * k.c)) * |power f p p'| := by
          rw [e1, abs_mul, abs_mul, abs_div, abs_mul k.q, abs_of_nonneg hdt, abs_of_pos (mul_pos hm hc), abs_of_pos (two_pos : (0 : ℝ) < 2)]
      _ ≤ 2 * (|k.q| * dt / (k.m * k.c)) * (E * ((lorentz p + lorentz p') / 2)) := by gcongr
      _ = |k.q| * E * dt / (k.m * k.c) * (lorentz p + lorentz p') := by ring
  exact le_of_mul_le_mul_right e2 hs

/-! ### C172 -/

/-- **C172, one step.** The energy that a push with the Boris pusher gives to a particle is the work of the electric field at its position after half of the step, along the mean of its
old and new velocity: `γ'² - γ² = (2 q dt / m c) E · (u + u') / 2`, for any magnetic field and step. -/
theorem boris_work {k : Push.Const} {fields : List PField} {sch : Sched} {n : ℕ} (hs : sch.Valid n) (t dt : ℝ) (b : ℕ → Ph) (eb : ℕ → EB ℝ) (i : ℕ) (hi : i < n) :
    let p' := (Push.boris k fields sch t dt b eb).1 i
    lorentz p' ^ 2 - lorentz (b i) ^ 2 =
      2 * (k.q * dt / (k.m * k.c)) * power (felt fields (t + dt / 2) ((b i).drift k (dt / 2))) (b i) p' := by
  rw [Push.boris_apply k fields hs, if_pos hi]
  obtain ⟨f, rfl, h⟩ := boris_work_step k fields t dt (b i)
  exact h

/-- **C172.** With the Boris pusher no particle gains or loses more energy (in `m c²`) between two outputs than `|q| E T / (m c)`, if the electric field is nowhere larger than `E`, whatever
the magnetic field and the steps, with and without ballistic injection. -/
theorem energy_bound {e : Elem F Φ} (h : e.Ok) (hm : StrictMono e.f32) (hpush : e.pushBefore = true) (hp : e.pusher = "boris")
    (hsch : ∀ n, (e.sch n).Valid n) {E : ℝ} (hE : 0 ≤ E) (hf : ∀ φ, Weak E (e.felt φ))
    (opmd : Bool) (fuel : ℕ) (bunches : OneOrMany Bunch) (hb : ∀ b ∈ bunches.toList, b.Fits) (b0 : Bunch) (φ : Φ)
    {r : OneOrMany (List Bunch)} {w : World Φ} (hr : e.track opmd fuel bunches b0 φ = .returned (r, w)) :
    ∃ ls : List (List Bunch), r = pack ls ∧ ls.length = bunches.toList.length ∧
      ∀ (i : ℕ) (b : Bunch), bunches.toList[i]? = some b → 0 < b.mSpecies →
        ∃ l : List Bunch, ls[i]? = some l ∧ l.length = e.nOut + 1 ∧ ∀ k k', k < k' → k' ≤ e.nOut → ∃ b1 b2, l[k]? = some b1 ∧ l[k']? = some b2 ∧
          b1.n = b.n ∧ b2.n = b.n ∧ ∀ p < b.n,
            |lorentz (b1.ph p) - lorentz (b.ph p)| ≤ |b.qSpecies| * E * (k * (e.length / e.c / e.nOut)) / (b.mSpecies * e.c) ∧
            |lorentz (b2.ph p) - lorentz (b1.ph p)| ≤ |b.qSpecies| * E * ((k' - k) * (e.length / e.c / e.nOut)) / (b.mSpecies * e.c) := by
  have hc := h.c
  obtain ⟨ls, h1, h2, h3⟩ := track_rel h hm hpush
    (Rel := fun t b b' => b'.n = b.n ∧ b'.qSpecies = b.qSpecies ∧ b'.mSpecies = b.mSpecies ∧
      (0 < b.mSpecies → ∀ p < b.n, |lorentz (b'.ph p) - lorentz (b.ph p)| ≤ |b.qSpecies| * E * t / (b.mSpecies * e.c)))
    (Good := Bunch.Fits)
    (fun b => ⟨rfl, rfl, rfl, fun _ p _ => by simp⟩)
    (fun s t a b d h1 h2 => ⟨h2.1.trans h1.1, h2.2.1.trans h1.2.1, h2.2.2.1.trans h1.2.2.1, fun hm0 p hp => by
      have a1 := h1.2.2.2 hm0 p hp
      have a2 := h2.2.2.2 (h1.2.2.1.symm ▸ hm0) p (h1.1.symm ▸ hp)
      rw [h1.2.1, h1.2.2.1] at a2
      rw [mul_add, add_div]
      have a3 := abs_add_le (lorentz (d.ph p) - lorentz (b.ph p)) (lorentz (b.ph p) - lorentz (a.ph p))
      rw [sub_add_sub_cancel] at a3
      linarith⟩)
    (by
      intro φ b t dt hdt hfit
      cases ha : b.activeFields (e.felt φ) with
      | error x =>
        rw [evolve_error _ _ _ _ _ _ _ ha]
        refine ⟨hfit, rfl, rfl, rfl, fun _ p hp => ?_⟩
        exfalso
        obtain ⟨fs, h4, -⟩ := activeFields_some (b := b) (by omega) (e.felt φ)
        rw [h4] at ha
        cases ha
      | ok fs =>
        obtain ⟨b', e1, g1, -, g2, -, -, -, -, g4, g5, -, -, g6, g3⟩ := evolve_spec e.c b (e.felt φ) fs (hsch b.n) t dt (Or.inr hp) hfit ha
        rw [e1]
        refine ⟨g3, g1, g4, g5, fun hm0 p hpn => ?_⟩
        rw [g2, if_pos hpn]
        have hw : Weak E fs := by
          unfold Bunch.activeFields at ha
          cases hz : b.zInjection with
          | none =>
            rw [hz] at ha
            rw [← Except.ok.inj ha]
            exact hf φ
          | some z =>
            rw [hz] at ha
            dsimp only at ha
            cases hx : amax b.n (fun i => (b.ph i).xi) with
            | none => rw [hx] at ha; cases ha
            | some x =>
              rw [hx] at ha
              rw [← Except.ok.inj ha]
              split_ifs
              · intro t p
                simpa [felt] using hE
              · exact hf φ
        unfold stepOf
        rw [if_neg (by rw [hp]; decide)]
        exact boris_energy (k := b.const e.c) hc hm0 hw t hdt (b.ph p))
    opmd fuel bunches hb b0 φ hr
  refine ⟨ls, h1, h2, fun i b hi hm0 => ?_⟩
  obtain ⟨l, g1, g2, g3⟩ := h3 i b hi
  refine ⟨l, g1, g2, fun k k' hk hk' => ?_⟩
  obtain ⟨b1, b2, e1, e2, e3, e4⟩ := g3 k k' hk hk'
  refine ⟨b1, b2, e1, e2, e3.1, e4.1.trans e3.1, fun p hp => ⟨e3.2.2.2 hm0 p hp, ?_⟩⟩
  have := e4.2.2.2 (e3.2.2.1.symm ▸ hm0) p (e3.1.symm ▸ hp)
  rwa [e3.2.1, e3.2.2.1] at this

/-- A bunch of electrons in two metres of a quadrupole together with an electric field of size `5` in the three directions: no particle gains more than `10 m c²`. -/
example (sch : ℕ → Sched) (hsch : ∀ n, (sch n).Valid n) :
    ∃ fuel r w ls l b', ({ FieldElement.demo sch with felt := fun _ => [fun t x _ _ v => { v with ex := v.ex + 3 * Real.cos t, ey := v.ey + 3 * Real.sin t, ez := v.ez + 4, b_y := v.b_y + 7 * x }] } : Elem ℝ Unit).track false fuel
      (.many [sample none, sample none]) (sample none) () = .returned (r, w) ∧ r = pack ls ∧ ls[0]? = some l ∧ l[2]? = some b' ∧
      ∀ p < 2, |lorentz (b'.ph p) - lorentz ((sample none).ph p)| ≤ 10 := by
  have hfits : ∀ b ∈ (OneOrMany.many [sample none, sample none]).toList, b.Fits := by
    intro b hb
    rcases List.mem_cons.mp hb with rfl | hb
    · exact sample_fits _
    · rw [List.mem_singleton.mp hb]
      exact sample_fits _
  have hok : ∀ fs : List PField, ({ FieldElement.demo sch with felt := fun _ => fs } : Elem ℝ Unit).Ok := fun fs => { FieldElement.demo_ok sch with }
  have ret : ∀ fs : List PField, ∃ fuel rw, ({ FieldElement.demo sch with felt := fun _ => fs } : Elem ℝ Unit).track false fuel
      (.many [sample none, sample none]) (sample none) () = .returned rw := fun fs =>
    track_returns (hok fs) strictMono_id (by norm_num [FieldElement.demo]) (δ := 1 / 5) (by norm_num)
      (fun b => by simp only [FieldElement.demo]; nlinarith [sq_nonneg b.propDistance]) _ (by intro l hl; cases hl; rfl) false (sample none) ()
  obtain ⟨fuel, ⟨r, w⟩, hr⟩ := ret [fun t x _ _ v => { v with ex := v.ex + 3 * Real.cos t, ey := v.ey + 3 * Real.sin t, ez := v.ez + 4, b_y := v.b_y + 7 * x }]
  obtain ⟨ls, h1, -, h3⟩ := energy_bound (E := 5) (hok _) strictMono_id rfl rfl hsch (by norm_num) (by
    intro φ t p
    simp only [felt, List.foldl_cons, List.foldl_nil]
    rw [show (0 + 3 * Real.cos t) ^ 2 + (0 + 3 * Real.sin t) ^ 2 + (0 + 4) ^ 2 = (5 : ℝ) ^ 2 by
      have := Real.sin_sq_add_cos_sq t
      linear_combination 9 * this]
    rw [Real.sqrt_sq (by norm_num)]) false fuel _ hfits _ _ hr
  obtain ⟨l, h4, -, h5⟩ := h3 0 (sample none) rfl (by norm_num [sample, init])
  obtain ⟨b1, b2, e0, h6, -, -, h7⟩ := h5 0 2 (by norm_num) (by norm_num [FieldElement.demo])
  refine ⟨fuel, r, w, ls, l, b2, hr, h1, h4, h6, fun p hp => ?_⟩
  obtain ⟨g1, g2⟩ := h7 p (by simpa [sample, init] using hp)
  have g3 := abs_add_le (lorentz (b2.ph p) - lorentz (b1.ph p)) (lorentz (b1.ph p) - lorentz ((sample none).ph p))
  rw [sub_add_sub_cancel] at g3
  generalize lorentz (b2.ph p) - lorentz (b1.ph p) = x2 at *
  generalize lorentz (b1.ph p) - lorentz ((sample none).ph p) = x1 at *
  norm_num [FieldElement.demo, sample, init] at g1 g2
  rw [g1, abs_zero] at g3
  linarith

end WakeT.Stage
