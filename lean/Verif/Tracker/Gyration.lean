import Verif.Stage.Invariants

/-! # Gyration in uniform magnetic fields (C189) -/

set_option linter.unusedSectionVars false

namespace WakeT.FieldElement

open Tracker Bunch
open Push (Ph PField Sched Const felt motion)

variable {F Φ : Type} [LinearOrder F]

/-! ### Specification -/

/-- A uniform and constant magnetic field. -/
def UniformB (bx b_y bz : ℝ) (fs : List PField) : Prop := ∀ t p, felt fs t p = ⟨0, 0, 0, bx, b_y, bz⟩

/-- The momentum has changed by the product of `κ = q / (m c)` with the displacement and the magnetic field, as on the exact
helix.  The displacement along the axis in the laboratory is that of `ξ` and the distance `s` that light has moved. -/
structure Gyrates (κ bx b_y bz s : ℝ) (p p' : Ph) : Prop where
  px : p'.px - p.px = κ * ((p'.y - p.y) * bz - (p'.xi - p.xi + s) * b_y)
  py : p'.py - p.py = κ * ((p'.xi - p.xi + s) * bx - (p'.x - p.x) * bz)
  pz : p'.pz - p.pz = κ * ((p'.x - p.x) * b_y - (p'.y - p.y) * bx)

/-! ### One step -/

variable {κ bx b_y bz s t : ℝ} {p q r : Ph}

theorem Gyrates.refl (p : Ph) : Gyrates κ bx b_y bz 0 p p := by
  constructor <;> ring

theorem Gyrates.trans (h : Gyrates κ bx b_y bz s p q) (h' : Gyrates κ bx b_y bz t q r) : Gyrates κ bx b_y bz (s + t) p r where
  px := by linear_combination h.px + h'.px
  py := by linear_combination h.py + h'.py
  pz := by linear_combination h.pz + h'.pz

theorem gyrates_shift (k : Const) {fs : List PField} (hf : UniformB bx b_y bz fs) (t h : ℝ) (p q : Ph) :
    Gyrates (k.q / (k.m * k.c)) bx b_y bz (k.c * h) p (p.shift h (motion k fs t q)) := by
  constructor <;> simp only [Ph.shift, motion, hf t q] <;> ring

theorem rk4_gyrates (k : Const) {fs : List PField} (hf : UniformB bx b_y bz fs) (t dt : ℝ) (p : Ph) :
    Gyrates (k.q / (k.m * k.c)) bx b_y bz (k.c * dt) p (Push.classicalRK4 (motion k fs) t dt p) := by
  unfold Push.classicalRK4
  dsimp only
  have h := (((gyrates_shift k hf t (dt / 6) p p).trans (gyrates_shift k hf (t + dt / 2) (dt / 3) _
    (p.shift (dt / 2) (motion k fs t p)))).trans (gyrates_shift k hf (t + dt / 2) (dt / 3) _
    (p.shift (dt / 2) (motion k fs (t + dt / 2) (p.shift (dt / 2) (motion k fs t p)))))).trans
    (gyrates_shift k hf (t + dt) (dt / 6) _ (p.shift dt (motion k fs (t + dt / 2)
    (p.shift (dt / 2) (motion k fs (t + dt / 2) (p.shift (dt / 2) (motion k fs t p)))))))
  have e : k.c * (dt / 6) + k.c * (dt / 3) + k.c * (dt / 3) + k.c * (dt / 6) = k.c * dt := by ring
  rw [e] at h
  exact h

theorem boris_gyrates (k : Const) {fs : List PField} (hf : UniformB bx b_y bz fs) (t dt : ℝ) (p : Ph) :
    Gyrates (k.q / (k.m * k.c)) bx b_y bz (k.c * dt) p (Push.borisStep k fs t dt p) := by
  have sch : Sched.Valid (fun _ _ => List.range 1) 1 := fun _ _ => List.Perm.refl _
  obtain ⟨p', ⟨e1, e2, e3⟩, hcen, e4⟩ := Push.boris_centred k fs sch t dt (fun _ => p) (fun _ => ⟨0, 0, 0, 0, 0, 0⟩) 0 Nat.one_pos
  rw [Push.boris_apply k fs sch, if_pos Nat.one_pos] at e4
  have hg := boris_lorentz k (fs := fs) (fun t p => by rw [hf t p]; exact ⟨rfl, rfl, rfl⟩) t dt p
  rw [e4] at hg ⊢
  rw [hf] at hcen
  have hg : p'.gamma = p.gamma := hg
  unfold Push.Centred at hcen
  dsimp only at hcen
  simp only [Push.Ph.drift, mul_zero, add_zero, zero_add] at hcen e1 e2 e3
  have hgp : √(1 + p.px ^ 2 + p.py ^ 2 + p.pz ^ 2) = p.gamma := rfl
  rw [hgp] at hcen
  have hgn := (Push.gamma_pos p).ne'
  obtain ⟨c1, c2, c3⟩ := hcen
  constructor <;> simp only [Push.Ph.drift, hg, e1, e2, e3]
  · rw [c1]; field_simp; ring
  · rw [c2]; field_simp; ring
  · rw [c3]; field_simp; ring

/-! ### Whole tracking -/

/-- What is known between two outputs. -/
def Turning (pusher : String) (c bx b_y bz : ℝ) (d : ℝ) (b b' : Bunch) : Prop :=
  b'.n = b.n ∧ b'.qSpecies = b.qSpecies ∧ b'.mSpecies = b.mSpecies ∧
    ∀ p < b.n, Gyrates (b.qSpecies / (b.mSpecies * c)) bx b_y bz (c * d) (b.ph p) (b'.ph p) ∧
      (pusher = "boris" → lorentz (b'.ph p) = lorentz (b.ph p))

/-- In a uniform magnetic field both pushers keep, for every time step, the relation between momentum and position of
the exact motion; the Boris pusher keeps the energy as well. -/
theorem track_gyrates {e : Elem F Φ} (h : e.Ok) (hm : StrictMono e.f32) (hpush : e.pushBefore = true)
    (hp : e.pusher = "rk4" ∨ e.pusher = "boris") (hsch : ∀ n, (e.sch n).Valid n) (hf : ∀ φ, UniformB bx b_y bz (e.felt φ))
    (opmd : Bool) (fuel : ℕ) (bunches : OneOrMany Bunch) (hb : ∀ b ∈ bunches.toList, b.Fits ∧ b.zInjection = none) (b0 : Bunch)
    (φ : Φ) {r : OneOrMany (List Bunch)} {w : World Φ} (hr : e.track opmd fuel bunches b0 φ = .returned (r, w)) :
    ∃ ls : List (List Bunch), r = pack ls ∧ ls.length = bunches.toList.length ∧
      ∀ (i : ℕ) (b : Bunch), bunches.toList[i]? = some b → ∃ l : List Bunch, ls[i]? = some l ∧ l.length = e.nOut + 1 ∧
        ∀ j ≤ e.nOut, ∃ b', l[j]? = some b' ∧ b'.n = b.n ∧ ∀ p < b.n,
          Gyrates (b.qSpecies / (b.mSpecies * e.c)) bx b_y bz (j * (e.length / e.nOut)) (b.ph p) (b'.ph p) ∧
          (e.pusher = "boris" → lorentz (b'.ph p) = lorentz (b.ph p)) := by
  obtain ⟨ls, h1, h2, h3⟩ := track_rel h hm hpush (Rel := Turning e.pusher e.c bx b_y bz) (Good := fun b => b.Fits ∧ b.zInjection = none)
    (fun b => ⟨rfl, rfl, rfl, fun p _ => ⟨by rw [mul_zero]; exact .refl _, fun _ => rfl⟩⟩)
    (fun s t a b d h1 h2 => ⟨h2.1.trans h1.1, h2.2.1.trans h1.2.1, h2.2.2.1.trans h1.2.2.1, fun p hp => by
      obtain ⟨h3, h4⟩ := h2.2.2.2 p (h1.1.symm ▸ hp)
      rw [h1.2.1, h1.2.2.1] at h3
      rw [mul_add]
      exact ⟨(h1.2.2.2 p hp).1.trans h3, fun hB => (h4 hB).trans ((h1.2.2.2 p hp).2 hB)⟩⟩)
    (by
      rintro φ b t dt - ⟨hfit, hz⟩
      have hact : b.activeFields (e.felt φ) = .ok (e.felt φ) := by
        unfold Bunch.activeFields
        rw [hz]
      obtain ⟨b', e1, g1, -, g2, -, -, -, -, g3, g4, -, -, g5, g6⟩ :=
        evolve_spec e.c b (e.felt φ) (e.felt φ) (hsch b.n) t dt hp hfit hact
      rw [e1]
      refine ⟨⟨g6, g5.trans hz⟩, g1, g3, g4, fun p hpn => ?_⟩
      rw [g2, if_pos hpn]
      unfold stepOf
      split_ifs with hrk
      · exact ⟨rk4_gyrates (b.const e.c) (hf φ) t dt _, fun hB => absurd (hrk.symm.trans hB) (by decide)⟩
      · exact ⟨boris_gyrates (b.const e.c) (hf φ) t dt _,
          fun _ => boris_lorentz (b.const e.c) (fun t p => by rw [hf φ t p]; exact ⟨rfl, rfl, rfl⟩) t dt _⟩)
    opmd fuel bunches hb b0 φ hr
  refine ⟨ls, h1, h2, fun i b hi => ?_⟩
  obtain ⟨l, g1, g2, g3⟩ := h3 i b hi
  refine ⟨l, g1, g2, fun j hj => ?_⟩
  have hn : 0 < e.nOut := by
    rcases Nat.eq_zero_or_pos e.nOut with h0 | h0
    · have := h.sep
      rw [h0] at this
      simp at this
    · exact h0
  have hc := h.c.ne'
  have hT : ∀ x : ℝ, e.c * (x * (e.length / e.c / e.nOut)) = x * (e.length / e.nOut) := fun x => by field_simp
  rcases Nat.eq_zero_or_pos j with rfl | hj0
  · obtain ⟨b1, b2, e1, -, e3, -⟩ := g3 0 e.nOut hn le_rfl
    refine ⟨b1, e1, e3.1, fun p hp => ?_⟩
    obtain ⟨h5, h6⟩ := e3.2.2.2 p hp
    rw [hT] at h5
    exact ⟨h5, h6⟩
  · obtain ⟨b1, b2, e1, e2, e3, e4⟩ := g3 0 j hj0 hj
    refine ⟨b2, e2, e4.1.trans e3.1, fun p hp => ?_⟩
    obtain ⟨h5, h8⟩ := e3.2.2.2 p hp
    obtain ⟨h6, h9⟩ := e4.2.2.2 p (e3.1.symm ▸ hp)
    rw [e3.2.1, e3.2.2.1] at h6
    rw [hT] at h5 h6
    have h7 := h5.trans h6
    have e : ((0 : ℕ) : ℝ) * (e.length / e.nOut) + ((j : ℝ) - ((0 : ℕ) : ℝ)) * (e.length / e.nOut) = j * (e.length / e.nOut) := by
      push_cast
      ring
    rw [e] at h7
    exact ⟨h7, fun hB => (h9 hB).trans (h8 hB)⟩

/-- In a uniform field along the axis a particle with the Boris pusher stays on a circle around its guiding centre, with the
radius `m c p⊥ / (q B)`, and keeps its longitudinal momentum, for every time step. -/
theorem track_circle {e : Elem F Φ} (h : e.Ok) (hm : StrictMono e.f32) (hpush : e.pushBefore = true)
    (hp : e.pusher = "boris") (hsch : ∀ n, (e.sch n).Valid n) (hf : ∀ φ, UniformB 0 0 bz (e.felt φ)) (hbz : bz ≠ 0)
    (opmd : Bool) (fuel : ℕ) (bunches : OneOrMany Bunch)
    (hb : ∀ b ∈ bunches.toList, b.Fits ∧ b.zInjection = none ∧ b.qSpecies ≠ 0 ∧ b.mSpecies ≠ 0) (b0 : Bunch)
    (φ : Φ) {r : OneOrMany (List Bunch)} {w : World Φ} (hr : e.track opmd fuel bunches b0 φ = .returned (r, w)) :
    ∃ ls : List (List Bunch), r = pack ls ∧ ls.length = bunches.toList.length ∧
      ∀ (i : ℕ) (b : Bunch), bunches.toList[i]? = some b → ∃ l : List Bunch, ls[i]? = some l ∧ l.length = e.nOut + 1 ∧
        ∀ j ≤ e.nOut, ∃ b', l[j]? = some b' ∧ b'.n = b.n ∧ ∀ p < b.n,
          let ρ := b.mSpecies * e.c / (b.qSpecies * bz)
          (b'.ph p).pz = (b.ph p).pz ∧
          ((b'.ph p).x - ((b.ph p).x + ρ * (b.ph p).py)) ^ 2 + ((b'.ph p).y - ((b.ph p).y - ρ * (b.ph p).px)) ^ 2 =
            ρ ^ 2 * ((b.ph p).px ^ 2 + (b.ph p).py ^ 2) := by
  obtain ⟨ls, h1, h2, h3⟩ := track_gyrates h hm hpush (Or.inr hp) hsch hf opmd fuel bunches
    (fun b hb' => ⟨(hb b hb').1, (hb b hb').2.1⟩) b0 φ hr
  refine ⟨ls, h1, h2, fun i b hi => ?_⟩
  obtain ⟨-, -, hq, hmm⟩ := hb b (List.mem_of_getElem? hi)
  obtain ⟨l, g1, g2, g3⟩ := h3 i b hi
  refine ⟨l, g1, g2, fun j hj => ?_⟩
  obtain ⟨b', e1, e2, e3⟩ := g3 j hj
  refine ⟨b', e1, e2, fun p hpn => ?_⟩
  obtain ⟨hgy, hlo⟩ := e3 p hpn
  have hlo := hlo hp
  have hc := h.c.ne'
  intro ρ
  obtain ⟨h4, h5, h6⟩ := hgy
  have hz : (b'.ph p).pz = (b.ph p).pz := by linear_combination h6
  have hsq : (b'.ph p).px ^ 2 + (b'.ph p).py ^ 2 = (b.ph p).px ^ 2 + (b.ph p).py ^ 2 := by
    unfold lorentz at hlo
    have := (Real.sqrt_inj (by positivity) (by positivity)).mp hlo
    rw [hz] at this
    linarith
  have hρ : ρ * (b.qSpecies / (b.mSpecies * e.c) * bz) = 1 := by
    simp only [ρ]
    field_simp
  have h7 : (b'.ph p).x - ((b.ph p).x + ρ * (b.ph p).py) = -ρ * (b'.ph p).py := by
    linear_combination ρ * h5 - ((b'.ph p).x - (b.ph p).x) * hρ
  have h8 : (b'.ph p).y - ((b.ph p).y - ρ * (b.ph p).px) = ρ * (b'.ph p).px := by
    linear_combination (-ρ) * h4 - ((b'.ph p).y - (b.ph p).y) * hρ
  refine ⟨hz, ?_⟩
  rw [h7, h8, ← hsq]
  ring

/-! ### A case -/

/-- A solenoid field. -/
def solenoid : List PField := [fun _ _ _ _ v => { v with bz := v.bz + 5 }]

theorem solenoid_uniform : UniformB 0 0 5 solenoid := fun t p => by simp [felt, solenoid]

/-- The hypotheses hold for an element with this field, both pushers and a bunch with several particles, and the tracking
returns. -/
example (sch : ℕ → Sched) (pusher : String) (ph : ℕ → Ph) :
    let b : Bunch := (Bunch.init 3 (fun _ => 1) ph none 0 0 none none (-1) 1 0).1
    let e : Elem ℝ Unit := { demo sch with felt := fun _ => solenoid, dtBunch := .one (some (1 / 7)), pusher := pusher, numFields := [] }
    e.Ok ∧ (∀ φ, UniformB 0 0 5 (e.felt φ)) ∧ (b.Fits ∧ b.zInjection = none ∧ b.qSpecies ≠ 0 ∧ b.mSpecies ≠ 0) ∧
      ∃ fuel x, e.track false fuel (.one b) b () = .returned x := by
  intro b e
  have hok : e.Ok :=
    { demo_ok sch with
      steps := by
        intro d hd
        have hd : some d = some (1 / 7) := List.mem_singleton.mp hd
        rw [Option.some.inj hd]
        norm_num
      fields := by intro x hx; cases hx }
  refine ⟨hok, fun _ => solenoid_uniform, ⟨⟨fun _ h => (nomatch h), fun _ h => (nomatch h)⟩, rfl, ?_, ?_⟩, ?_⟩
  · show (-1 : ℝ) ≠ 0
    norm_num
  · show (1 : ℝ) ≠ 0
    norm_num
  · exact track_returns hok strictMono_id (by norm_num [e, demo]) (δ := 1 / 5) (by norm_num)
      (fun b => by simp only [e, demo]; nlinarith [sq_nonneg b.propDistance]) (.one b) (by intro l hl; cases hl) false b ()

end WakeT.FieldElement
