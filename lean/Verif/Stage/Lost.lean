import Verif.Stage.Invariants
import Verif.Stage.Wake
import Verif.Tracker.Turned

/-!
# Particles outside of the simulation box (C173)

The wakefields on a grid end at the boundary of the box.  Particles that have left it, backwards
or sideways, never come back; they and the particles that have not entered it yet drift.
-/

set_option linter.unusedSectionVars false

namespace WakeT.Stage

open Tracker Bunch FieldElement
open Push (Ph PField Sched felt Slow)
open Fields (EB NumField)

variable {F Φ : Type} [LinearOrder F]

/-! ### Specification -/

/-- The fields vanish behind `lo`, in front of `hi` and beyond the radius `R`. -/
def Boxed (lo hi R : ℝ) (fs : List PField) : Prop :=
  ∀ t p, (p.xi < lo ∨ hi < p.xi ∨ R < √(p.x ^ 2 + p.y ^ 2)) → felt fs t p = ⟨0, 0, 0, 0, 0, 0⟩

/-- The particle is behind the box, or beyond the radius `R` and on its way out. -/
def Gone (lo R : ℝ) (p : Ph) : Prop :=
  p.xi < lo ∨ R < √(p.x ^ 2 + p.y ^ 2) ∧ 0 ≤ p.x * p.px + p.y * p.py

/-! ### One step -/

theorem felt_none (t : ℝ) (p : Ph) : felt [] t p = ⟨0, 0, 0, 0, 0, 0⟩ := rfl

theorem drift_add (k : Push.Const) (p : Ph) (d e : ℝ) : (p.drift k d).drift k e = p.drift k (d + e) := by
  unfold Push.Ph.drift Push.Ph.gamma
  ext <;> simp only <;> ring

theorem gone_drift {k : Push.Const} (hc : 0 < k.c) {lo R : ℝ} {p : Ph} (hp : Gone lo R p) {h : ℝ} (hh : 0 ≤ h) : Gone lo R (p.drift k h) := by
  rcases hp with hp | ⟨h1, h2⟩
  · exact .inl (((Push.drift_slower_than_light k hc p h).1 hh).trans_lt hp)
  · have hg : 0 < p.gamma := Push.gamma_pos p
    refine .inr ?_
    unfold Push.Ph.drift
    dsimp only
    have e : ∀ u : ℝ, h * (k.c * u / p.gamma) = h * k.c / p.gamma * u := fun u => by ring
    simp only [e]
    have hs : 0 ≤ h * k.c / p.gamma := by positivity
    generalize h * k.c / p.gamma = s at hs
    have h3 := mul_nonneg hs h2
    refine ⟨h1.trans_le (Real.sqrt_le_sqrt ?_), ?_⟩
    · nlinarith only [h3, sq_nonneg (s * p.px), sq_nonneg (s * p.py)]
    · nlinarith only [h2, mul_nonneg hs (sq_nonneg p.px), mul_nonneg hs (sq_nonneg p.py)]

theorem step_free (pusher : String) (k : Push.Const) (t dt : ℝ) (p : Ph) : stepOf pusher k [] t dt p = p.drift k dt := by
  have hs : Push.Sched.Valid (fun _ _ => [0]) 1 := fun _ _ => List.Perm.refl _
  obtain ⟨h1, h2⟩ := Push.free_drift (k := k) (fields := []) hs t dt (fun _ => p) ⟨fun _ => p, fun _ => p, fun _ => p⟩
    (fun _ => ⟨0, 0, 0, 0, 0, 0⟩) (fun _ _ => rfl) 0 one_pos
  rw [Push.boris_apply k [] hs, if_pos one_pos] at h1
  rw [Push.rk4_apply k [] hs, if_pos one_pos] at h2
  unfold stepOf
  split_ifs
  · exact h2
  · exact h1

theorem step_gone {k : Push.Const} (hc : 0 < k.c) {lo hi R : ℝ} {fs : List PField} (hf : Boxed lo hi R fs) (pusher : String) (t : ℝ) {dt : ℝ} (hdt : 0 ≤ dt)
    {p : Ph} (hp : Gone lo R p) : stepOf pusher k fs t dt p = p.drift k dt := by
  rw [← step_free pusher k t dt p]
  have hfelt : ∀ t q, Gone lo R q → felt fs t q = felt [] t q := fun t q hq => by
    rw [felt_none]
    exact hf t q (by rcases hq with h | h; exacts [.inl h, .inr (.inr h.1)])
  have hm : ∀ t q, Gone lo R q → Push.motion k fs t q = Push.motion k [] t q := fun t q hq => by
    unfold Push.motion
    rw [hfelt t q hq]
  have hshift : ∀ (h t : ℝ) (q q' : Ph), Gone lo R q → 0 ≤ h → q'.px = q.px → q'.py = q.py → q'.pz = q.pz →
      q.shift h (Push.motion k [] t q') = q.drift k h := by
    intro h t q q' _ _ e1 e2 e3
    have e4 : q'.gamma = q.gamma := by unfold Push.Ph.gamma; rw [e1, e2, e3]
    unfold Push.Ph.shift Push.motion Push.Ph.drift
    rw [felt_none, e1, e2, e3, e4]
    ext <;> simp
  unfold stepOf
  split_ifs
  · unfold Push.classicalRK4
    dsimp only
    have hd : ∀ h : ℝ, 0 ≤ h → Gone lo R (p.drift k h) := fun h hh => gone_drift hc hp hh
    have d2 : 0 ≤ dt / 2 := by linarith
    rw [hm t p hp, hshift (dt / 2) t p p hp d2 rfl rfl rfl, hm _ _ (hd _ d2), hshift (dt / 2) (t + dt / 2) p (p.drift k (dt / 2)) hp d2 rfl rfl rfl, hm _ _ (hd _ d2),
      hshift dt (t + dt / 2) p (p.drift k (dt / 2)) hp hdt rfl rfl rfl, hm _ _ (hd _ hdt)]
  · unfold Push.borisStep
    dsimp only
    have h1 : Push.halfPush1 k dt p = p.drift k (dt / 2) := by
      unfold Push.halfPush1 Push.Ph.drift Push.Ph.gamma
      rw [show 1 + (p.px ^ 2 + p.py ^ 2 + p.pz ^ 2) = 1 + p.px ^ 2 + p.py ^ 2 + p.pz ^ 2 by ring]
      ext <;> simp only <;> ring
    rw [hfelt (t + dt / 2) _ (by rw [h1]; exact gone_drift hc hp (by linarith))]

theorem step_front {k : Push.Const} (hc : 0 < k.c) {lo hi R : ℝ} {fs : List PField} (hf : Boxed lo hi R fs) {pusher : String} (hb : pusher = "boris") (t : ℝ) {dt : ℝ}
    (hdt : 0 ≤ dt) {p : Ph} (hp : hi < (stepOf pusher k fs t dt p).xi) : stepOf pusher k fs t dt p = p.drift k dt := by
  rw [← step_free pusher k t dt p]
  have hs : Push.SameAhead (stepOf pusher k fs t dt p).xi fs [] := fun t' q hq => by
    rw [felt_none, hf t' q (.inr (.inl (hp.trans_le hq)))]
  have hne : ¬ pusher = "rk4" := by rw [hb]; decide
  unfold stepOf at hs ⊢
  rw [if_neg hne] at hs
  rw [if_neg hne, if_neg hne]
  exact (Push.borisStep_ahead hc hs t hdt p le_rfl).symm

theorem boxed_none (lo hi R : ℝ) : Boxed lo hi R [] := fun _ _ _ => rfl

/-! ### C173 -/

/-- **C173.** In fields that end at a box, a particle that is behind the box, or beyond its radius and on its way out, never feels anything again: in all later outputs it is where a free particle is,
and it is still outside.  With the Boris pusher, a particle that is in front of the box in some output has drifted until then. -/
theorem outside_drifts {e : Elem F Φ} (h : e.Ok) (hm : StrictMono e.f32) (hpush : e.pushBefore = true) (hp : e.pusher = "rk4" ∨ e.pusher = "boris")
    (hsch : ∀ n, (e.sch n).Valid n) {lo hi R : ℝ} (hf : ∀ φ, Boxed lo hi R (e.felt φ))
    (opmd : Bool) (fuel : ℕ) (bunches : OneOrMany Bunch) (hb : ∀ b ∈ bunches.toList, b.Fits) (b0 : Bunch) (φ : Φ)
    {r : OneOrMany (List Bunch)} {w : World Φ} (hr : e.track opmd fuel bunches b0 φ = .returned (r, w)) :
    ∃ ls : List (List Bunch), r = pack ls ∧ ls.length = bunches.toList.length ∧
      ∀ (i : ℕ) (b : Bunch), bunches.toList[i]? = some b →
        ∃ l : List Bunch, ls[i]? = some l ∧ l.length = e.nOut + 1 ∧ ∀ k k', k < k' → k' ≤ e.nOut → ∃ b1 b2, l[k]? = some b1 ∧ l[k']? = some b2 ∧
          b1.n = b.n ∧ b2.n = b.n ∧ ∀ p < b.n,
            (Gone lo R (b.ph p) → b1.ph p = (b.ph p).drift (b.const e.c) (k * (e.length / e.c / e.nOut))) ∧
            (Gone lo R (b1.ph p) → Gone lo R (b2.ph p) ∧ b2.ph p = (b1.ph p).drift (b.const e.c) ((k' - k) * (e.length / e.c / e.nOut))) ∧
            (e.pusher = "boris" → hi < (b2.ph p).xi → b2.ph p = (b.ph p).drift (b.const e.c) (k' * (e.length / e.c / e.nOut))) := by
  have hc := h.c
  have hk : ∀ (k k' : Push.Const) (p : Ph) (T : ℝ), k.c = k'.c → p.drift k T = p.drift k' T := by
    intro k k' p T hk
    unfold Push.Ph.drift
    rw [hk]
  obtain ⟨ls, h1, h2, h3⟩ := track_rel h hm hpush
    (Rel := fun t b b' => b'.n = b.n ∧ ∀ p < b.n, Slow e.c t (b.ph p) (b'.ph p) ∧
      (Gone lo R (b.ph p) → b'.ph p = (b.ph p).drift (b.const e.c) t) ∧ (e.pusher = "boris" → hi < (b'.ph p).xi → b'.ph p = (b.ph p).drift (b.const e.c) t))
    (Good := Bunch.Fits)
    (fun b => ⟨rfl, fun p _ => ⟨.refl _ _, fun _ => by simp [Push.Ph.drift], fun _ _ => by simp [Push.Ph.drift]⟩⟩)
    (fun s t a b d h1 h2 => ⟨h2.1.trans h1.1, fun p hp => by
      obtain ⟨a1, a2, a3⟩ := h1.2 p hp
      obtain ⟨b1, b2, b3⟩ := h2.2 p (h1.1.symm ▸ hp)
      refine ⟨a1.trans hc b1, fun hg => ?_, fun hbo hx => ?_⟩
      · have e1 := a2 hg
        rw [b2 (by rw [e1]; exact gone_drift hc hg (a1.xi hc).1), e1, hk (b.const e.c) (a.const e.c) _ _ rfl, drift_add]
      · rw [b3 hbo hx, a3 hbo (hx.trans_le (b1.xi hc).2.2), hk (b.const e.c) (a.const e.c) _ _ rfl, drift_add]⟩)
    (by
      intro φ b t dt hdt hfit
      cases ha : b.activeFields (e.felt φ) with
      | error x =>
        rw [evolve_error _ _ _ _ _ _ _ ha]
        refine ⟨hfit, rfl, fun p hp => ?_⟩
        exfalso
        obtain ⟨fs, h4, -⟩ := activeFields_some (b := b) (by omega) (e.felt φ)
        rw [h4] at ha
        cases ha
      | ok fs =>
        obtain ⟨b', e1, g1, -, g2, -, -, -, -, -, -, -, -, -, g3⟩ := evolve_spec e.c b (e.felt φ) fs (hsch b.n) t dt hp hfit ha
        rw [e1]
        refine ⟨g3, g1, fun p hpn => ?_⟩
        rw [g2, if_pos hpn]
        have hw : Boxed lo hi R fs := by
          unfold Bunch.activeFields at ha
          cases hz : b.zInjection with
          | none =>
            rw [hz] at ha
            rw [← Except.ok.inj ha]
            exact hf φ
          | some z =>
            rw [hz] at ha
            dsimp only at ha
            cases hx : amax b.n (fun i => (b.ph i).xi) with
            | none => rw [hx] at ha; cases ha
            | some x =>
              rw [hx] at ha
              rw [← Except.ok.inj ha]
              split_ifs
              · exact boxed_none _ _ _
              · exact hf φ
        refine ⟨?_, step_gone (k := b.const e.c) hc hw _ t hdt, fun hbo => step_front (k := b.const e.c) hc hw hbo t hdt⟩
        unfold stepOf
        split_ifs
        · exact Push.classicalRK4_slow (k := b.const e.c) hc fs t hdt _
        · exact Push.borisStep_slow (k := b.const e.c) hc fs t hdt _)
    opmd fuel bunches hb b0 φ hr
  refine ⟨ls, h1, h2, fun i b hi => ?_⟩
  obtain ⟨l, g1, g2, g3⟩ := h3 i b hi
  refine ⟨l, g1, g2, fun k k' hkk hk' => ?_⟩
  obtain ⟨b1, b2, e1, e2, e3, e4⟩ := g3 k k' hkk hk'
  refine ⟨b1, b2, e1, e2, e3.1, e4.1.trans e3.1, fun p hp => ?_⟩
  obtain ⟨a1, a2, a3⟩ := e3.2 p hp
  obtain ⟨c1, c2, c3⟩ := e4.2 p (e3.1.symm ▸ hp)
  refine ⟨a2, fun hg => ?_, fun hbo hx => ?_⟩
  · have e5 := c2 hg
    rw [hk (b1.const e.c) (b.const e.c) _ _ rfl] at e5
    refine ⟨?_, e5⟩
    rw [e5]
    exact gone_drift hc hg (c1.xi hc).1
  · rw [c3 hbo hx, a3 hbo (hx.trans_le (c1.xi hc).2.2), hk (b1.const e.c) (b.const e.c) _ _ rfl, drift_add]
    congr 1
    ring

/-- The wakefields on a grid end at the box of the grid. -/
theorem wake_boxed (w : Wake) (s : Option Props) : Boxed w.xiMin w.xiMax (w.rMax - w.rMax / w.nR / 2) (w.field s) := by
  intro t p hout
  cases s with
  | none => rfl
  | some s =>
    simp only [Wake.field, felt, List.foldl_cons, List.foldl_nil, gridField, Interp.gatherMain1]
    have hnot : ¬ w.box.Has (√(p.x ^ 2 + p.y ^ 2)) p.xi := by
      rintro ⟨h1, h2, h3⟩
      rcases hout with h | h | h
      · exact absurd h1 (not_le.mpr h)
      · exact absurd h2 (not_le.mpr h)
      · exact absurd h3 (not_le.mpr h)
    by_cases h0 : √(p.x ^ 2 + p.y ^ 2) = 0
    · rw [if_pos h0]
    · rw [if_neg h0, if_neg hnot]

/-- **C173, plasma stages.** Whatever the wakefield model does: particles that are behind the box of the simulation, or beyond its outermost cell and on their way out, drift to the end of the stage; with the
Boris pusher so do particles in front of the box until it reaches them. -/
theorem stage_lost (p : PStage F) (h : p.elem.Ok) (hm : StrictMono p.f32) (hpush : p.pushBefore = true) (hp : p.pusher = "rk4" ∨ p.pusher = "boris")
    (hsch : ∀ n, (p.sch n).Valid n) (hext : p.ext = []) (opmd : Bool) (fuel : ℕ) (bunches : OneOrMany Bunch) (hb : ∀ b ∈ bunches.toList, b.Fits) (b0 : Bunch)
    {r : OneOrMany (List Bunch)} {w : World (NumField ℝ (Option Props))} (hr : p.track opmd fuel bunches b0 = .returned (r, w)) :
    ∃ ls : List (List Bunch), r = pack ls ∧ ls.length = bunches.toList.length ∧
      ∀ (i : ℕ) (b : Bunch), bunches.toList[i]? = some b →
        ∃ l : List Bunch, ls[i]? = some l ∧ l.length = p.nOut + 1 ∧ ∀ k k', k < k' → k' ≤ p.nOut → ∃ b1 b2, l[k]? = some b1 ∧ l[k']? = some b2 ∧
          b1.n = b.n ∧ b2.n = b.n ∧ ∀ j < b.n,
            (Gone p.wake.xiMin (p.wake.rMax - p.wake.rMax / p.wake.nR / 2) (b.ph j) →
              b1.ph j = (b.ph j).drift (b.const p.wake.k.c) (k * (p.length / p.wake.k.c / p.nOut))) ∧
            (Gone p.wake.xiMin (p.wake.rMax - p.wake.rMax / p.wake.nR / 2) (b1.ph j) →
              b2.ph j = (b1.ph j).drift (b.const p.wake.k.c) ((k' - k) * (p.length / p.wake.k.c / p.nOut))) ∧
            (p.pusher = "boris" → p.wake.xiMax < (b2.ph j).xi → b2.ph j = (b.ph j).drift (b.const p.wake.k.c) (k' * (p.length / p.wake.k.c / p.nOut))) := by
  unfold PStage.track at hr
  split at hr
  · cases hr
  · obtain ⟨ls, h1, h2, h3⟩ := outside_drifts (e := p.elem) h hm hpush hp hsch (lo := p.wake.xiMin) (hi := p.wake.xiMax)
      (R := p.wake.rMax - p.wake.rMax / p.wake.nR / 2) (fun φ => by
        show Boxed _ _ _ (p.wake.field φ.prop ++ p.ext)
        rw [hext, List.append_nil]
        exact wake_boxed p.wake φ.prop) opmd fuel bunches hb b0 _ hr
    refine ⟨ls, h1, h2, fun i b hi => ?_⟩
    obtain ⟨l, g1, g2, g3⟩ := h3 i b hi
    refine ⟨l, g1, g2, fun k k' hkk hk' => ?_⟩
    obtain ⟨b1, b2, e1, e2, e3, e4, e5⟩ := g3 k k' hkk hk'
    exact ⟨b1, b2, e1, e2, e3, e4, fun j hj => ⟨(e5 j hj).1, fun hg => ((e5 j hj).2.1 hg).2, (e5 j hj).2.2⟩⟩

/-- One particle behind the box and one beside it in a stage with a laser and a quasistatic wakefield: the first falls behind further, the other has moved by `4/5` at the end. -/
example (sch : ℕ → Sched) (hsch : ∀ n, (sch n).Valid n) :
    let b : Bunch := { sample none with ph := fun i => if i = 0 then ⟨3, 0, -5, 1, 0, 2⟩ else ⟨0, 6, -1, 0, 4 / 3, 0⟩ }
    ∃ fuel r w l b', (demoStage true sch).track false fuel (.one b) b = .returned (r, w) ∧ r = .one l ∧ l[2]? = some b' ∧ (b'.ph 0).px = 1 ∧ (b'.ph 0).pz = 2 ∧
      (b'.ph 1).x = 0 ∧ (b'.ph 1).y = 34 / 5 ∧ (b'.ph 1).xi = (-2 : ℝ) := by
  intro b
  obtain ⟨fuel, ⟨r, w⟩, hr⟩ := demo_returns true sch (.one b) b
  obtain ⟨ls, h1, h2, h3⟩ := stage_lost (demoStage true sch) (demo_ok true sch) strictMono_id rfl (Or.inr rfl) hsch rfl false fuel (.one b)
    (by
      intro b' hb'
      rw [List.mem_singleton.mp hb']
      exact ⟨fun _ h => (nomatch h), fun _ h => (nomatch h)⟩) b hr
  obtain ⟨l, h4, -, h5⟩ := h3 0 b rfl
  have h6 : r = .one l := by
    match ls, h2 with
    | [a], _ =>
      cases h4
      exact h1
  obtain ⟨b1, b2, e1, e2, -, -, e3⟩ := h5 0 2 (by norm_num) (by norm_num [demoStage])
  have g0 := (e3 0 (by norm_num [b, sample, init])).1 (.inl (by norm_num [b, demoStage, demoWake]))
  have hr1 : (demoStage true sch).wake.rMax - (demoStage true sch).wake.rMax / (demoStage true sch).wake.nR / 2 < 6 := by norm_num [demoStage, demoWake]
  have g1 := (e3 1 (by norm_num [b, sample, init])).1 (.inr ⟨by
    refine hr1.trans_le (Real.le_sqrt_of_sq_le ?_)
    norm_num [b], by norm_num [b]⟩)
  have hz : ∀ q : Ph, q.drift (b.const (demoStage true sch).wake.k.c) (((0 : ℕ) : ℝ) *
      ((demoStage true sch).length / (demoStage true sch).wake.k.c / (demoStage true sch).nOut)) = q := by
    intro q
    simp [Push.Ph.drift]
  rw [hz] at g0 g1
  have f0 := (e3 0 (by norm_num [b, sample, init])).2.1 (by rw [g0]; exact .inl (by norm_num [b, demoStage, demoWake]))
  have f1 := (e3 1 (by norm_num [b, sample, init])).2.1 (by
    rw [g1]
    exact .inr ⟨by
      refine hr1.trans_le (Real.le_sqrt_of_sq_le ?_)
      norm_num [b], by norm_num [b]⟩)
  rw [g0] at f0
  rw [g1] at f1
  have hg : (b.ph 1).gamma = 5 / 3 := by
    unfold Push.Ph.gamma
    rw [show 1 + (b.ph 1).px ^ 2 + (b.ph 1).py ^ 2 + (b.ph 1).pz ^ 2 = (5 / 3 : ℝ) ^ 2 by norm_num [b]]
    exact Real.sqrt_sq (by norm_num)
  refine ⟨fuel, r, w, l, b2, hr, h6, e2, ?_, ?_, ?_, ?_, ?_⟩
  · rw [f0]; norm_num [Push.Ph.drift, b]
  · rw [f0]; norm_num [Push.Ph.drift, b]
  · rw [f1]; norm_num [Push.Ph.drift, b]
  · rw [f1]; simp only [Push.Ph.drift, hg]; norm_num [b, demoStage, demoWake, Bunch.const]
  · rw [f1]; simp only [Push.Ph.drift, hg]; norm_num [b, demoStage, demoWake, Bunch.const]

end WakeT.Stage
