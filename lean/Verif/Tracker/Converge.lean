import Verif.Push.Converge
import Verif.Tracker.Ahead

/-! # Tracking converges to the solutions of the equations of motion (C135) -/

set_option linter.unusedSectionVars false

namespace WakeT.Tracker

theorem Tiles.le {a b : ℝ} {l : List (ℝ × ℝ)} (h : Tiles a l b) (hl : ∀ x ∈ l, 0 ≤ x.2) : a ≤ b := by
  induction l generalizing a with
  | nil => exact le_of_eq h
  | cons x l ih =>
    have h1 := ih h.2 fun y hy => hl y (List.mem_cons_of_mem _ hy)
    have h2 := hl x List.mem_cons_self
    linarith

end WakeT.Tracker

namespace WakeT.FieldElement

open Tracker Bunch
open Push (PField Sched Ph Slow Const Near Smooth Trajectory Consistent errorBound)

variable {F Φ : Type} [LinearOrder F]

/-- What holds for a bunch at the time of its last push is kept by all pushes. -/
theorem replay_inv {e : Elem F Φ} {opmd : Bool} {n : ℕ} {dts : List (Option ℝ)} {dtF : List ℝ} {Inv : ℝ → Bunch → Prop}
    {D T : ℝ} (hev : ∀ φ b t dt, 0 ≤ t → 0 ≤ dt → dt ≤ D → t + dt ≤ T → Inv t b →
      Inv (t + dt) (b.evolve e.c (e.felt φ) (e.sch b.n) t dt e.pusher).1) (i : ℕ)
    (log : List (Ev ℝ)) (hlog : ∀ b i t dt, Ev.push b i t dt ∈ log → 0 ≤ dt ∧ dt ≤ D) (w : World Φ) {s t : ℝ}
    (ht : Tiles s (pushesOf i log) t) (hs : 0 ≤ s) (htT : t ≤ T) (h : Inv s (w.bunch i)) :
    Inv t ((log.foldl (e.cfg opmd n dts dtF).apply w).bunch i) := by
  induction log generalizing w s with
  | nil =>
    have ht : s = t := ht
    exact ht ▸ h
  | cons ev log ih =>
    have hlog' : ∀ b i t dt, Ev.push b i t dt ∈ log → 0 ≤ dt ∧ dt ≤ D := fun b i t dt h => hlog b i t dt (List.mem_cons_of_mem _ h)
    cases ev with
    | push b j t' dt =>
      obtain ⟨hdt, hD⟩ := hlog b j t' dt List.mem_cons_self
      have h1 : ∀ m, ((e.cfg opmd n dts dtF).apply w (.push b j t' dt)).bunch m =
          if m = j then ((w.bunch j).evolve e.c (e.felt w.flds) (e.sch (w.bunch j).n) t' dt e.pusher).1 else w.bunch m := by
        intro m
        show Function.update _ _ _ _ = _
        rw [Function.update_apply]
      by_cases hij : i = j
      · subst hij
        have hp : pushesOf i (Ev.push b i t' dt :: log) = (t', dt) :: pushesOf i log := by simp [pushesOf]
        rw [hp] at ht
        obtain ⟨e1, ht⟩ := ht
        subst e1
        have hle : t' + dt ≤ t := ht.le fun x hx => by
          unfold pushesOf at hx
          obtain ⟨ev, hev', hx⟩ := List.mem_filterMap.mp hx
          cases ev with
          | push b' i' t'' dt' =>
            dsimp only at hx
            split_ifs at hx
            cases hx
            exact (hlog' _ _ _ _ hev').1
          | update _ _ => cases hx
          | diag _ => cases hx
        refine ih hlog' ((e.cfg opmd n dts dtF).apply w (.push b i t' dt)) ht (by linarith) ?_
        rw [h1, if_pos rfl]
        exact hev _ _ _ _ hs hdt hD (hle.trans htT) h
      · have hp : pushesOf i (Ev.push b j t' dt :: log) = pushesOf i log := by
          unfold pushesOf
          rw [List.filterMap_cons]
          dsimp only
          rw [if_neg fun h' : j = i => hij h'.symm]
        rw [hp] at ht
        refine ih hlog' ((e.cfg opmd n dts dtF).apply w (.push b j t' dt)) ht hs ?_
        rw [h1, if_neg hij]
        exact h
    | update j t' => exact ih hlog' ((e.cfg opmd n dts dtF).apply w (.update j t')) ht hs h
    | diag t' => exact ih hlog' w ht hs h

/-- Whatever is kept by all pushes holds for the outputs. -/
theorem track_inv {e : Elem F Φ} (h : e.Ok) (hm : StrictMono e.f32) (hpush : e.pushBefore = true) {D : ℝ} (hD0 : 0 ≤ D)
    (hD : ∀ d, some d ∈ e.dtBunch.toList → d ≤ D) (hA : none ∈ e.dtBunch.toList → ∀ b, e.autoDt b ≤ D)
    {Inv : ℕ → ℝ → Bunch → Prop} (hev : ∀ i φ b t dt, 0 ≤ t → 0 ≤ dt → dt ≤ D → t + dt ≤ e.length / e.c → Inv i t b →
      Inv i (t + dt) (b.evolve e.c (e.felt φ) (e.sch b.n) t dt e.pusher).1)
    (opmd : Bool) (fuel : ℕ) (bunches : OneOrMany Bunch) (b0 : Bunch) (φ : Φ)
    {r : OneOrMany (List Bunch)} {w : World Φ} (hr : e.track opmd fuel bunches b0 φ = .returned (r, w)) :
    ∃ ls : List (List Bunch), r = pack ls ∧ ls.length = bunches.toList.length ∧
      ∀ (i : ℕ) (b : Bunch), bunches.toList[i]? = some b → Inv i 0 b → ∃ l : List Bunch, ls[i]? = some l ∧ l.length = e.nOut + 1 ∧
        ∀ j ≤ e.nOut, ∃ b', l[j]? = some b' ∧ Inv i (j * (e.length / e.c / e.nOut)) b' := by
  unfold Elem.track at hr
  dsimp only at hr
  split at hr
  · cases hr
  next dts hd =>
  split at hr
  · cases hr
  next dtF hf =>
  split at hr
  next s hs =>
    have hr := (Prod.mk.inj (Result.returned.inj hr)).1
    have hp := cfg_positive h opmd hd hf
    obtain ⟨hlen, htimes⟩ := snapshot_times _ _ _ _ hp h.mono h.sep hs
    obtain ⟨-, hsnap⟩ := snapshots_replay _ _ _ _ hs
    have hfw := pushes_forward _ _ _ _ hp hm hs
    have hbl := pushes_below _ _ _ _ hp hm (cfg_below hD hA opmd hd) hD0 hs
    refine ⟨_, hr.symm, by simp [bunchLists], fun i b hb hinv => ?_⟩
    have hi : i < bunches.toList.length := (List.getElem?_eq_some_iff.mp hb).1
    refine ⟨s.snaps.map fun w => w.bunch i, by simp [bunchLists, hi], by rw [List.length_map, hlen]; rfl, ?_⟩
    intro j hj
    have ht : (diagTimes s.log)[j]? = some (j * (e.length / e.c / e.nOut)) := by
      rw [htimes]
      have : j < e.nOut + 1 := by omega
      simp [Elem.cfg, this]
    obtain ⟨before, after, hlog, hw⟩ := worlds_split (e.cfg opmd bunches.toList.length dts dtF)
      (world bunches.toList b0 φ) s.log j _ ht
    rw [← hsnap] at hw
    have hwb : (world bunches.toList b0 φ).bunch i = b := by
      show bunches.toList.getD i b0 = b
      rw [List.getD_eq_getElem?_getD, hb]
      rfl
    have t1 := snapshots_synchronised _ _ _ _ hp h.mono hpush hs before _ _ hlog i hi
    refine ⟨_, by rw [List.getElem?_map, hw]; rfl, ?_⟩
    have hT : (j : ℝ) * (e.length / e.c / e.nOut) ≤ e.length / e.c := by
      have h0 : 0 < e.length / e.c := div_pos h.length h.c
      rcases Nat.eq_zero_or_pos e.nOut with h1 | h1
      · rw [h1, Nat.cast_zero, div_zero, mul_zero]
        exact h0.le
      · have h2 : (0 : ℝ) < e.nOut := by exact_mod_cast h1
        have h3 : (j : ℝ) ≤ e.nOut := by exact_mod_cast hj
        calc _ ≤ (e.nOut : ℝ) * (e.length / e.c / e.nOut) := mul_le_mul_of_nonneg_right h3 (by positivity)
          _ = _ := by field_simp
    exact replay_inv (hev i) i before (fun b i t dt hm => by
      have hm : Ev.push b i t dt ∈ s.log := by rw [hlog]; simp [hm]
      exact ⟨hfw b i t dt hm, hbl b i t dt hm⟩) _ t1 le_rfl hT (hwb ▸ hinv)
  · cases hr
  · cases hr
  · cases hr

/-- What is known about the bunch `i` at the time `t`: the error is at most `err t`. -/
def Follows (bunches : OneOrMany Bunch) (k : Const) (z : ℝ → Ph) (err : ℝ → ℝ) (i : ℕ) (t : ℝ) (b1 : Bunch) : Prop :=
  ∀ b, bunches.toList[i]? = some b → b.Fits → b.zInjection = none → b.qSpecies = k.q → b.mSpecies = k.m →
    b1.Fits ∧ b1.n = b.n ∧ b1.zInjection = none ∧ b1.qSpecies = k.q ∧ b1.mSpecies = k.m ∧ ∀ p < b.n, b.ph p = z 0 →
      Slow k.c t (z 0) (b1.ph p) ∧ Near (err t) (b1.ph p) (z t)

/-- A bound of the error that holds for each step, in whatever fields are present then, holds for the outputs of
tracking. -/
theorem track_error_of_steps {c q m : ℝ} (hc : 0 < c) {T D : ℝ} {z : ℝ → Ph} {err : ℝ → ℝ} (herr : 0 ≤ err 0)
    {e : Elem F Φ} (h : e.Ok) (hm : StrictMono e.f32) (hsch : ∀ n, (e.sch n).Valid n) (hpush : e.pushBefore = true)
    (hp : e.pusher = "rk4" ∨ e.pusher = "boris") (hec : e.c = c) (hlen : e.length = c * T)
    (hD0 : 0 ≤ D) (hD : ∀ d, some d ∈ e.dtBunch.toList → d ≤ D) (hA : none ∈ e.dtBunch.toList → ∀ b, e.autoDt b ≤ D)
    (hstep : ∀ φ t dt p, 0 ≤ t → 0 ≤ dt → dt ≤ D → t + dt ≤ T → Slow c t (z 0) p → Near (err t) p (z t) →
      Near (err (t + dt)) (stepOf e.pusher ⟨c, q, m⟩ (e.felt φ) t dt p) (z (t + dt)))
    {opmd : Bool} {fuel : ℕ} {bunches : OneOrMany Bunch} {b0 : Bunch} {φ : Φ} {r : OneOrMany (List Bunch)} {w : World Φ}
    (hr : e.track opmd fuel bunches b0 φ = .returned (r, w)) :
    ∃ ls : List (List Bunch), r = pack ls ∧ ls.length = bunches.toList.length ∧
      ∀ (i : ℕ) (b : Bunch), bunches.toList[i]? = some b → b.Fits → b.zInjection = none → b.qSpecies = q → b.mSpecies = m →
        ∃ l : List Bunch, ls[i]? = some l ∧ l.length = e.nOut + 1 ∧
          ∀ p < b.n, b.ph p = z 0 → ∀ j ≤ e.nOut, ∃ b', l[j]? = some b' ∧ b'.n = b.n ∧
            0 ≤ (j : ℝ) * (T / e.nOut) ∧ (j : ℝ) * (T / e.nOut) ≤ T ∧
            Near (err (j * (T / e.nOut))) (b'.ph p) (z (j * (T / e.nOut))) := by
  have hT : e.length / e.c = T := by rw [hlen, hec]; field_simp
  have hT0 : 0 < T := by rw [← hT]; exact div_pos h.length h.c
  have hev : ∀ i φ b1 t dt, 0 ≤ t → 0 ≤ dt → dt ≤ D → t + dt ≤ e.length / e.c → Follows bunches ⟨c, q, m⟩ z err i t b1 →
      Follows bunches ⟨c, q, m⟩ z err i (t + dt) (b1.evolve e.c (e.felt φ) (e.sch b1.n) t dt e.pusher).1 := by
    intro i φ b1 t dt ht hdt hdD htT hb1 b hi hf hzi hq hmm
    obtain ⟨a1, a2, a3, a4, a5, a6⟩ := hb1 b hi hf hzi hq hmm
    have hact : b1.activeFields (e.felt φ) = .ok (e.felt φ) := by
      unfold Bunch.activeFields
      rw [a3]
    obtain ⟨b', e1, g1, -, g2, -, -, -, -, g3, g4, -, -, g5, g6⟩ :=
      evolve_spec e.c b1 (e.felt φ) (e.felt φ) (hsch b1.n) t dt hp a1 hact
    rw [e1]
    refine ⟨g6, g1.trans a2, g5.trans a3, g3.trans a4, g4.trans a5, fun p hpn hp0 => ?_⟩
    obtain ⟨s1, s2⟩ := a6 p hpn hp0
    have hk : b1.const e.c = ⟨c, q, m⟩ := by
      unfold Bunch.const
      rw [a4, a5, hec]
    rw [g2, if_pos (a2.symm ▸ hpn), hk]
    rw [hT] at htT
    exact ⟨s1.trans hc (stepOf_slow (k := ⟨c, q, m⟩) hc (e.felt φ) t hdt _), hstep φ t dt _ ht hdt hdD htT s1 s2⟩
  obtain ⟨ls, h1, h2, h3⟩ := track_inv h hm hpush hD0 hD hA hev opmd fuel bunches b0 φ hr
  refine ⟨ls, h1, h2, fun i b hi hf hzi hq hmm => ?_⟩
  obtain ⟨l, g1, g2, g3⟩ := h3 i b hi (by
    intro b' hb' _ _ _ _
    have hb' : b = b' := Option.some.inj (hi.symm.trans hb')
    subst hb'
    refine ⟨hf, rfl, hzi, hq, hmm, fun p _ hp0 => ?_⟩
    rw [hp0]
    exact ⟨.refl _ _, .refl herr _⟩)
  refine ⟨l, g1, g2, fun p hpn hp0 j hj => ?_⟩
  obtain ⟨b', e1, e2⟩ := g3 j hj
  obtain ⟨-, e2, -, -, -, e3⟩ := e2 b hi hf hzi hq hmm
  have e4 := (e3 p hpn hp0).2
  rw [hT] at e4
  refine ⟨b', e1, e2, by positivity, ?_, e4⟩
  rcases Nat.eq_zero_or_pos e.nOut with h1 | h1
  · rw [h1, Nat.cast_zero, div_zero, mul_zero]
    exact hT0.le
  · have h2 : (0 : ℝ) < e.nOut := by exact_mod_cast h1
    have h3 : (j : ℝ) ≤ e.nOut := by exact_mod_cast hj
    calc _ ≤ (e.nOut : ℝ) * (T / e.nOut) := mul_le_mul_of_nonneg_right h3 (by positivity)
      _ = _ := by field_simp

/-- The same with given fields. -/
theorem track_error {c q m : ℝ} (hc : 0 < c) {fields : List PField} {T D : ℝ} {z : ℝ → Ph} {err : ℝ → ℝ} (herr : 0 ≤ err 0)
    {e : Elem F Φ} (h : e.Ok) (hm : StrictMono e.f32) (hsch : ∀ n, (e.sch n).Valid n) (hpush : e.pushBefore = true)
    (hp : e.pusher = "rk4" ∨ e.pusher = "boris") (hec : e.c = c) (hlen : e.length = c * T) (hfelt : ∀ φ, e.felt φ = fields)
    (hD0 : 0 ≤ D) (hD : ∀ d, some d ∈ e.dtBunch.toList → d ≤ D) (hA : none ∈ e.dtBunch.toList → ∀ b, e.autoDt b ≤ D)
    (hstep : ∀ t dt p, 0 ≤ t → 0 ≤ dt → dt ≤ D → t + dt ≤ T → Slow c t (z 0) p → Near (err t) p (z t) →
      Near (err (t + dt)) (stepOf e.pusher ⟨c, q, m⟩ fields t dt p) (z (t + dt)))
    {opmd : Bool} {fuel : ℕ} {bunches : OneOrMany Bunch} {b0 : Bunch} {φ : Φ} {r : OneOrMany (List Bunch)} {w : World Φ}
    (hr : e.track opmd fuel bunches b0 φ = .returned (r, w)) :
    ∃ ls : List (List Bunch), r = pack ls ∧ ls.length = bunches.toList.length ∧
      ∀ (i : ℕ) (b : Bunch), bunches.toList[i]? = some b → b.Fits → b.zInjection = none → b.qSpecies = q → b.mSpecies = m →
        ∃ l : List Bunch, ls[i]? = some l ∧ l.length = e.nOut + 1 ∧
          ∀ p < b.n, b.ph p = z 0 → ∀ j ≤ e.nOut, ∃ b', l[j]? = some b' ∧ b'.n = b.n ∧
            0 ≤ (j : ℝ) * (T / e.nOut) ∧ (j : ℝ) * (T / e.nOut) ≤ T ∧
            Near (err (j * (T / e.nOut))) (b'.ph p) (z (j * (T / e.nOut))) :=
  track_error_of_steps hc herr h hm hsch hpush hp hec hlen hD0 hD hA (fun φ t dt p ht hdt hdD htT s1 s2 => by
    rw [hfelt]
    exact hstep t dt p ht hdt hdD htT s1 s2) hr

/-- The outputs of tracking through given fields tend to the exact trajectory with the time step.  The constant `C`
is the same for all time steps up to `D` (of different bunches, fixed or automatic), both pushers and any number of
outputs. -/
theorem track_converges {c q m : ℝ} (hc : 0 < c) {fields : List PField} {T M L : ℝ} {z : ℝ → Ph}
    (hz : Trajectory ⟨c, q, m⟩ fields T z) (hs : Smooth fields T (z 0) (c * T) M L) :
    ∃ C, ∀ (e : Elem F Φ) (D : ℝ), e.Ok → StrictMono e.f32 → (∀ n, (e.sch n).Valid n) → e.pushBefore = true →
      (e.pusher = "rk4" ∨ e.pusher = "boris") → e.c = c → e.length = c * T → (∀ φ, e.felt φ = fields) →
      0 ≤ D → (∀ d, some d ∈ e.dtBunch.toList → d ≤ D) → (none ∈ e.dtBunch.toList → ∀ b, e.autoDt b ≤ D) →
      ∀ opmd fuel bunches b0 φ r w, e.track opmd fuel bunches b0 φ = .returned (r, w) →
      ∃ ls : List (List Bunch), r = pack ls ∧ ls.length = bunches.toList.length ∧
        ∀ (i : ℕ) (b : Bunch), bunches.toList[i]? = some b → b.Fits → b.zInjection = none → b.qSpecies = q → b.mSpecies = m →
          ∃ l : List Bunch, ls[i]? = some l ∧ l.length = e.nOut + 1 ∧
            ∀ p < b.n, b.ph p = z 0 → ∀ j ≤ e.nOut, ∃ b', l[j]? = some b' ∧ b'.n = b.n ∧
              Near (C * D) (b'.ph p) (z (j * (T / e.nOut))) := by
  refine ⟨2 * (Push.rateLip ⟨c, q, m⟩ M L * (1 + Push.rateBound ⟨c, q, m⟩ M)) * T * Real.exp (Push.rateLip ⟨c, q, m⟩ M L * T), ?_⟩
  intro e D h hm hsch hpush hp hec hlen hfelt hD0 hD hA opmd fuel bunches b0 φ r w hr
  have hcons : Consistent ⟨c, q, m⟩ fields T (z 0) (Push.rateLip ⟨c, q, m⟩ M L * (1 + Push.rateBound ⟨c, q, m⟩ M))
      (stepOf e.pusher ⟨c, q, m⟩ fields) := by
    by_cases h' : e.pusher = "rk4"
    · have : stepOf e.pusher ⟨c, q, m⟩ fields = Push.classicalRK4 (Push.motion ⟨c, q, m⟩ fields) := by
        funext t dt p
        unfold stepOf
        rw [if_pos h']
      rw [this]
      exact Push.rk4_consistent (k := ⟨c, q, m⟩) hc hs
    · have : stepOf e.pusher ⟨c, q, m⟩ fields = Push.borisStep ⟨c, q, m⟩ fields := by
        funext t dt p
        unfold stepOf
        rw [if_neg h']
      rw [this]
      exact Push.boris_consistent (k := ⟨c, q, m⟩) hc hs
  obtain ⟨ls, h1, h2, h3⟩ := track_error (q := q) (m := m) (T := T) (D := D) (z := z) (err := errorBound ⟨c, q, m⟩ M L D) hc
    (by unfold errorBound; simp) h hm hsch hpush hp hec hlen hfelt hD0 hD hA
    (fun t dt p ht hdt hdD htT s1 s2 => Push.converge_step (k := ⟨c, q, m⟩) hc hz hs hcons ht hdt hdD htT s1 s2) hr
  refine ⟨ls, h1, h2, fun i b hi hf hzi hq hmm => ?_⟩
  obtain ⟨l, g1, g2, g3⟩ := h3 i b hi hf hzi hq hmm
  refine ⟨l, g1, g2, fun p hpn hp0 j hj => ?_⟩
  obtain ⟨b', e1, e2, hj0, hj1, e4⟩ := g3 p hpn hp0 j hj
  refine ⟨b', e1, e2, e4.mono ?_⟩
  have hA := Push.rateBound_nonneg (k := ⟨c, q, m⟩) (M := M) hc hs.M0
  have hΛ := Push.rateLip_nonneg (k := ⟨c, q, m⟩) (M := M) (L := L) hc hs.M0 hs.L0
  have hT0 : 0 ≤ T := hj0.trans hj1
  unfold errorBound
  generalize (j : ℝ) * (T / e.nOut) = t at *
  have h5 : Real.exp (Push.rateLip ⟨c, q, m⟩ M L * t) ≤ Real.exp (Push.rateLip ⟨c, q, m⟩ M L * T) :=
    Real.exp_le_exp.mpr (mul_le_mul_of_nonneg_left hj1 hΛ)
  calc _ ≤ 2 * (Push.rateLip ⟨c, q, m⟩ M L * (1 + Push.rateBound ⟨c, q, m⟩ M)) * D * T *
        Real.exp (Push.rateLip ⟨c, q, m⟩ M L * T) :=
      mul_le_mul (mul_le_mul_of_nonneg_left hj1 (by positivity)) h5 (Real.exp_pos _).le (by positivity)
    _ = _ := by ring

/-! ### A case -/

/-- A quadrupole with a longitudinal electric field. -/
def demoFields : List PField :=
  [fun _ x y _ v => { v with bx := v.bx + 3 * y, b_y := v.b_y + 3 * x }, fun _ _ _ _ v => { v with ez := v.ez + 1 }]

/-- A particle on the axis that is accelerated from rest. -/
noncomputable def demoPath (t : ℝ) : Ph := ⟨0, 0, √(1 + t ^ 2) - 1 - t, 0, 0, t⟩

theorem demo_felt (t : ℝ) (p : Ph) : Push.felt demoFields t p = ⟨0, 0, 1, 3 * p.y, 3 * p.x, 0⟩ := by
  simp [Push.felt, demoFields]

theorem demoFields_smooth : Smooth demoFields 2 (demoPath 0) (1 * 2) 6 3 where
  M0 := by norm_num
  L0 := by norm_num
  bounded := by
    rintro t p - - ⟨h1, h2, -⟩
    rw [demo_felt]
    simp only [demoPath, sub_zero, abs_le] at h1 h2
    constructor <;> simp only [sub_zero, abs_le] <;> constructor <;> linarith
  lipschitz := by
    rintro t s p q - - - - - -
    rw [demo_felt, demo_felt]
    have h1 := abs_nonneg (t - s)
    have h2 := abs_nonneg (p.x - q.x)
    have h3 := abs_nonneg (p.y - q.y)
    have h4 := abs_nonneg (p.xi - q.xi)
    constructor <;> dsimp only
    · rw [sub_self, abs_zero]; positivity
    · rw [sub_self, abs_zero]; positivity
    · rw [sub_self, abs_zero]; positivity
    · rw [← mul_sub, abs_mul, abs_of_pos (by norm_num : (0 : ℝ) < 3)]; linarith
    · rw [← mul_sub, abs_mul, abs_of_pos (by norm_num : (0 : ℝ) < 3)]; linarith
    · rw [sub_self, abs_zero]; positivity

theorem demoPath_exact : Trajectory ⟨1, -1, -1⟩ demoFields 2 demoPath := by
  have hg : ∀ t, (demoPath t).gamma = √(1 + t ^ 2) := fun t => by simp [Push.Ph.gamma, demoPath]
  have h0 : ∀ (a : ℝ) (t : ℝ) (s : Set ℝ), HasDerivWithinAt (fun _ : ℝ => a) 0 s t := fun a t s => hasDerivWithinAt_const t s a
  have h1 : ∀ t, Push.motion ⟨1, -1, -1⟩ demoFields t (demoPath t) = ⟨0, 0, t / √(1 + t ^ 2) - 1, 0, 0, 1⟩ := by
    intro t
    unfold Push.motion
    rw [demo_felt, hg]
    simp [demoPath]
  constructor <;> intro t ht <;> rw [h1]
  · exact h0 _ _ _
  · exact h0 _ _ _
  · have h2 : HasDerivAt (fun t : ℝ => 1 + t ^ 2) (2 * t) t := by
      simpa using (hasDerivAt_pow 2 t).const_add 1
    have h3 : HasDerivAt (fun t : ℝ => √(1 + t ^ 2) - 1 - t) (2 * t / (2 * √(1 + t ^ 2)) - 1) t :=
      ((h2.sqrt (by positivity)).sub_const 1).sub (hasDerivAt_id t)
    have h4 : t / √(1 + t ^ 2) - 1 = 2 * t / (2 * √(1 + t ^ 2)) - 1 := by rw [mul_div_mul_left _ _ two_ne_zero]
    show HasDerivWithinAt (fun t : ℝ => √(1 + t ^ 2) - 1 - t) (t / √(1 + t ^ 2) - 1) _ t
    rw [h4]
    exact h3.hasDerivWithinAt
  · exact h0 _ _ _
  · exact h0 _ _ _
  · exact hasDerivWithinAt_id t _

/-- A bunch with one particle, of an element with these fields, with any step `D` and both pushers: the tracking returns, and
the last output differs from the exact position by at most `C D`. -/
example (sch : ℕ → Sched) (hsch : ∀ n, (sch n).Valid n) : ∃ C, ∀ D, 0 < D → ∀ pusher, pusher = "rk4" ∨ pusher = "boris" →
    let b : Bunch := (Bunch.init 1 (fun _ => 1) (fun _ => demoPath 0) none 0 0 none none (-1) (-1) 0).1
    ∃ fuel ls w b', ({ demo sch with felt := fun _ => demoFields, dtBunch := .one (some D), pusher := pusher, numFields := [] } :
        Elem ℝ Unit).track false fuel (.one b) b () = .returned (.one ls, w) ∧ ls[2]? = some b' ∧
      Near (C * D) (b'.ph 0) (demoPath 2) := by
  obtain ⟨C, hC⟩ := track_converges (F := ℝ) (Φ := Unit) one_pos demoPath_exact demoFields_smooth
  refine ⟨C, fun D hD pusher hp => ?_⟩
  intro b
  have hok : ({ demo sch with felt := fun _ => demoFields, dtBunch := .one (some D), pusher := pusher, numFields := [] } :
      Elem ℝ Unit).Ok :=
    { demo_ok sch with
      steps := by
        intro d hd
        have hd : some d = some D := List.mem_singleton.mp hd
        rw [Option.some.inj hd]
        exact hD
      fields := by intro x hx; cases hx }
  obtain ⟨fuel, ⟨r, w⟩, hr⟩ := track_returns hok strictMono_id (by norm_num [demo]) (δ := 1 / 5) (by norm_num)
    (fun b => by simp only [demo]; nlinarith [sq_nonneg b.propDistance]) (.one b) (by intro l hl; cases hl) false b ()
  obtain ⟨ls, h1, h2, h3⟩ := hC _ D hok strictMono_id hsch rfl hp rfl (by norm_num [demo]) (fun _ => rfl) hD.le (by
    intro d hd
    have hd : some d = some D := List.mem_singleton.mp hd
    exact (Option.some.inj hd).le) (by
    intro hn
    have hn : (none : Option ℝ) = some D := List.mem_singleton.mp hn
    cases hn) false fuel _ b () r w hr
  obtain ⟨l, h4, -, h5⟩ := h3 0 b rfl ⟨fun _ h => (nomatch h), fun _ h => (nomatch h)⟩ rfl rfl rfl
  obtain ⟨b', h6, -, h7⟩ := h5 0 Nat.one_pos rfl 2 le_rfl
  match ls, h2, h4, h1 with
  | [l'], _, h4, h1 =>
    have h4 : l' = l := Option.some.inj h4
    subst h4
    refine ⟨fuel, l', w, b', ?_, h6, ?_⟩
    · rw [hr, h1]
      rfl
    · norm_num [demo] at h7
      exact h7

end WakeT.FieldElement
