import Verif.Push.Cone
import Verif.Tracker.Turned

/-! # No particle is faster than light on its way through an element (C126) -/

set_option linter.unusedSectionVars false

namespace WakeT.Tracker

variable {K F σ : Type*} [Field K] [LinearOrder K] [IsStrictOrderedRing K]
  [LinearOrder F]

/-- The bunches are never pushed backwards in time. -/
theorem pushes_forward (c : Cfg K F σ) (w : σ) (n : ℕ) (s : St K σ) (hp : c.Positive) (hm : StrictMono c.f32)
    (h : doTracking c n w = .returned s) (b : Bool) (i : ℕ) (t dt : K) (hl : Ev.push b i t dt ∈ s.log) : 0 ≤ dt := by
  obtain ⟨h1, h2, h3⟩ := doTracking_returned h
  have key := run_induction (fun s => InvX c 0 s ∧ ∀ b i t dt, Ev.push b i t dt ∈ s.log → 0 ≤ dt) ?_ n (start c w) s ?_ h3
  · exact key.1.2 b i t dt hl
  · rintro s s' ⟨a1, a2⟩ hs
    refine ⟨invX_step hp.bounded hp hm h2 s s' a1 hs, ?_⟩
    obtain ⟨k, hk, -, -, -, rfl⟩ := step_some hs h2
    rcases Nat.lt_or_ge k c.nBunch with g1 | g1
    · rw [advance_bunch c s g1, evolveBunch_log]
      intro b i t dt hmem
      rcases List.mem_append.mp hmem with hmem | hmem
      · exact a2 _ _ _ _ hmem
      · cases List.mem_singleton.mp hmem
        exact (a1.dtpos k hk).le
    · have g1' : ¬ k < c.nBunch := by omega
      rcases Nat.lt_or_ge k (c.nBunch + c.nField) with g2 | g2
      · rw [advance_field c s g1' g2]
        intro b i t dt hmem
        rcases List.mem_append.mp hmem with hmem | hmem
        · exact a2 _ _ _ _ hmem
        · cases List.mem_singleton.mp hmem
      · have g2' : ¬ k < c.nBunch + c.nField := by omega
        rw [advance_diag c s g1' g2']
        intro b i t dt hmem
        have hmem : Ev.push b i t dt ∈ (beforeDiag c s (s.t k + s.dt k)).log := by
          rcases List.mem_append.mp hmem with hmem | hmem
          · exact hmem
          · cases List.mem_singleton.mp hmem
        unfold beforeDiag at hmem
        split_ifs at hmem
        · rw [pushAll_log] at hmem
          rcases List.mem_append.mp hmem with hmem | hmem
          · exact a2 _ _ _ _ hmem
          · obtain ⟨j, hj, e⟩ := List.mem_map.mp hmem
            have hj := List.mem_range.mp hj
            cases e
            exact sub_nonneg.mpr (a1.ahead _ (nBunch_lt_nObj c hj) _ hk)
        · exact a2 _ _ _ _ hmem
  · refine ⟨invX_start hp.bounded hp w, fun b i t dt hmem => ?_⟩
    rw [start_log] at hmem
    simp at hmem

theorem Tiles.append {a : K} {l l' : List (K × K)} {m b : K} (h : Tiles a l m) (h' : Tiles a (l ++ l') b) : Tiles m l' b := by
  induction l generalizing a with
  | nil =>
    have h : a = m := h
    rwa [← h]
  | cons x l ih => exact ih h.2 h'.2

/-- Two entries of the snapshots, and what happens between them. -/
theorem worlds_between (c : Cfg K F σ) (w : σ) (log : List (Ev K)) {k l : ℕ} (hkl : k < l) {S T : K}
    (hk : (diagTimes log)[k]? = some S) (hl : (diagTimes log)[l]? = some T) :
    ∃ before mid after, log = before ++ .diag S :: (mid ++ .diag T :: after) ∧
      (c.worldsAtDiags w log)[k]? = some (before.foldl c.apply w) ∧
      (c.worldsAtDiags w log)[l]? = some (mid.foldl c.apply (before.foldl c.apply w)) := by
  induction log generalizing w k l with
  | nil => simp [diagTimes] at hk
  | cons ev log ih =>
    cases ev with
    | push b i t dt =>
      obtain ⟨before, mid, after, h1, h2, h3⟩ := ih (c.apply w (.push b i t dt)) hkl hk hl
      exact ⟨.push b i t dt :: before, mid, after, by rw [h1]; rfl, h2, h3⟩
    | update j t =>
      obtain ⟨before, mid, after, h1, h2, h3⟩ := ih (c.apply w (.update j t)) hkl hk hl
      exact ⟨.update j t :: before, mid, after, by rw [h1]; rfl, h2, h3⟩
    | diag t =>
      obtain ⟨l, rfl⟩ : ∃ m, l = m + 1 := ⟨l - 1, by omega⟩
      cases k with
      | zero =>
        have hk : some t = some S := hk
        cases hk
        replace hl : (diagTimes log)[l]? = some T := hl
        suffices hs : ∀ w, ∃ mid after, log = mid ++ Ev.diag T :: after ∧
            (c.worldsAtDiags w log)[l]? = some (mid.foldl c.apply w) by
          obtain ⟨mid, after, h1, h2⟩ := hs w
          exact ⟨[], mid, after, by rw [h1]; rfl, rfl, h2⟩
        clear ih hkl hk
        intro w
        induction log generalizing w l with
        | nil => simp [diagTimes] at hl
        | cons ev log ih =>
          cases ev with
          | push b i t dt =>
            obtain ⟨before, after, h1, h2⟩ := ih l hl (c.apply w (.push b i t dt))
            exact ⟨.push b i t dt :: before, after, by rw [h1]; rfl, h2⟩
          | update j t =>
            obtain ⟨before, after, h1, h2⟩ := ih l hl (c.apply w (.update j t))
            exact ⟨.update j t :: before, after, by rw [h1]; rfl, h2⟩
          | diag t =>
            cases l with
            | zero =>
              have hl : some t = some T := hl
              cases hl
              exact ⟨[], log, rfl, rfl⟩
            | succ l =>
              obtain ⟨before, after, h1, h2⟩ := ih l hl w
              exact ⟨.diag t :: before, after, by rw [h1]; rfl, h2⟩
      | succ k =>
        obtain ⟨before, mid, after, h1, h2, h3⟩ := ih w (by omega) hk hl
        exact ⟨.diag t :: before, mid, after, by rw [h1]; rfl, h2, h3⟩

end WakeT.Tracker

namespace WakeT.FieldElement

open Tracker Bunch
open Push (PField Sched Ph Slow)

variable {F Φ : Type} [LinearOrder F]

/-- Bunches that are related as long as they are pushed. -/
theorem replay_rel {e : Elem F Φ} {opmd : Bool} {n : ℕ} {dts : List (Option ℝ)} {dtF : List ℝ} {Rel : ℝ → Bunch → Bunch → Prop}
    {Good : Bunch → Prop} (h0 : ∀ b, Rel 0 b b) (ha : ∀ s t a b c, Rel s a b → Rel t b c → Rel (s + t) a c)
    (hev : ∀ φ b t dt, 0 ≤ dt → Good b → Good (b.evolve e.c (e.felt φ) (e.sch b.n) t dt e.pusher).1 ∧
      Rel dt b (b.evolve e.c (e.felt φ) (e.sch b.n) t dt e.pusher).1)
    (log : List (Ev ℝ)) (hlog : ∀ b i t dt, Ev.push b i t dt ∈ log → 0 ≤ dt) (w : World Φ)
    (hg : ∀ i < w.n, Good (w.bunch i)) :
    (log.foldl (e.cfg opmd n dts dtF).apply w).n = w.n ∧
    (∀ i < w.n, Good ((log.foldl (e.cfg opmd n dts dtF).apply w).bunch i)) ∧
    ∀ i < w.n, ∀ s t, Tiles s (pushesOf i log) t →
      Rel (t - s) (w.bunch i) ((log.foldl (e.cfg opmd n dts dtF).apply w).bunch i) := by
  induction log generalizing w with
  | nil =>
    refine ⟨rfl, hg, fun i hi s t h => ?_⟩
    have h : s = t := h
    rw [h, sub_self]
    exact h0 _
  | cons ev log ih =>
    have ih := ih fun b i t dt h => hlog b i t dt (List.mem_cons_of_mem _ h)
    cases ev with
    | push b j t dt =>
      have hdt := hlog b j t dt List.mem_cons_self
      have h1 : ∀ m, ((e.cfg opmd n dts dtF).apply w (.push b j t dt)).bunch m =
          if m = j then ((w.bunch j).evolve e.c (e.felt w.flds) (e.sch (w.bunch j).n) t dt e.pusher).1 else w.bunch m := by
        intro m
        show Function.update _ _ _ _ = _
        rw [Function.update_apply]
      have hgood : ∀ m < w.n, Good (((e.cfg opmd n dts dtF).apply w (.push b j t dt)).bunch m) := by
        intro m hm
        rw [h1]
        split_ifs with h
        · subst h
          exact (hev _ _ _ _ hdt (hg m hm)).1
        · exact hg m hm
      obtain ⟨h2, h3, h4⟩ := ih ((e.cfg opmd n dts dtF).apply w (.push b j t dt)) hgood
      refine ⟨h2, h3, fun i hi s t' ht => ?_⟩
      have h4 := h4 i hi
      by_cases h : i = j
      · subst h
        have hp : pushesOf i (Ev.push b i t dt :: log) = (t, dt) :: pushesOf i log := by simp [pushesOf]
        rw [hp] at ht
        have h5 := h4 _ _ ht.2
        rw [h1, if_pos rfl] at h5
        have h6 := ha _ _ _ _ _ (hev w.flds _ t dt hdt (hg i hi)).2 h5
        rw [List.foldl_cons]
        convert h6 using 1
        ring
      · have hp : pushesOf i (Ev.push b j t dt :: log) = pushesOf i log := by
          unfold pushesOf
          rw [List.filterMap_cons]
          dsimp only
          rw [if_neg fun h' : j = i => h h'.symm]
        rw [hp] at ht
        have h5 := h4 _ _ ht
        rw [h1, if_neg h] at h5
        exact h5
    | update j t => exact ih ((e.cfg opmd n dts dtF).apply w (.update j t)) hg
    | diag t => exact ih w hg

/-- Two outputs of a bunch are related as the bunch before and after all pushes in between. -/
theorem track_rel {e : Elem F Φ} (h : e.Ok) (hm : StrictMono e.f32) (hpush : e.pushBefore = true)
    {Rel : ℝ → Bunch → Bunch → Prop} {Good : Bunch → Prop} (h0 : ∀ b, Rel 0 b b)
    (ha : ∀ s t a b c, Rel s a b → Rel t b c → Rel (s + t) a c)
    (hev : ∀ φ b t dt, 0 ≤ dt → Good b → Good (b.evolve e.c (e.felt φ) (e.sch b.n) t dt e.pusher).1 ∧
      Rel dt b (b.evolve e.c (e.felt φ) (e.sch b.n) t dt e.pusher).1)
    (opmd : Bool) (fuel : ℕ) (bunches : OneOrMany Bunch) (hg : ∀ b ∈ bunches.toList, Good b) (b0 : Bunch) (φ : Φ)
    {r : OneOrMany (List Bunch)} {w : World Φ} (hr : e.track opmd fuel bunches b0 φ = .returned (r, w)) :
    ∃ ls : List (List Bunch), r = pack ls ∧ ls.length = bunches.toList.length ∧
      ∀ (i : ℕ) (b : Bunch), bunches.toList[i]? = some b → ∃ l : List Bunch, ls[i]? = some l ∧ l.length = e.nOut + 1 ∧
        ∀ k k', k < k' → k' ≤ e.nOut → ∃ b1 b2, l[k]? = some b1 ∧ l[k']? = some b2 ∧
          Rel (k * (e.length / e.c / e.nOut)) b b1 ∧ Rel ((k' - k) * (e.length / e.c / e.nOut)) b1 b2 := by
  unfold Elem.track at hr
  dsimp only at hr
  split at hr
  · cases hr
  next dts hd =>
  split at hr
  · cases hr
  next dtF hf =>
  split at hr
  next s hs =>
    have hr := (Prod.mk.inj (Result.returned.inj hr)).1
    have hp := cfg_positive h opmd hd hf
    obtain ⟨hlen, htimes⟩ := snapshot_times _ _ _ _ hp h.mono h.sep hs
    obtain ⟨-, hsnap⟩ := snapshots_replay _ _ _ _ hs
    have hfw := pushes_forward _ _ _ _ hp hm hs
    refine ⟨_, hr.symm, by simp [bunchLists], fun i b hb => ?_⟩
    have hi : i < bunches.toList.length := (List.getElem?_eq_some_iff.mp hb).1
    refine ⟨s.snaps.map fun w => w.bunch i, by simp [bunchLists, hi], by rw [List.length_map, hlen]; rfl, ?_⟩
    intro k k' hkk hk'
    have ht : ∀ k ≤ e.nOut, (diagTimes s.log)[k]? = some (k * (e.length / e.c / e.nOut)) := by
      intro k hk
      rw [htimes]
      have : k < e.nOut + 1 := by omega
      simp [Elem.cfg, this]
    obtain ⟨before, mid, after, hlog, hw1, hw2⟩ := worlds_between (e.cfg opmd bunches.toList.length dts dtF)
      (world bunches.toList b0 φ) s.log hkk (ht k (by omega)) (ht k' hk')
    rw [← hsnap] at hw1 hw2
    have hwb : (world bunches.toList b0 φ).bunch i = b := by
      show bunches.toList.getD i b0 = b
      rw [List.getD_eq_getElem?_getD, hb]
      rfl
    have hgw : ∀ i < (world bunches.toList b0 φ).n, Good ((world bunches.toList b0 φ).bunch i) := by
      intro i hi
      apply hg
      have hi : i < bunches.toList.length := hi
      show bunches.toList.getD i b0 ∈ _
      rw [List.getD_eq_getElem?_getD, List.getElem?_eq_getElem hi]
      exact List.getElem_mem hi
    have hf1 : ∀ b i t dt, Ev.push b i t dt ∈ before → 0 ≤ dt := fun b i t dt hm =>
      hfw b i t dt (by rw [hlog]; simp [hm])
    have hf2 : ∀ b i t dt, Ev.push b i t dt ∈ mid → 0 ≤ dt := fun b i t dt hm =>
      hfw b i t dt (by rw [hlog]; simp [hm])
    obtain ⟨hn, hg', hrel⟩ := replay_rel (opmd := opmd) (n := bunches.toList.length) (dts := dts) (dtF := dtF) h0 ha hev
      before hf1 (world bunches.toList b0 φ) hgw
    obtain ⟨-, -, hrel'⟩ := replay_rel (opmd := opmd) (n := bunches.toList.length) (dts := dts) (dtF := dtF) h0 ha hev
      mid hf2 _ (fun i hi => hg' i (by rw [← hn]; exact hi))
    have t1 := snapshots_synchronised _ _ _ _ hp h.mono hpush hs before _ _ hlog i hi
    have t2 := snapshots_synchronised _ _ _ _ hp h.mono hpush hs (before ++ .diag (k * (e.length / e.c / e.nOut)) :: mid) after _
      (by rw [hlog, List.append_assoc]; rfl) i hi
    rw [pushesOf_append] at t2
    have t3 := t1.append t2
    refine ⟨_, _, by rw [List.getElem?_map, hw1]; rfl, by rw [List.getElem?_map, hw2]; rfl, ?_, ?_⟩
    · have := hrel i hi _ _ t1
      rwa [sub_zero, hwb] at this
    · have := hrel' i (by rw [hn]; exact hi) _ _ (show Tiles _ (pushesOf i mid) _ from t3)
      rwa [← sub_mul] at this
  · cases hr
  · cases hr
  · cases hr

/-- Each particle is slower than light on its way between two outputs, in whatever fields. -/
theorem track_slow {e : Elem F Φ} (h : e.Ok) (hm : StrictMono e.f32) (hpush : e.pushBefore = true)
    (hp : e.pusher = "rk4" ∨ e.pusher = "boris") (hsch : ∀ n, (e.sch n).Valid n) (opmd : Bool) (fuel : ℕ)
    (bunches : OneOrMany Bunch) (hb : ∀ b ∈ bunches.toList, b.Fits) (b0 : Bunch) (φ : Φ)
    {r : OneOrMany (List Bunch)} {w : World Φ} (hr : e.track opmd fuel bunches b0 φ = .returned (r, w)) :
    ∃ ls : List (List Bunch), r = pack ls ∧ ls.length = bunches.toList.length ∧
      ∀ (i : ℕ) (b : Bunch), bunches.toList[i]? = some b → ∃ l : List Bunch, ls[i]? = some l ∧ l.length = e.nOut + 1 ∧
        ∀ k k', k < k' → k' ≤ e.nOut → ∃ b1 b2, l[k]? = some b1 ∧ l[k']? = some b2 ∧ b1.n = b.n ∧ b2.n = b.n ∧
          ∀ p < b.n, Slow e.c (k * (e.length / e.c / e.nOut)) (b.ph p) (b1.ph p) ∧
            Slow e.c ((k' - k) * (e.length / e.c / e.nOut)) (b1.ph p) (b2.ph p) := by
  obtain ⟨ls, h1, h2, h3⟩ := track_rel h hm hpush
    (Rel := fun t b b' => b'.n = b.n ∧ ∀ p < b.n, Slow e.c t (b.ph p) (b'.ph p)) (Good := Bunch.Fits)
    (fun b => ⟨rfl, fun p _ => .refl _ _⟩)
    (fun s t a b d h1 h2 => ⟨h2.1.trans h1.1, fun p hp => (h1.2 p hp).trans h.c (h2.2 p (h1.1.symm ▸ hp))⟩)
    (by
      intro φ b t dt hdt hf
      cases ha : b.activeFields (e.felt φ) with
      | error x =>
        rw [evolve_error _ _ _ _ _ _ _ ha]
        refine ⟨hf, rfl, fun p hp => ?_⟩
        exfalso
        obtain ⟨fs, h4, -⟩ := activeFields_some (b := b) (by omega) (e.felt φ)
        rw [h4] at ha
        cases ha
      | ok fs =>
        obtain ⟨b', e1, g1, -, g2, -, -, -, -, -, -, -, -, -, g3⟩ := evolve_spec e.c b (e.felt φ) fs (hsch b.n) t dt hp hf ha
        rw [e1]
        refine ⟨g3, g1, fun p hpn => ?_⟩
        rw [g2, if_pos hpn]
        unfold stepOf
        split_ifs
        · exact Push.classicalRK4_slow (k := b.const e.c) h.c fs t hdt _
        · exact Push.borisStep_slow (k := b.const e.c) h.c fs t hdt _)
    opmd fuel bunches hb b0 φ hr
  refine ⟨ls, h1, h2, fun i b hi => ?_⟩
  obtain ⟨l, g1, g2, g3⟩ := h3 i b hi
  refine ⟨l, g1, g2, fun k k' hk hk' => ?_⟩
  obtain ⟨b1, b2, e1, e2, e3, e4⟩ := g3 k k' hk hk'
  exact ⟨b1, b2, e1, e2, e3.1, e4.1.trans e3.1, fun p hp => ⟨e3.2 p hp, e4.2 p (e3.1.symm ▸ hp)⟩⟩

/-- Bunches tracked through two outputs in any field. -/
example (sch : ℕ → Sched) (hsch : ∀ n, (sch n).Valid n) (f : PField) : ∃ fuel ls w,
    ({ demo sch with felt := fun _ => [f] } : Elem ℝ Unit).track false fuel (.many [sample none, sample (some 1)]) (sample none) () =
      .returned (.many ls, w) ∧ ∃ l b1 b2, ls[1]? = some l ∧ l[1]? = some b1 ∧ l[2]? = some b2 ∧
      ∀ p < (sample (some 1)).n, Slow 1 1 (b1.ph p) (b2.ph p) := by
  have hok : ({ demo sch with felt := fun _ => [f] } : Elem ℝ Unit).Ok := { demo_ok sch with }
  obtain ⟨fuel, ⟨r, w⟩, hr⟩ := track_returns hok strictMono_id (by norm_num [demo]) (δ := 1 / 5) (by norm_num)
    (fun b => by simp only [demo]; nlinarith [sq_nonneg b.propDistance])
    (.many [sample none, sample (some 1)]) (by intro l hl; cases hl; rfl) false (sample none) ()
  obtain ⟨ls, h1, h2, h3⟩ := track_slow hok strictMono_id rfl (Or.inr rfl) hsch false fuel _ (by
    intro b hb
    rcases List.mem_cons.mp hb with rfl | hb
    · exact sample_fits _
    · rw [List.mem_singleton.mp hb]
      exact sample_fits _) _ _ hr
  obtain ⟨l, h4, -, h5⟩ := h3 1 (sample (some 1)) rfl
  obtain ⟨b1, b2, h6, h7, -, -, h8⟩ := h5 1 2 (by norm_num) (by norm_num [demo])
  refine ⟨fuel, ls, w, ?_, l, b1, b2, h4, h6, h7, fun p hp => ?_⟩
  · rw [hr, h1]
    match ls, h2 with
    | [a, b], _ => rfl
  · have := (h8 p hp).2
    norm_num [demo] at this
    exact this

end WakeT.FieldElement
