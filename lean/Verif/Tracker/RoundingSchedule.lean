import Verif.Tracker.RoundingLoop
import Verif.Tracker.Rounding

/-!
# The schedule of tracking with rounding

Pushes and field updates of the tracking loop of `Verif.Tracker.RoundingLoop`, for any rounding and any cast.
-/

set_option linter.unusedSectionVars false

namespace WakeT.Tracker.Rounded

/-! ### Specification -/

section
variable {K F σ : Type*} [Field K] [LinearOrder K] [IsStrictOrderedRing K] [LinearOrder F]

/-- The pushes of `l` start at `a`, each one starts at the rounded end of the previous one, and the last one ends at `b`. -/
def Rolls (rnd : K → K) : K → List (K × K) → K → Prop
  | a, [], b => a = b
  | a, (t, dt) :: l, b => t = a ∧ Rolls rnd (rnd (a + dt)) l b

/-! ### Properties -/

variable {rnd : K → K}

private theorem rolls_append {a b : K} {l : List (K × K)} (h : Rolls rnd a l b) (dt : K) : Rolls rnd a (l ++ [(b, dt)]) (rnd (b + dt)) := by
  induction l generalizing a with
  | nil =>
    obtain rfl : a = b := h
    exact ⟨rfl, rfl⟩
  | cons s l ih => exact ⟨h.1, ih h.2⟩

private structure Kept (rnd : K → K) (c : Cfg K F σ) (s : St K σ) : Prop where
  rolls : ∀ i < c.nBunch, Rolls rnd 0 (pushesOf i s.log) (s.t i)
  field : ∀ j < c.nField, ∃ k, s.t (c.nBunch + j) = ticks rnd (c.dtField j) k ∧
    updateTimes j s.log = (List.range (k + 1)).map (ticks rnd (c.dtField j)) ∧
    ∀ m, 1 ≤ m → m ≤ k → c.f32 (ticks rnd (c.dtField j) m) ≤ c.f32 c.tFinal
  fdt : ∀ j < c.nField, s.dt (c.nBunch + j) = c.dtField j
  ends : ∀ i t dt, Ev.push false i t dt ∈ s.log → c.f32 (rnd (t + dt)) ≤ c.f32 c.tFinal

private theorem kept_start (c : Cfg K F σ) (w : σ) : Kept rnd c (start rnd c w) where
  rolls := fun i hi => by
    simp [start, generateDiagnostics, initFields_log, initFields_t, blank, pushesOf_updates, Rolls]
  field := fun j hj => by
    refine ⟨0, ?_, ?_, fun m h1 h2 => by omega⟩
    · simp [start, generateDiagnostics, initFields_t, blank, ticks]
    · simp [start, generateDiagnostics, initFields_log, blank, ticks, updateTimes_updates, hj]
  fdt := fun j hj => by
    simp [start, dt0, Cfg.dt0, hj]
  ends := fun i t dt h => by
    simp [start, generateDiagnostics, initFields_log, blank] at h

private theorem kept_evolve (c : Cfg K F σ) (b : Bool) {s : St K σ} (h : Kept rnd c s) {i : ℕ} (hi : i < c.nBunch) (tNext dtNext : K)
    (hb : b = false → c.f32 (rnd (s.t i + dtNext)) ≤ c.f32 c.tFinal) : Kept rnd c (evolveBunch rnd c b s i (s.t i) tNext dtNext) where
  rolls := fun j hj => by
    simp only [evolveBunch, pushesOf_append, pushesOf_push]
    by_cases e : i = j
    · subst e
      rw [if_pos rfl, Function.update_self]
      exact rolls_append (h.rolls i hi) dtNext
    · rw [if_neg e, List.append_nil, Function.update_of_ne (Ne.symm e)]
      exact h.rolls j hj
  field := fun j hj => by
    obtain ⟨k, a, u, d⟩ := h.field j hj
    refine ⟨k, ?_, ?_, d⟩
    · simp only [evolveBunch]
      rw [Function.update_of_ne (by omega), a]
    · simp only [evolveBunch, updateTimes_append, updateTimes_push, List.append_nil, u]
  fdt := fun j hj => by
    have ne : c.nBunch + j ≠ i := by omega
    simp only [evolveBunch]
    cases c.dtBunch i <;> dsimp only <;> split_ifs <;> simp only [Function.update_of_ne ne, h.fdt j hj]
  ends := fun j t dt hm => by
    simp only [evolveBunch, List.mem_append, List.mem_singleton] at hm
    rcases hm with hm | hm
    · exact h.ends j t dt hm
    · injection hm with h1 h2 h3 h4
      subst h2 h3 h4
      exact hb h1.symm

private theorem kept_pushAll (c : Cfg K F σ) (tNext : K) {s : St K σ} (h : Kept rnd c s) : ∀ n ≤ c.nBunch, Kept rnd c (pushAll rnd c tNext n s)
  | 0, _ => h
  | n + 1, hn => kept_evolve c true (kept_pushAll c tNext h n (by omega)) (by omega) _ _ (fun h => by cases h)

private theorem kept_step (c : Cfg K F σ) (hD : 0 < c.nDiag) {s s' : St K σ} (h : Kept rnd c s) (hs : step rnd c s = some s') : Kept rnd c s' := by
  simp only [step] at hs
  generalize hi : argmin (fun i => c.f32 (rnd (s.t i + s.dt i))) (c.nObj - 1) = i at hs
  split at hs
  · cases hs
  · rename_i hle
    cases hs
    have hle := not_lt.mp hle
    have hin : i ≤ c.nBunch + c.nField := by
      have := argmin_le (fun i => c.f32 (rnd (s.t i + s.dt i))) (c.nObj - 1)
      rw [hi] at this
      unfold Cfg.nObj at this
      split_ifs at this
      omega
    unfold advance
    by_cases h1 : i < c.nBunch
    · simp only [if_pos h1]
      exact kept_evolve c false h h1 _ _ fun _ => hle
    · simp only [if_neg h1]
      by_cases h2 : i < c.nBunch + c.nField
      · simp only [if_pos h2]
        obtain ⟨j, rfl⟩ : ∃ j, i = c.nBunch + j := ⟨i - c.nBunch, by omega⟩
        have hj : j < c.nField := by omega
        refine ⟨?_, ?_, h.fdt, ?_⟩
        · intro l hl
          simp only [pushesOf_append, pushesOf_update, List.append_nil]
          rw [Function.update_of_ne (by omega)]
          exact h.rolls l hl
        · intro l hl
          obtain ⟨k, a, u, d⟩ := h.field l hl
          simp only [updateTimes_append, updateTimes_update, Nat.add_sub_cancel_left]
          by_cases e : j = l
          · subst e
            have tk : rnd (s.t (c.nBunch + j) + s.dt (c.nBunch + j)) = ticks rnd (c.dtField j) (k + 1) := by
              rw [a, h.fdt j hj]
              rfl
            refine ⟨k + 1, ?_, ?_, ?_⟩
            · rw [Function.update_self, tk]
            · rw [if_pos rfl, u, tk, List.range_succ (n := k + 1), List.map_append]
              rfl
            · intro m m1 m2
              rcases Nat.lt_or_ge m (k + 1) with hm | hm
              · exact d m m1 (by omega)
              · obtain rfl : m = k + 1 := by omega
                rw [← tk]
                exact hle
          · refine ⟨k, ?_, ?_, d⟩
            · rw [Function.update_of_ne (by omega), a]
            · rw [if_neg e, List.append_nil, u]
        · intro l t dt hm
          simp only [List.mem_append, List.mem_singleton] at hm
          rcases hm with hm | hm
          · exact h.ends l t dt hm
          · cases hm
      · simp only [if_neg h2]
        generalize hs1 : (if c.pushBeforeDiags = true then pushAll rnd c (rnd (s.t i + s.dt i)) c.nBunch s else s) = s1
        have keep : Kept rnd c s1 := by
          rw [← hs1]
          split_ifs
          · exact kept_pushAll c _ h _ le_rfl
          · exact h
        refine ⟨?_, ?_, keep.fdt, ?_⟩
        · intro l hl
          simp only [generateDiagnostics, pushesOf_append, pushesOf_diag, List.append_nil]
          rw [Function.update_of_ne (by omega)]
          exact keep.rolls l hl
        · intro l hl
          obtain ⟨k, a, u, d⟩ := keep.field l hl
          refine ⟨k, ?_, ?_, d⟩
          · simp only [generateDiagnostics]
            rw [Function.update_of_ne (by omega), a]
          · simp only [generateDiagnostics, updateTimes_append, updateTimes_diag, List.append_nil, u]
        · intro l t dt hm
          simp only [generateDiagnostics, List.mem_append, List.mem_singleton] at hm
          rcases hm with hm | hm
          · exact keep.ends l t dt hm
          · cases hm

/-- Whatever the rounding and the cast: the pushes of a bunch follow each other, each one from the rounded end of the previous one, until the
next one would be, after the cast, beyond the end; a field is updated at the times obtained by adding its period again and again, until the
first of them that is, after the cast, beyond the end; and the pushes that are not made for a diagnostics end, after the cast, not beyond it. -/
theorem schedule_rounded (c : Cfg K F σ) (w : σ) (fuel : ℕ) {s : St K σ} (h : doTracking rnd c fuel w = .returned s) :
    (∀ i < c.nBunch, Rolls rnd 0 (pushesOf i s.log) (s.t i) ∧ c.f32 c.tFinal < c.f32 (rnd (s.t i + s.dt i))) ∧
    (∀ j < c.nField, ∃ k, updateTimes j s.log = (List.range (k + 1)).map (ticks rnd (c.dtField j)) ∧
      (∀ m, 1 ≤ m → m ≤ k → c.f32 (ticks rnd (c.dtField j) m) ≤ c.f32 c.tFinal) ∧
      c.f32 c.tFinal < c.f32 (ticks rnd (c.dtField j) (k + 1))) ∧
    ∀ i t dt, Ev.push false i t dt ∈ s.log → c.f32 (rnd (t + dt)) ≤ c.f32 c.tFinal := by
  unfold doTracking at h
  split_ifs at h with h1 h2 h3
  · split at h <;> cases h
  split at h
  · cases h
  · rename_i s1 hrun
    cases h
    have hD : 0 < c.nDiag := Nat.pos_of_ne_zero h3
    have key : ∀ n (s0 : St K σ), Kept rnd c s0 → run rnd c n s0 = some s → Kept rnd c s ∧ step rnd c s = none := by
      intro n
      induction n with
      | zero => intro s0 _ h; cases h
      | succ n ih =>
        intro s0 hk h
        simp only [run] at h
        split at h
        · rename_i hn
          cases h
          exact ⟨hk, hn⟩
        · rename_i s' hs'
          exact ih s' (kept_step c hD hk hs') h
    obtain ⟨hk, hn⟩ := key fuel _ (kept_start c w) hrun
    have past : ∀ i < c.nBunch + c.nField, c.f32 c.tFinal < c.f32 (rnd (s.t i + s.dt i)) := by
      intro i hi
      simp only [step] at hn
      split at hn
      · rename_i hlt
        have hDo : i ≤ c.nObj - 1 := by
          unfold Cfg.nObj
          rw [if_pos hD]
          omega
        exact lt_of_lt_of_le hlt (argmin_min (fun i => c.f32 (rnd (s.t i + s.dt i))) (c.nObj - 1) _ hDo)
      · cases hn
    refine ⟨fun i hi => ⟨hk.rolls i hi, past i (by omega)⟩, ?_, hk.ends⟩
    intro j hj
    obtain ⟨k, a, u, d⟩ := hk.field j hj
    refine ⟨k, u, d, ?_⟩
    have := past (c.nBunch + j) (by omega)
    rw [a, hk.fdt j hj] at this
    exact this
end

/-- A bunch with steps of 3/10 (as a number of 64 bits) and a field with a period of 1/2 during a time of one: with numbers of 64 bits the bunch
ends at one. -/
def third : Cfg ℚ ℚ ℚ where
  tFinal := 1
  nBunch := 1
  nField := 1
  nDiag := 1
  dtBunch := fun _ => some (5404319552844595 / 18014398509481984)
  dtField := fun _ => 1 / 2
  autoDt := fun _ _ => 1
  pushBeforeDiags := true
  opmd := false
  f32 := ieee 24
  evolve := fun w _ _ dt => w + dt
  updateF := fun w _ => w

example : (match doTracking (ieee 53) third 100 0 with
    | .returned s => decide (pushesOf 0 s.log = [(0, 5404319552844595 / 18014398509481984),
        (5404319552844595 / 18014398509481984, 5404319552844595 / 18014398509481984),
        (5404319552844595 / 9007199254740992, 5404319552844595 / 18014398509481984),
        (2026619832316723 / 2251799813685248, 225179981368525 / 2251799813685248), (1, 0)] ∧ updateTimes 0 s.log = [0, 1 / 2, 1] ∧ s.t 0 = 1)
    | _ => false) = true := by decide +kernel

/-! ### The trajectory -/

open WakeT.Push (Const PField Ph)
open WakeT.Base (Rounds)

/-- The pushes with the Boris pusher, each from its time and for its time step. -/
noncomputable def boris (rnd : ℝ → ℝ) (k : Const) (fields : List PField) (l : List (ℝ × ℝ)) (p : Ph) : Ph :=
  Push.Rounded.push rnd k fields (l.map fun s => (s.2, rnd (s.1 + rnd (s.2 / 2)))) p

theorem rolls_clock {rnd : ℝ → ℝ} {a b : ℝ} {l : List (ℝ × ℝ)} (h : Rolls rnd a l b) :
    (l.map fun s => (s.2, rnd (s.1 + rnd (s.2 / 2)))) = Push.Rounded.clock rnd a (l.map Prod.snd) := by
  induction l generalizing a with
  | nil => rfl
  | cons s l ih =>
    obtain ⟨t, dt⟩ := s
    obtain ⟨rfl, h⟩ := h
    simp only [List.map_cons, Push.Rounded.clock]
    rw [ih h]

/-- Bunches of one particle each, pushed with the Boris pusher in external fields (tracker.py 212-221, 290; boris_pusher.py 14-43).  (Fields
that depend on the bunches are not considered: an update does not change the particles, and the fields are those of the list.) -/
structure Boris {F : Type*} [LinearOrder F] (rnd : ℝ → ℝ) (k : Const) (fields : List PField) (c : Cfg ℝ F (ℕ → Ph)) : Prop where
  evolve : ∀ w i t dt, c.evolve w i t dt = Function.update w i (boris rnd k fields [(t, dt)] (w i))
  update : ∀ w j, c.updateF w j = w

section
variable {F : Type*} [LinearOrder F] {rnd : ℝ → ℝ} {k : Const} {fields : List PField} {c : Cfg ℝ F (ℕ → Ph)}

private def Moved (rnd : ℝ → ℝ) (k : Const) (fields : List PField) (w : ℕ → Ph) (s : St ℝ (ℕ → Ph)) : Prop :=
  ∀ i, s.w i = boris rnd k fields (pushesOf i s.log) (w i)

private theorem moved_evolve (hb : Boris rnd k fields c) {w : ℕ → Ph} (b : Bool) {s : St ℝ (ℕ → Ph)} (h : Moved rnd k fields w s) (i : ℕ)
    (t tNext dt : ℝ) : Moved rnd k fields w (evolveBunch rnd c b s i t tNext dt) := by
  intro j
  simp only [evolveBunch, pushesOf_append, pushesOf_push, hb.evolve]
  by_cases e : i = j
  · subst e
    rw [if_pos rfl, Function.update_self, h i]
    simp only [boris, Push.Rounded.push, Push.Rounded.steps, List.map_append, List.foldl_append]
  · rw [if_neg e, List.append_nil, Function.update_of_ne (Ne.symm e), h j]

private theorem moved_pushAll (hb : Boris rnd k fields c) {w : ℕ → Ph} (tNext : ℝ) {s : St ℝ (ℕ → Ph)} (h : Moved rnd k fields w s) :
    ∀ n, Moved rnd k fields w (pushAll rnd c tNext n s)
  | 0 => h
  | n + 1 => moved_evolve hb true (moved_pushAll hb tNext h n) n _ _ _

private theorem moved_start (hb : Boris rnd k fields c) (w : ℕ → Ph) : Moved rnd k fields w (start rnd c w) := by
  have e : ∀ n, (initFields c n (blank w)).w = w := by
    intro n
    induction n with
    | zero => rfl
    | succ n ih => simp only [initFields, hb.update, ih]
  intro i
  simp [start, generateDiagnostics, initFields_log, blank, pushesOf_updates, boris, Push.Rounded.push, Push.Rounded.steps]
  exact congrFun (e c.nField) i

private theorem moved_step (hb : Boris rnd k fields c) {w : ℕ → Ph} {s s' : St ℝ (ℕ → Ph)} (h : Moved rnd k fields w s)
    (hs : step rnd c s = some s') : Moved rnd k fields w s' := by
  simp only [step] at hs
  generalize argmin (fun i => c.f32 (rnd (s.t i + s.dt i))) (c.nObj - 1) = i at hs
  split at hs
  · cases hs
  · cases hs
    unfold advance
    by_cases h1 : i < c.nBunch
    · simp only [if_pos h1]
      exact moved_evolve hb false h i _ _ _
    · simp only [if_neg h1]
      by_cases h2 : i < c.nBunch + c.nField
      · simp only [if_pos h2]
        intro j
        simp only [hb.update, pushesOf_append, pushesOf_update, List.append_nil]
        exact h j
      · simp only [if_neg h2]
        intro j
        simp only [generateDiagnostics, pushesOf_append, pushesOf_diag, List.append_nil]
        split_ifs
        · exact moved_pushAll hb _ h _ j
        · exact h j

/-- The particle of a bunch ends where the pushes of the log bring it. -/
theorem particle_rounded (hb : Boris rnd k fields c) (w : ℕ → Ph) (fuel : ℕ) {s : St ℝ (ℕ → Ph)} (h : doTracking rnd c fuel w = .returned s) (i : ℕ) :
    s.w i = boris rnd k fields (pushesOf i s.log) (w i) := by
  unfold doTracking at h
  split_ifs at h with h1 h2 h3
  · split at h <;> cases h
  split at h
  · cases h
  · rename_i s1 hrun
    cases h
    have key : ∀ n (s0 : St ℝ (ℕ → Ph)), Moved rnd k fields w s0 → run rnd c n s0 = some s → Moved rnd k fields w s := by
      intro n
      induction n with
      | zero => intro s0 _ h; cases h
      | succ n ih =>
        intro s0 hk h
        simp only [run] at h
        split at h
        · cases h
          exact hk
        · rename_i s' hs'
          exact ih s' (moved_step hb hk hs') h
    exact key fuel _ (moved_start hb w) hrun i
end

/-- The particle that the tracking loop returns, with rounding of the clocks and in the pusher, is close to its exact trajectory: the error is at
most a constant times the sum of the largest time step and of the unit of rounding times the number of pushes. -/
theorem tracked_accurate {k : Const} (hc : 0 < k.c) {fields : List PField} {T M L : ℝ} (hT : 0 ≤ T) {z : ℝ → Ph}
    (hz : Push.Trajectory k fields (T + 1) z) (hf : Push.Smooth fields (T + 1) (z 0) (k.c * (T + 1) + 2) M L) :
    ∃ C, 0 < C ∧ ∀ (ε : ℝ) (rnd : ℝ → ℝ), 0 ≤ ε → ε ≤ 1 / 1000 → Rounds ε rnd →
      ∀ {F : Type} [LinearOrder F] (c : Cfg ℝ F (ℕ → Ph)), Boris rnd k fields c → ∀ (w : ℕ → Ph) (fuel : ℕ) (s : St ℝ (ℕ → Ph)),
      doTracking rnd c fuel w = .returned s → ∀ i < c.nBunch, w i = z 0 → ∀ D : ℝ, 0 ≤ D → (∀ p ∈ pushesOf i s.log, 0 ≤ p.2 ∧ p.2 ≤ D) →
      ((pushesOf i s.log).map Prod.snd).sum ≤ T → C * (D + ((pushesOf i s.log).length + 1) * ε) ≤ 1 →
      Push.Near (C * (D + ((pushesOf i s.log).length + 1) * ε)) (s.w i) (z ((pushesOf i s.log).map Prod.snd).sum) := by
  obtain ⟨C, C0, h⟩ := Push.Rounded.track_accurate hc hT hz hf
  refine ⟨C, C0, ?_⟩
  intro ε rnd h0 h1 hr F _ c hb w fuel s hs i hi hw D D0 hD hsum small
  have r := ((schedule_rounded c w fuel hs).1 i hi).1
  have := h ε rnd h0 h1 hr D ((pushesOf i s.log).map Prod.snd) D0
    (fun dt hdt => by obtain ⟨p, hp, rfl⟩ := List.mem_map.mp hdt; exact hD p hp) hsum (by rw [List.length_map]; exact small)
  rw [List.length_map] at this
  rw [particle_rounded hb w fuel hs i, hw]
  unfold boris
  rw [rolls_clock r]
  exact this

/-- One bunch in external fields, pushed once (and once more, for no time, before the output at the end). -/
noncomputable def single (fields : List PField) : Cfg ℝ ℝ (ℕ → Ph) where
  tFinal := 1
  nBunch := 1
  nField := 0
  nDiag := 1
  dtBunch := fun _ => some 1
  dtField := fun _ => 1
  autoDt := fun _ _ => 1
  pushBeforeDiags := true
  opmd := false
  f32 := id
  evolve := fun w i t dt => Function.update w i (boris id ⟨1, -1, -1⟩ fields [(t, dt)] (w i))
  updateF := fun w _ => w

/-- The hypotheses of `particle_rounded`, and those of `tracked_accurate` about the pushes. -/
example (fields : List PField) (w : ℕ → Ph) : Boris id ⟨1, -1, -1⟩ fields (single fields) ∧
    ∃ s, doTracking id (single fields) 4 w = .returned s ∧ pushesOf 0 s.log = [(0, 1), (1, 0)] := by
  refine ⟨⟨fun _ _ _ _ => rfl, fun _ _ => rfl⟩, ?_⟩
  have d : (1 : ℝ) / ((1 : ℕ) : ℝ) = 1 := by norm_num
  have s1 : step id (single fields) (start id (single fields) w) = some (advance id (single fields) (start id (single fields) w) 0) := by
    have ha : argmin (fun i => (single fields).f32 (id ((start id (single fields) w).t i + (start id (single fields) w).dt i)))
        ((single fields).nObj - 1) = 0 := by
      show (if (0 : ℝ) + 1 / ((1 : ℕ) : ℝ) < 0 + 1 then 1 else 0) = 0
      rw [d, if_neg (lt_irrefl _)]
    simp only [step, ha]
    show (if (0 : ℝ) + 1 > 1 then none else _) = _
    rw [zero_add, if_neg (lt_irrefl _)]
  obtain ⟨u, hu⟩ : ∃ u, u = advance id (single fields) (start id (single fields) w) 0 := ⟨_, rfl⟩
  have ut0 : u.t 0 = 1 := by
    rw [hu]
    show (0 : ℝ) + 1 = 1
    norm_num
  have ut1 : u.t 1 = 0 := by
    rw [hu]
    rfl
  have udt : u.dt 0 = 1 ∧ u.dt 1 = 1 := by
    have e : u.dt = (start id (single fields) w).dt := by
      rw [hu]
      show (if ¬ ((0 : ℝ) + 1 = 1) ∧ (0 : ℝ) + 1 + 1 > 1 then _ else _) = _
      rw [if_neg (by norm_num)]
      rfl
    rw [e]
    exact ⟨rfl, d⟩
  have ul : pushesOf 0 u.log = [(0, 1)] := by
    rw [hu]
    rfl
  have s2 : step id (single fields) u = some (advance id (single fields) u 1) := by
    have ha : argmin (fun i => (single fields).f32 (id (u.t i + u.dt i))) ((single fields).nObj - 1) = 1 := by
      show (if u.t 1 + u.dt 1 < u.t 0 + u.dt 0 then 1 else 0) = 1
      rw [ut0, ut1, udt.1, udt.2, if_pos (by norm_num)]
    simp only [step, ha]
    show (if u.t 1 + u.dt 1 > 1 then none else _) = _
    rw [ut1, udt.2, if_neg (by norm_num)]
  obtain ⟨v, hv⟩ : ∃ v, v = advance id (single fields) u 1 := ⟨_, rfl⟩
  have e : v.t 0 = 1 ∧ v.t 1 = 1 ∧ v.dt 0 = 1 ∧ v.dt 1 = 1 ∧ pushesOf 0 v.log = [(0, 1), (1, 0)] := by
    have t0 : v.t 0 = u.t 0 + (u.t 1 + u.dt 1 - u.t 0) := by rw [hv]; rfl
    have t1 : v.t 1 = u.t 1 + u.dt 1 := by rw [hv]; rfl
    have dt : v.dt = if ¬ (u.t 1 + u.dt 1 = 1) ∧ u.t 1 + u.dt 1 + u.dt 0 > 1 then Function.update u.dt 0 (1 - (u.t 1 + u.dt 1)) else u.dt := by
      rw [hv]; rfl
    have l : v.log = u.log ++ [.push true 0 (u.t 0) (u.t 1 + u.dt 1 - u.t 0)] ++ [.diag (u.t 1 + u.dt 1)] := by rw [hv]; rfl
    rw [if_neg (by rw [ut1, udt.2]; norm_num)] at dt
    rw [t0, t1, dt, l]
    simp only [pushesOf_append, pushesOf_push, pushesOf_diag, ul, ut0, ut1, udt.1, udt.2]
    norm_num
  obtain ⟨t0, t1, d0, d1, l⟩ := e
  have s3 : step id (single fields) v = none := by
    have ha : argmin (fun i => (single fields).f32 (id (v.t i + v.dt i))) ((single fields).nObj - 1) = 0 := by
      show (if v.t 1 + v.dt 1 < v.t 0 + v.dt 0 then 1 else 0) = 0
      rw [t0, t1, d0, d1, if_neg (lt_irrefl _)]
    simp only [step, ha]
    show (if v.t 0 + v.dt 0 > 1 then none else _) = _
    rw [t0, d0, if_pos (by norm_num)]
  refine ⟨v, ?_, l⟩
  unfold doTracking
  rw [if_neg (by norm_num [single]), if_neg (by norm_num [single, Cfg.nObj])]
  simp only [run, s1, ← hu, s2, ← hv, s3]
  rw [if_neg (by norm_num [single])]

end WakeT.Tracker.Rounded
