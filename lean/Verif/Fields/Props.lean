import Verif.Fields.Spec
import Verif.Tracker.Props
import Mathlib.Algebra.Order.Floor.Ring
import Mathlib.Algebra.BigOperators.Group.List.Basic
import Mathlib.Tactic.NormNum
import Mathlib.Tactic.Ring

/-! # Properties C09, C10, C11 (gathering) and the internal clock of C05 -/

set_option linter.unusedSectionVars false

namespace WakeT.Fields

/-! ### C09: even updates -/

section
variable {K : Type*} [Field K] [LinearOrder K] [IsStrictOrderedRing K] [FloorRing K]

/-- **C09**: with `force_even_updates` the new period is not larger than the
requested one, divides the final time exactly, and uses the smallest possible
number of updates. -/
theorem adjustDt_spec {tFinal dt : K} (ht : 0 < tFinal) (hd : 0 < dt) :
    ∃ dt' : K, ∃ n : ℕ, adjustDt true tFinal dt = some dt' ∧ 0 < dt' ∧ dt' ≤ dt ∧
      n * dt' = tFinal ∧ ∀ m : ℕ, ∀ e : K, 0 < e → e ≤ dt → m * e = tFinal → n ≤ m := by
  have hq : 0 < tFinal / dt := div_pos ht hd
  have hn : 0 < ⌈tFinal / dt⌉ := Int.ceil_pos.mpr hq
  have hnK : (0 : K) < (⌈tFinal / dt⌉ : K) := by exact_mod_cast hn
  have hcast : ((⌈tFinal / dt⌉.toNat : ℕ) : K) = (⌈tFinal / dt⌉ : K) := by
    have := Int.toNat_of_nonneg hn.le
    exact_mod_cast congrArg (Int.cast (R := K)) this
  refine ⟨tFinal / (⌈tFinal / dt⌉ : K), ⌈tFinal / dt⌉.toNat, ?_, div_pos ht hnK, ?_, ?_, ?_⟩
  · simp [adjustDt, hd.ne', hn.ne']
  · rw [div_le_iff₀ hnK]
    have := Int.le_ceil (tFinal / dt)
    rwa [div_le_iff₀ hd, mul_comm] at this
  · rw [hcast]; field_simp
  · intro m e he hle hm
    have h1 : tFinal / dt ≤ (m : ℤ) := by
      rw [div_le_iff₀ hd, ← hm]
      push_cast
      exact mul_le_mul_of_nonneg_left hle (Nat.cast_nonneg m)
    have h2 := Int.ceil_le.mpr h1
    omega

/-- **C09**: adjusting a second time for the same tracking changes nothing. -/
theorem adjustDt_idempotent {tFinal dt dt' : K} (ht : 0 < tFinal) (hd : 0 < dt)
    (h : adjustDt true tFinal dt = some dt') : adjustDt true tFinal dt' = some dt' := by
  obtain ⟨e, n, h1, h2, h3, h4, _⟩ := adjustDt_spec ht hd
  rw [h1] at h; cases h
  have hq : tFinal / dt' = ((n : ℤ) : K) := by
    rw [div_eq_iff h2.ne', ← h4]; push_cast; rfl
  have hn : n ≠ 0 := by rintro rfl; simp at h4; exact ht.ne h4
  have hnK : (n : K) ≠ 0 := by exact_mod_cast hn
  simp only [adjustDt, if_true, h2.ne', if_false, hq, Int.ceil_intCast]
  rw [if_neg (by exact_mod_cast hn)]
  congr 1
  rw [← h4]; push_cast; field_simp

/-- **C09**: without the flag the period is untouched. -/
theorem adjustDt_off (tFinal dt : K) : adjustDt false tFinal dt = some dt := rfl

/-- **C09**, boundary of the claim: for a tracking of zero length the period
becomes NaN. -/
theorem adjustDt_zero_length (dt : K) : adjustDt true 0 dt = none := by
  unfold adjustDt; simp

example : adjustDt true (7 / 2 : ℚ) 1 = some (7 / 8) := by decide +kernel
example : adjustDt true (3 : ℚ) 1 = some 1 := by decide +kernel
end

/-! ### C05: the internal clock of a field -/

section
open WakeT.Tracker
variable {K F P B : Type*} [Field K] [LinearOrder K] [IsStrictOrderedRing K] [LinearOrder F]

/-- A tracker configuration whose world consists of numerical fields and
bunches: updates are `NumericalField.update`; evolving a bunch may use the
fields but does not change them. -/
structure UsesFields (c : Cfg K F ((ℕ → NumField K P) × B)) (ops : ℕ → FieldOps K P B) :
    Prop where
  update : ∀ w j, c.updateF w j = (Function.update w.1 j ((w.1 j).update (ops j) w.2), w.2)
  evolve : ∀ w i t dt, (c.evolve w i t dt).1 = w.1

/-- Field `j` after all events of a log. -/
private theorem clock_replay {c : Cfg K F ((ℕ → NumField K P) × B)} {ops : ℕ → FieldOps K P B}
    (hc : UsesFields c ops) (j : ℕ) (log : List (Ev K)) (w : (ℕ → NumField K P) × B)  :
    ((log.foldl c.apply w).1 j).dt = (w.1 j).dt ∧
    (((w.1 j).initialized = true →
      ((log.foldl c.apply w).1 j).initialized = true ∧
      ((log.foldl c.apply w).1 j).t =
        (w.1 j).t + (updateTimes j log).length * (w.1 j).dt) ∧
    ((w.1 j).initialized = false → updateTimes j log ≠ [] →
      ((log.foldl c.apply w).1 j).t = ((updateTimes j log).length - 1) * (w.1 j).dt)) := by
  induction log generalizing w with
  | nil => simp [updateTimes]
  | cons e l ih =>
    simp only [List.foldl_cons]
    obtain ⟨h1, h2, h3⟩ := ih (c.apply w e)
    have key : updateTimes j (e :: l) = updateTimes j [e] ++ updateTimes j l := by
      simp only [updateTimes]
      rw [show e :: l = [e] ++ l from rfl, List.filterMap_append]
    have hne : (∀ t, e ≠ .update j t) →
        updateTimes j (e :: l) = updateTimes j l ∧ (c.apply w e).1 j = w.1 j := by
      intro hne
      cases e with
      | push b i t dt => exact ⟨by simp [updateTimes], by simp [Cfg.apply, hc.evolve]⟩
      | diag t => exact ⟨by simp [updateTimes], by simp [Cfg.apply]⟩
      | update j' t =>
        have : j' ≠ j := by rintro rfl; exact hne t rfl
        exact ⟨by simp [updateTimes, this], by
          simp [Cfg.apply, hc.update, Function.update_of_ne this.symm]⟩
    by_cases he : ∃ t, e = .update j t
    · obtain ⟨t, rfl⟩ := he
      have hup : (c.apply w (.update j t)).1 j = (w.1 j).update (ops j) w.2 := by
        simp [Cfg.apply, hc.update]
      have hlen : updateTimes j (Ev.update j t :: l) = t :: updateTimes j l := by
        simp [updateTimes]
      rw [hup] at h1 h2 h3
      rw [hlen]
      have hdt : ((w.1 j).update (ops j) w.2).dt = (w.1 j).dt := by
        simp only [NumField.update]; split <;> rfl
      have hini : ((w.1 j).update (ops j) w.2).initialized = true := by
        simp only [NumField.update]
        split
        · rfl
        · rename_i h; simpa using h
      rw [hdt] at h1 h2 h3
      refine ⟨h1, fun hi => ?_, fun hi _ => ?_⟩
      · refine ⟨(h2 hini).1, ?_⟩
        rw [(h2 hini).2]
        have : ((w.1 j).update (ops j) w.2).t = (w.1 j).t + (w.1 j).dt := by
          simp [NumField.update, hi]
        rw [this]; simp; ring
      · rw [(h2 hini).2]
        have : ((w.1 j).update (ops j) w.2).t = 0 := by
          simp [NumField.update, hi]
        rw [this]; simp
    · obtain ⟨h4, h5⟩ := hne (by intro t ht; exact he ⟨t, ht⟩)
      rw [h5] at h1 h2 h3
      rw [h4]
      exact ⟨h1, h2, h3⟩

private theorem update_prefix_length {c : Cfg K F ((ℕ → NumField K P) × B)}
    {w : (ℕ → NumField K P) × B} {n : ℕ}
    {s : St K ((ℕ → NumField K P) × B)} (hp : c.Positive) (hm : Monotone c.f32)
    (h : doTracking c n w = .returned s) {j : ℕ} (hj : j < c.nField)
    {before after : List (Ev K)} {T : K} (hl : s.log = before ++ .update j T :: after) :
    T = (updateTimes j before).length * c.dtField j := by
  obtain ⟨k, hk, _, _⟩ := field_updates c w n s hp hm h j hj
  have h2 : updateTimes j s.log = updateTimes j before ++ T :: updateTimes j after := by
    rw [hl]; simp [updateTimes, List.filterMap_append]
  rw [h2] at hk
  have h3 : (updateTimes j before ++ T :: updateTimes j after)[(updateTimes j before).length]? =
      some T := by simp
  rw [hk, List.getElem?_map] at h3
  have hlt : (updateTimes j before).length < k + 1 := by
    have := congrArg List.length hk
    simp at this; omega
  rw [List.getElem?_range hlt] at h3
  simp at h3
  exact h3.symm

private theorem initialized_iff {c : Cfg K F ((ℕ → NumField K P) × B)}
    {ops : ℕ → FieldOps K P B} (hc : UsesFields c ops) (j : ℕ) (log : List (Ev K))
    (w : (ℕ → NumField K P) × B) (hw : (w.1 j).initialized = false) :
    ((log.foldl c.apply w).1 j).initialized = false ↔ updateTimes j log = [] := by
  induction log using List.reverseRecOn with
  | nil => simp [updateTimes, hw]
  | append_singleton l e ih =>
    rw [List.foldl_append]
    have happ : updateTimes j (l ++ [e]) = updateTimes j l ++ updateTimes j [e] := by
      simp [updateTimes, List.filterMap_append]
    rw [happ]
    simp only [List.foldl_cons, List.foldl_nil]
    cases e with
    | push b i t dt =>
      simpa [updateTimes, Cfg.apply, hc.evolve] using ih
    | diag t => simpa [updateTimes, Cfg.apply] using ih
    | update j' t =>
      by_cases hj : j' = j
      · subst hj
        have : ((c.apply (l.foldl c.apply w) (.update j' t)).1 j').initialized = true := by
          simp only [Cfg.apply, hc.update, Function.update_self, NumField.update]
          split
          · rfl
          · rename_i h; simpa using h
        rw [this]
        simp [updateTimes]
      · have : (c.apply (l.foldl c.apply w) (.update j' t)).1 j = (l.foldl c.apply w).1 j := by
          simp [Cfg.apply, hc.update, Function.update_of_ne (Ne.symm hj)]
        rw [this]
        simpa [updateTimes, hj] using ih

/-- **C05**: whenever a (fresh) field is updated, its internal time afterwards
is the tracking time of the update. -/
theorem field_clock_is_tracking_time (c : Cfg K F ((ℕ → NumField K P) × B))
    (ops : ℕ → FieldOps K P B) (hc : UsesFields c ops)
    (w : (ℕ → NumField K P) × B) (n : ℕ) (s : St K ((ℕ → NumField K P) × B))
    (hp : c.Positive) (hm : Monotone c.f32) (h : doTracking c n w = .returned s)
    {j : ℕ} (hj : j < c.nField) (hdt : (w.1 j).dt = c.dtField j)
    (hfresh : (w.1 j).initialized = false)
    (before after : List (Ev K)) (T : K) (hl : s.log = before ++ .update j T :: after) :
    (((before ++ [Ev.update j T]).foldl c.apply w).1 j).t = T := by
  have hT := update_prefix_length hp hm h hj hl
  have hlen : updateTimes j (before ++ [Ev.update j T]) = updateTimes j before ++ [T] := by
    simp [updateTimes, List.filterMap_append]
  have := ((clock_replay hc j (before ++ [Ev.update j T]) w).2.2) hfresh (by rw [hlen]; simp)
  rw [this, hlen, hdt, hT]
  simp

/-- **C05**: what an update does to a (fresh) field.  The first one initializes
it, every later one evolves its properties; both, and the calculation of the
field that follows, take place at the tracking time of the update and with the
bunches as they are at that moment. -/
theorem field_update_effect (c : Cfg K F ((ℕ → NumField K P) × B))
    (ops : ℕ → FieldOps K P B) (hc : UsesFields c ops)
    (w : (ℕ → NumField K P) × B) (n : ℕ) (s : St K ((ℕ → NumField K P) × B))
    (hp : c.Positive) (hm : Monotone c.f32) (h : doTracking c n w = .returned s)
    {j : ℕ} (hj : j < c.nField) (hdt : (w.1 j).dt = c.dtField j)
    (hfresh : (w.1 j).initialized = false)
    (before after : List (Ev K)) (T : K) (hl : s.log = before ++ .update j T :: after) :
    let now := before.foldl c.apply w
    let first := updateTimes j before = []
    let evolved := if first then (ops j).init (now.1 j).prop T now.2
      else (ops j).evolve (now.1 j).prop T now.2
    (((before ++ [Ev.update j T]).foldl c.apply w).1 j).prop =
      (ops j).calculate evolved T now.2 := by
  intro now first evolved
  have hclock := field_clock_is_tracking_time c ops hc w n s hp hm h hj hdt hfresh before after T hl
  have hT := update_prefix_length hp hm h hj hl
  have hini : ((before.foldl c.apply w).1 j).initialized = false ↔ updateTimes j before = [] :=
    initialized_iff hc j before w hfresh
  have hup : (before ++ [Ev.update j T]).foldl c.apply w =
      (Function.update now.1 j ((now.1 j).update (ops j) now.2), now.2) := by
    rw [List.foldl_append]; simp [Cfg.apply, hc.update, now]
  rw [hup] at hclock ⊢
  simp only [Function.update_self] at hclock ⊢
  by_cases hf : updateTimes j before = []
  · have hi : (now.1 j).initialized = false := hini.2 hf
    have hT0 : T = 0 := by rw [hT, hf]; simp
    simp [NumField.update, hi, evolved, first, hf, hT0]
  · have hi : (now.1 j).initialized = true := by
      by_contra hne
      exact hf (hini.1 (by simpa using hne))
    have ht : (now.1 j).t + (now.1 j).dt = T := by
      simpa [NumField.update, hi] using hclock
    simp [NumField.update, hi, evolved, first, hf, ht]

/-- **C05** violated for a field object that was already used in an earlier
tracking: its internal time is not reset, so it runs ahead of the tracking time
by its old time plus one period. -/
theorem reused_field_clock (c : Cfg K F ((ℕ → NumField K P) × B))
    (ops : ℕ → FieldOps K P B) (hc : UsesFields c ops)
    (w : (ℕ → NumField K P) × B) (n : ℕ) (s : St K ((ℕ → NumField K P) × B))
    (hp : c.Positive) (hm : Monotone c.f32) (h : doTracking c n w = .returned s)
    {j : ℕ} (hj : j < c.nField) (hdt : (w.1 j).dt = c.dtField j)
    (hused : (w.1 j).initialized = true)
    (before after : List (Ev K)) (T : K) (hl : s.log = before ++ .update j T :: after) :
    (((before ++ [Ev.update j T]).foldl c.apply w).1 j).t = T + (w.1 j).t + c.dtField j := by
  have hT := update_prefix_length hp hm h hj hl
  have hlen : updateTimes j (before ++ [Ev.update j T]) = updateTimes j before ++ [T] := by
    simp [updateTimes, List.filterMap_append]
  have := ((clock_replay hc j (before ++ [Ev.update j T]) w).2.1) hused
  rw [this.2, hlen, hdt, hT]
  simp; ring

/-- A concrete tracking with one field whose property records the times at
which it was evolved (negative) and calculated (not part of the model of the code). -/
def demoF (init : Bool) : Outcome (St ℚ ((ℕ → NumField ℚ (List ℚ)) × ℚ)) :=
  let ops : FieldOps ℚ (List ℚ) ℚ :=
    { init := fun _ _ _ => [], evolve := fun p t _ => p ++ [-t], calculate := fun p t _ => p ++ [t] }
  let c : Cfg ℚ ℚ ((ℕ → NumField ℚ (List ℚ)) × ℚ) :=
    { tFinal := 1, nBunch := 1, nField := 1, nDiag := 1, dtBunch := fun _ => some (1 / 3),
      dtField := fun _ => 1 / 2, autoDt := fun _ _ => 1, pushBeforeDiags := true, opmd := false,
      f32 := id, evolve := fun w _ _ dt => (w.1, w.2 + dt),
      updateF := fun w j => (Function.update w.1 j ((w.1 j).update ops w.2), w.2) }
  doTracking c 50 (fun _ => ⟨1 / 2, init, 7, []⟩, 0)

/-- The times at which the field of `demoF` was calculated. -/
def demoF.times : Outcome (St ℚ ((ℕ → NumField ℚ (List ℚ)) × ℚ)) → Option (List ℚ)
  | .returned s => some (s.w.1 0).prop
  | _ => none

example : demoF.times (demoF false) = some [0, -1 / 2, 1 / 2, -1, 1] := by decide +kernel
example : demoF.times (demoF true) = some [-(15 / 2), 15 / 2, -8, 8, -(17 / 2), 17 / 2] := by decide +kernel

end

/-! ### C10, C11: gathering -/

section
variable {K : Type*} [Field K]

private theorem eb_add_def (a b : EB K) : a + b =
  ⟨a.ex + b.ex, a.ey + b.ey, a.ez + b.ez, a.bx + b.bx, a.b_y + b.b_y, a.bz + b.bz⟩ := rfl

private theorem eb_zero_def : (0 : EB K) = ⟨0, 0, 0, 0, 0, 0⟩ := rfl

/-- Values of one particle after gathering, as a fold over the fields. -/
theorem gatherFields_apply (fields : List (LibField K × List ℕ)) {ord0 : List ℕ} {n : ℕ}
    (h0 : IsSchedule ord0 n) (hs : ∀ fo ∈ fields, IsSchedule fo.2 n) (x y xi : ℕ → K)
    (a : ℕ → EB K) {i : ℕ} (hi : i < n) :
    gatherFields fields ord0 x y xi a i =
      (fields.map Prod.fst).foldl (fun v fl => fl.gather1 (x i) (y i) (xi i) v) 0 := by
  unfold gatherFields
  have : ∀ (fields : List (LibField K × List ℕ)) (b : ℕ → EB K),
      (∀ fo ∈ fields, IsSchedule fo.2 n) →
      fields.foldl (fun a fo => fo.1.gather fo.2 x y xi a) b i =
        (fields.map Prod.fst).foldl (fun v fl => fl.gather1 (x i) (y i) (xi i) v) (b i) := by
    intro fields
    induction fields with
    | nil => intro b _; rfl
    | cons fo l ih =>
      intro b hb
      rw [List.foldl_cons, ih _ (fun g hg => hb g (List.mem_cons_of_mem _ hg)), List.map_cons,
        List.foldl_cons]
      congr 1
      rw [LibField.gather, prange_schedule _ (hb fo List.mem_cons_self), if_pos hi]
  rw [this fields _ hs, resetFields, prange_schedule _ h0, if_pos hi]
  rfl

/-- **C11** for the gathering loops: the gathered fields do not depend on the
order in which the iterations of any of the loops are executed, nor on the
previous contents of the arrays. -/
theorem gather_schedule_irrelevant (fields : List (LibField K)) (n : ℕ)
    (ords ords' : List (List ℕ)) (hl : ords.length = fields.length)
    (hl' : ords'.length = fields.length) {ord0 ord0' : List ℕ}
    (h0 : IsSchedule ord0 n) (h0' : IsSchedule ord0' n) (hs : ∀ o ∈ ords, IsSchedule o n)
    (hs' : ∀ o ∈ ords', IsSchedule o n) (x y xi : ℕ → K) (a a' : ℕ → EB K) {i : ℕ}
    (hi : i < n) :
    gatherFields (fields.zip ords) ord0 x y xi a i =
      gatherFields (fields.zip ords') ord0' x y xi a' i := by
  rw [gatherFields_apply _ h0 _ x y xi a hi, gatherFields_apply _ h0' _ x y xi a' hi,
    List.map_fst_zip (by omega), List.map_fst_zip (by omega)]
  · intro fo hfo; exact hs' _ (List.of_mem_zip hfo).2
  · intro fo hfo; exact hs _ (List.of_mem_zip hfo).2

/-- Adding a field that does not assign, or assigning where there is nothing. -/
private theorem gather1_eq (fl : LibField K) (x y xi : K) (v : EB K)
    (h : fl.assignsE = false ∨ (v.ex = 0 ∧ v.ey = 0 ∧ v.ez = 0)) :
    fl.gather1 x y xi v = v + fl.value x y xi := by
  cases fl <;> simp [LibField.assignsE] at h <;>
    simp [LibField.gather1, LibField.value, eb_add_def, sub_eq_add_neg, h]

private theorem value_electric (fl : LibField K) (x y xi : K) (h : fl.electric = false) :
    (fl.value x y xi).ex = 0 ∧ (fl.value x y xi).ey = 0 ∧ (fl.value x y xi).ez = 0 := by
  cases fl <;> simp [LibField.electric] at h <;> simp [LibField.value]

instance : AddCommMonoid (EB K) where
  add_assoc a b c := by simp [eb_add_def, add_assoc]
  zero_add a := by simp [eb_add_def, eb_zero_def]
  add_zero a := by simp [eb_add_def, eb_zero_def]
  add_comm a b := by simp [eb_add_def, add_comm]
  nsmul := nsmulRec

private theorem fold_value (l : List (LibField K)) (hl : BlowoutFirst l) (x y xi : K) (v : EB K)
    (hv : (v.ex = 0 ∧ v.ey = 0 ∧ v.ez = 0) ∨ ∀ fl ∈ l, fl.assignsE = false) :
    l.foldl (fun v fl => fl.gather1 x y xi v) v = v + (l.map (·.value x y xi)).sum := by
  induction l generalizing v with
  | nil => simp
  | cons fl l ih =>
    unfold BlowoutFirst at hl
    rw [List.pairwise_cons] at hl
    rw [List.foldl_cons, List.map_cons, List.sum_cons, gather1_eq, ih hl.2, add_assoc]
    · by_cases he : fl.electric = true
      · exact Or.inr fun g hg => hl.1 g hg he
      · rcases hv with hv | hv
        · left
          have := value_electric fl x y xi (by simpa using he)
          simp [eb_add_def, hv, this]
        · exact Or.inr fun g hg => hv g (List.mem_cons_of_mem _ hg)
    · rcases hv with hv | hv
      · exact Or.inr hv
      · exact Or.inl (hv fl List.mem_cons_self)

/-- **C10** (partial): the gathered field is the sum of the fields of all list
entries, whatever the arrays contained before, provided that no blowout model
(`SimpleBlowoutWakefield`, `CustomBlowoutWakefield`, `FocusingBlowoutField`,
which assign instead of adding) comes after another electric field.

Missing: arbitrary lists, for which the property is false; see
`superposition_fails`. -/
theorem superposition_partial (fields : List (LibField K × List ℕ)) {ord0 : List ℕ} {n : ℕ}
    (h0 : IsSchedule ord0 n) (hs : ∀ fo ∈ fields, IsSchedule fo.2 n)
    (hb : BlowoutFirst (fields.map Prod.fst)) (x y xi : ℕ → K)
    (a : ℕ → EB K) {i : ℕ} (hi : i < n) :
    gatherFields fields ord0 x y xi a i =
      ((fields.map Prod.fst).map (·.value (x i) (y i) (xi i))).sum := by
  rw [gatherFields_apply fields h0 hs x y xi a hi, fold_value _ hb]
  · simp
  · left; simp [eb_zero_def]

/-- **C10**: order independence, for fields none of which assigns. -/
theorem gather_order_irrelevant (fields fields' : List (LibField K × List ℕ))
    (hperm : (fields.map Prod.fst).Perm (fields'.map Prod.fst)) {ord0 ord0' : List ℕ} {n : ℕ}
    (h0 : IsSchedule ord0 n) (h0' : IsSchedule ord0' n)
    (hs : ∀ fo ∈ fields, IsSchedule fo.2 n) (hs' : ∀ fo ∈ fields', IsSchedule fo.2 n)
    (hacc : ∀ fo ∈ fields, fo.1.assignsE = false) (x y xi : ℕ → K) (a a' : ℕ → EB K) {i : ℕ}
    (hi : i < n) :
    gatherFields fields ord0 x y xi a i = gatherFields fields' ord0' x y xi a' i := by
  have key : ∀ l : List (LibField K), (∀ f ∈ l, f.assignsE = false) → BlowoutFirst l := by
    intro l hl
    unfold BlowoutFirst
    exact List.Pairwise.imp_of_mem (R := fun _ _ => True) (fun _ hb _ _ => hl _ hb)
      (List.pairwise_of_forall (by simp))
  have h1 : ∀ f ∈ fields.map Prod.fst, f.assignsE = false := by
    intro f hf
    obtain ⟨fo, hfo, rfl⟩ := List.mem_map.mp hf
    exact hacc fo hfo
  rw [superposition_partial fields h0 hs (key _ h1) x y xi a hi,
    superposition_partial fields' h0' hs' (key _ fun f hf => h1 f (hperm.mem_iff.mpr hf))
      x y xi a' hi]
  exact (hperm.map _).sum_eq

/-- **C10** for a plasma stage: the wakefield first, followed by external
magnetic fields and grid fields (plasma_stage.py 103-106). -/
theorem stage_superposition (wake : LibField K) (ext : List (LibField K))
    (he : ∀ f ∈ ext, f.assignsE = false) (n : ℕ) (x y xi : ℕ → K) (a : ℕ → EB K) {i : ℕ}
    (hi : i < n) :
    gatherFields ((wake :: ext).map fun f => (f, List.range n)) (List.range n) x y xi a i =
      wake.value (x i) (y i) (xi i) + (ext.map (·.value (x i) (y i) (xi i))).sum := by
  have hmap : ((wake :: ext).map fun f => (f, List.range n)).map Prod.fst = wake :: ext := by
    rw [List.map_map]; exact List.map_id _
  rw [superposition_partial _ (isSchedule_range n) _ _ x y xi a hi, hmap, List.map_cons,
    List.sum_cons]
  · intro fo hfo
    obtain ⟨f, _, rfl⟩ := List.mem_map.mp hfo
    exact isSchedule_range n
  · rw [hmap]
    unfold BlowoutFirst
    rw [List.pairwise_cons]
    refine ⟨fun f hf _ => he f hf, ?_⟩
    exact List.Pairwise.imp_of_mem (R := fun _ _ => True) (fun _ hb _ _ => he _ hb)
      (List.pairwise_of_forall (by simp))

/-- **C10** violated: two blowout fields do not add up; the later one replaces
the earlier one. -/
theorem superposition_fails :
    ∃ f g : LibField ℚ, ∃ x y xi : ℕ → ℚ, ∃ a : ℕ → EB ℚ,
      gatherFields [(f, [0]), (g, [0])] [0] x y xi a 0 ≠
        f.value (x 0) (y 0) (xi 0) + g.value (x 0) (y 0) (xi 0) ∧
      gatherFields [(f, [0]), (g, [0])] [0] x y xi a 0 ≠
        gatherFields [(g, [0]), (f, [0])] [0] x y xi a 0 := by
  refine ⟨.focusingBlowout 1 (fun _ => 1), .focusingBlowout 1 (fun _ => 2), fun _ => 1,
    fun _ => 0, fun _ => 0, fun _ => 0, ?_, ?_⟩ <;>
  · intro h
    have := congrArg EB.ex h
    simp [gatherFields, LibField.gather, resetFields, prange, at1, LibField.gather1,
      LibField.value, eb_add_def] at this
    try norm_num at this

example : BlowoutFirst [LibField.linearBTheta (3 : ℚ), .focusingBlowout 1 (fun _ => 2),
    .quadrupole 5, .rz (fun _ _ _ => 0)] := by
  simp [BlowoutFirst, LibField.electric, LibField.assignsE]

example : gatherFields [(LibField.linearBTheta (3 : ℚ), [1, 0]), (.quadrupole 5, [0, 1])] [0, 1]
    (fun i => i) (fun i => 2 * i) (fun _ => 0) (fun _ => ⟨9, 9, 9, 9, 9, 9⟩) 1 =
    ⟨0, 0, 0, -16, -2, 0⟩ := by
  rw [superposition_partial (n := 2)]
  · simp [LibField.value, eb_add_def]; norm_num [eb_zero_def]
  · exact isSchedule_range 2
  · intro fo hfo
    simp at hfo
    rcases hfo with rfl | rfl
    · exact (List.Perm.swap 0 1 [])
    · exact isSchedule_range 2
  · simp [BlowoutFirst, LibField.electric, LibField.assignsE]
  · decide

end

end WakeT.Fields
