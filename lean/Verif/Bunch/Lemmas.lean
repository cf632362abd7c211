import Verif.Bunch.Spec
import Verif.Push.Lemmas
import Verif.Push.Props

/-! # Lemmas on bunches -/

set_option linter.unusedSectionVars false

namespace WakeT.Bunch

open Fields (EB)
open Push (Ph PField Sched Const borisStep classicalRK4 motion)

theorem foldl_max_lt (f : ℕ → ℝ) (z : ℝ) (l : List ℕ) (m : ℝ) :
    l.foldl (fun m i => max m (f i)) m < z ↔ m < z ∧ ∀ i ∈ l, f i < z := by
  induction l generalizing m with
  | nil => simp
  | cons j l ih =>
    rw [List.foldl_cons, ih, max_lt_iff]
    simp only [List.mem_cons, forall_eq_or_imp, and_assoc]

theorem amax_lt {n : ℕ} {a : ℕ → ℝ} {m : ℝ} (h : amax n a = some m) (z : ℝ) :
    m < z ↔ ∀ i < n, a i < z := by
  cases n with
  | zero => simp [amax] at h
  | succ n =>
    simp only [amax, Option.some.injEq] at h
    rw [← h, foldl_max_lt]
    constructor
    · rintro ⟨h0, h1⟩ i hi
      cases i with
      | zero => exact h0
      | succ i => exact h1 i (List.mem_range.mpr (by omega))
    · intro h
      exact ⟨h 0 (by omega), fun i hi => h (i + 1) (by have := List.mem_range.mp hi; omega)⟩

theorem amax_congr {n : ℕ} {a a' : ℕ → ℝ} (h : ∀ i < n, a i = a' i) : amax n a = amax n a' := by
  cases n with
  | zero => rfl
  | succ n =>
    simp only [amax, Option.some.injEq]
    have : ∀ (l : List ℕ) (m : ℝ), (∀ i ∈ l, i < n) →
        l.foldl (fun m i => max m (a (i + 1))) m = l.foldl (fun m i => max m (a' (i + 1))) m := by
      intro l
      induction l with
      | nil => intros; rfl
      | cons j l ih =>
        intro m hl
        rw [List.foldl_cons, List.foldl_cons, h (j + 1) (by have := hl j List.mem_cons_self; omega)]
        exact ih _ fun i hi => hl i (List.mem_cons_of_mem _ hi)
    rw [this _ _ fun i hi => List.mem_range.mp hi, h 0 (by omega)]

theorem amax_some {n : ℕ} (hn : 0 < n) (a : ℕ → ℝ) : ∃ m, amax n a = some m := by
  cases n with
  | zero => omega
  | succ n => exact ⟨_, rfl⟩

/-- What a pusher does to one particle. -/
noncomputable def stepOf (pusher : String) (k : Const) (fields : List PField) (t dt : ℝ)
    (p : Ph) : Ph :=
  if pusher = "rk4" then classicalRK4 (motion k fields) t dt p else borisStep k fields t dt p

theorem evolve_spec (c : ℝ) (b : Bunch) (fields fs : List PField) {sch : Sched}
    (hs : sch.Valid b.n) (t dt : ℝ) {pusher : String} (hp : pusher = "rk4" ∨ pusher = "boris")
    (hf : b.Fits) (ha : b.activeFields fields = .ok fs) :
    ∃ b', b.evolve c fields sch t dt pusher = (b', none) ∧ b'.n = b.n ∧ b'.w = b.w ∧
      (∀ i, b'.ph i = if i < b.n then stepOf pusher (b.const c) fs t dt (b.ph i) else b.ph i) ∧
      b'.propDistance = b.propDistance + dt * c ∧ b'.xRef = b.xRef ∧ b'.thetaRef = b.thetaRef ∧
      b'.name = b.name ∧ b'.qSpecies = b.qSpecies ∧ b'.mSpecies = b.mSpecies ∧
      b'.tags = b.tags ∧ b'.tFlight = b.tFlight ∧ b'.zInjection = b.zInjection ∧ b'.Fits := by
  have h1 : b.getFieldArrays.1 = b.n := by
    unfold Bunch.getFieldArrays
    cases h : b.fieldArrays with
    | none => rfl
    | some a => exact hf.1 a (by rw [h]; rfl)
  have h2 : b.getRK4Arrays.1 = b.n := by
    unfold Bunch.getRK4Arrays
    cases h : b.rk4Arrays with
    | none => rfl
    | some a => exact hf.2 a (by rw [h]; rfl)
  rcases hp with rfl | rfl
  · simp only [Bunch.evolve, ha, reduceIte, h1, h2, lt_irrefl, ne_eq, not_true_eq_false, or_self]
    refine ⟨_, rfl, ?_⟩
    · refine ⟨rfl, rfl, fun i => ?_, rfl, rfl, rfl, rfl, rfl, rfl, rfl, rfl, rfl, ?_⟩
      · rw [stepOf, if_pos (rfl : "rk4" = "rk4")]
        exact Push.rk4_apply _ _ hs _ _ _ _ _ _
      · constructor <;> intro a h <;> cases h <;> rfl
  · simp only [Bunch.evolve, ha, show ¬ ("boris" = "rk4") by decide, reduceIte, h1, lt_irrefl]
    refine ⟨_, rfl, ?_⟩
    · refine ⟨rfl, rfl, fun i => ?_, rfl, rfl, rfl, rfl, rfl, rfl, rfl, rfl, rfl, ?_⟩
      · rw [stepOf, if_neg (show ¬ ("boris" = "rk4") by decide)]
        exact Push.boris_apply _ _ hs _ _ _ _ _
      · constructor
        · intro a h; cases h; rfl
        · exact hf.2

theorem evolve_error (c : ℝ) (b : Bunch) (fields : List PField) (sch : Sched)
    (t dt : ℝ) (pusher : String) {e : Err} (ha : b.activeFields fields = .error e) :
    b.evolve c fields sch t dt pusher = (b, some e) := by
  simp only [Bunch.evolve, ha]

theorem evolve_unknown (c : ℝ) (b : Bunch) (fields fs : List PField) (sch : Sched)
    (t dt : ℝ) {pusher : String} (hp : ¬ (pusher = "rk4" ∨ pusher = "boris"))
    (ha : b.activeFields fields = .ok fs) :
    b.evolve c fields sch t dt pusher = (b, some .unknownPusher) := by
  rw [not_or] at hp
  simp only [Bunch.evolve, ha, hp.1, hp.2, reduceIte]

theorem activeFields_congr {b b' : Bunch} (h : SameData b b') (hz : b.zInjection = b'.zInjection)
    (fields : List PField) : b.activeFields fields = b'.activeFields fields := by
  unfold Bunch.activeFields
  obtain ⟨hn, hp, hd, _⟩ := h
  rw [hz, ← hn, hd, amax_congr (fun i hi => by rw [(hp i hi).1])]

end WakeT.Bunch
