import Verif.Tracker.Lemmas

/-! # The world and the snapshots are determined by the log of events -/

set_option linter.unusedSectionVars false

namespace WakeT.Tracker

variable {K F σ : Type*} [Field K] [LinearOrder K] [IsStrictOrderedRing K]
  [LinearOrder F]

/-- Specification: effect of one event on the world. -/
def Cfg.apply (c : Cfg K F σ) (w : σ) : Ev K → σ
  | .push _ i t dt => c.evolve w i t dt
  | .update j _ => c.updateF w j
  | .diag _ => w

/-- Specification: the world at each diagnostics of the log. -/
def Cfg.worldsAtDiags (c : Cfg K F σ) : σ → List (Ev K) → List σ
  | _, [] => []
  | w, .diag _ :: l => w :: Cfg.worldsAtDiags c w l
  | w, .push b i t dt :: l => Cfg.worldsAtDiags c (c.apply w (.push b i t dt)) l
  | w, .update j t :: l => Cfg.worldsAtDiags c (c.apply w (.update j t)) l

theorem worldsAtDiags_append (c : Cfg K F σ) (w : σ) (l l' : List (Ev K)) :
    c.worldsAtDiags w (l ++ l') =
      c.worldsAtDiags w l ++ c.worldsAtDiags (l.foldl c.apply w) l' := by
  induction l generalizing w with
  | nil => simp [Cfg.worldsAtDiags]
  | cons e l ih => cases e <;> simp [Cfg.worldsAtDiags, ih, Cfg.apply]

/-- The state is what replaying the log from the initial world gives. -/
def Replayed (c : Cfg K F σ) (w0 : σ) (s : St K σ) : Prop :=
  s.w = s.log.foldl c.apply w0 ∧ s.snaps = c.worldsAtDiags w0 s.log

theorem replayed_evolveBunch {c : Cfg K F σ} {w0 : σ} {s : St K σ} (h : Replayed c w0 s)
    (b : Bool) (i : ℕ) (tc tn d : K) : Replayed c w0 (evolveBunch c b s i tc tn d) := by
  constructor
  · rw [evolveBunch_log, List.foldl_append, ← h.1]; rfl
  · rw [evolveBunch_log, evolveBunch_snaps, worldsAtDiags_append, h.2]
    simp [Cfg.worldsAtDiags]

theorem replayed_pushAll {c : Cfg K F σ} {w0 : σ} {s : St K σ} (h : Replayed c w0 s) (tn : K)
    (n : ℕ) : Replayed c w0 (pushAll c tn n s) := by
  induction n with
  | zero => exact h
  | succ n ih => exact replayed_evolveBunch ih _ _ _ _ _

theorem replayed_generate {c : Cfg K F σ} {w0 : σ} {s : St K σ} (h : Replayed c w0 s) (t : K) :
    Replayed c w0 (generateDiagnostics s t) := by
  constructor
  · simp only [generateDiagnostics, List.foldl_append, ← h.1]; rfl
  · simp only [generateDiagnostics, worldsAtDiags_append, ← h.2, ← h.1, Cfg.worldsAtDiags]

theorem replayed_initFields {c : Cfg K F σ} {w0 : σ} {s : St K σ} (h : Replayed c w0 s) (n : ℕ) :
    Replayed c w0 (initFields c n s) := by
  induction n with
  | zero => exact h
  | succ n ih =>
    constructor
    · simp only [initFields, List.foldl_append, ← ih.1]; rfl
    · simp only [initFields, worldsAtDiags_append, ← ih.2, Cfg.worldsAtDiags, List.append_nil]

theorem replayed_start (c : Cfg K F σ) (w : σ) : Replayed c w (start c w) := by
  have : Replayed c w (blank w) := ⟨rfl, rfl⟩
  exact replayed_generate (replayed_initFields this c.nField) 0

theorem replayed_advance {c : Cfg K F σ} {w0 : σ} {s : St K σ} (h : Replayed c w0 s) (i : ℕ) :
    Replayed c w0 (advance c s i) := by
  unfold advance
  dsimp only
  split
  · exact replayed_evolveBunch h _ _ _ _ _
  · split
    · constructor
      · simp only [List.foldl_append, ← h.1]; rfl
      · simp only [worldsAtDiags_append, ← h.2, Cfg.worldsAtDiags, List.append_nil]
    · split
      · exact replayed_generate (replayed_pushAll h _ _) _
      · exact replayed_generate h _

theorem replayed_step {c : Cfg K F σ} {w0 : σ} (s s' : St K σ) (h : Replayed c w0 s)
    (hs : step c s = some s') : Replayed c w0 s' := by
  simp only [step] at hs
  split at hs
  · cases hs
  · cases hs
    exact replayed_advance h _

end WakeT.Tracker
