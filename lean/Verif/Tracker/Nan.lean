import Verif.Tracker.Props
import Verif.Base.Tactics
import Mathlib.Algebra.Order.Ring.Rat

/-! # Tracking with time steps that are not numbers (C140)

The documentation of ramps and lenses allows `dt_bunch=None` (plasma_ramp.py 92-97, active_plasma_lens.py 45-52).  The value is stored in
an array of numpy (tracker.py 172, 179), which makes it `nan`.  The model of the tracking loop in `Verif.Tracker.Model` is
extended by that value here: `none` is `nan`. -/

set_option linter.unusedSectionVars false

namespace WakeT.Tracker

variable {K F σ : Type*} [Field K] [LinearOrder K] [IsStrictOrderedRing K] [LinearOrder F]

/-- Addition of floating point numbers that may be `nan` (tracker.py 185, 241, 245, 298). -/
def nadd : Option K → Option K → Option K
  | some a, some b => some (a + b)
  | _, _ => none

/-- Subtraction (tracker.py 232, 302). -/
def nsub : Option K → Option K → Option K
  | some a, some b => some (a - b)
  | _, _ => none

/-- `a > b`, which is false if one of them is `nan` (tracker.py 205, 297-298). -/
def ngt {α : Type*} [LinearOrder α] : Option α → Option α → Bool
  | some a, some b => decide (b < a)
  | _, _ => false

/-- `a == b`, which is false if one of them is `nan` (tracker.py 295). -/
def neq' {α : Type*} [LinearOrder α] : Option α → Option α → Bool
  | some a, some b => decide (a = b)
  | _, _ => false

/-- `np.argmin` over the indices `0..n` (tracker.py 195): the index of the first `nan` if there is one. -/
def nargmin (g : ℕ → Option F) : ℕ → ℕ
  | 0 => 0
  | n + 1 =>
    match g (nargmin g n), g (n + 1) with
    | none, _ => nargmin g n
    | some _, none => n + 1
    | some a, some b => if b < a then n + 1 else nargmin g n

/-- Arguments of `Tracker.__init__` (tracker.py 86-99) as in `Cfg`; an entry of `dtBunch` is `none` for the string `'auto'`, `some none` for the
Python value `None` (and for `nan`). -/
structure NCfg (K F σ : Type*) where
  tFinal : K
  nBunch : ℕ
  nField : ℕ
  nDiag : ℕ
  dtBunch : ℕ → Option (Option K)
  dtField : ℕ → Option K
  autoDt : σ → ℕ → Option K
  pushBeforeDiags : Bool
  f32 : K → F
  evolve : σ → ℕ → Option K → Option K → σ
  updateF : σ → ℕ → σ

/-- Local variables of the loop (tracker.py 171-172), as in `St` without the ghost log. -/
structure NSt (K σ : Type*) where
  t : ℕ → Option K
  dt : ℕ → Option K
  w : σ
  snaps : List σ

/-- `len(self.objects_to_track)` (tracker.py 119, 129-130). -/
def NCfg.nObj (c : NCfg K F σ) : ℕ := c.nBunch + c.nField + (if 0 < c.nDiag then 1 else 0)

/-- Initial time step of object `i` (tracker.py 119-120, 131-132, 175-179). -/
def NCfg.dt0 (c : NCfg K F σ) (w : σ) (i : ℕ) : Option K :=
  if i < c.nBunch then
    match c.dtBunch i with
    | none => c.autoDt w i
    | some d => d
  else if i < c.nBunch + c.nField then c.dtField (i - c.nBunch)
  else some (c.tFinal / (c.nDiag : K))

/-- `Tracker.evolve_bunch` and the advance of the clock (tracker.py 264-302, 241, 245). -/
def nevolve (c : NCfg K F σ) (s : NSt K σ) (i : ℕ) (tCurrent tNext dtNext : Option K) : NSt K σ :=
  let w := c.evolve s.w i tCurrent dtNext
  let dt := match c.dtBunch i with
    | none => Function.update s.dt i (c.autoDt w i)
    | some _ => s.dt
  let dt := if ¬ neq' (tNext.map c.f32) (some (c.f32 c.tFinal)) ∧ ngt (nadd tNext (dt i)) (some c.tFinal)
    then Function.update dt i (nsub (some c.tFinal) tNext) else dt
  { t := Function.update s.t i (nadd (s.t i) dtNext), dt := dt, w := w, snaps := s.snaps }

/-- Loop tracker.py 230-241. -/
def npushAll (c : NCfg K F σ) (tNext : Option K) : ℕ → NSt K σ → NSt K σ
  | 0, s => s
  | n + 1, s =>
    let s := npushAll c tNext n s
    nevolve c s n (s.t n) tNext (nsub tNext (s.t n))

/-- Body of the loop for the object with index `i` (tracker.py 197-245). -/
def nadvance (c : NCfg K F σ) (s : NSt K σ) (i : ℕ) : NSt K σ :=
  let tNext := nadd (s.t i) (s.dt i)
  let dtNext := s.dt i
  if i < c.nBunch then nevolve c s i (s.t i) tNext dtNext
  else if i < c.nBunch + c.nField then
    { s with w := c.updateF s.w (i - c.nBunch), t := Function.update s.t i (nadd (s.t i) dtNext) }
  else
    let s := if c.pushBeforeDiags then npushAll c tNext c.nBunch s else s
    { s with snaps := s.snaps ++ [s.w], t := Function.update s.t i (nadd (s.t i) dtNext) }

/-- One iteration of the loop (tracker.py 182-248); `none` is `break`. -/
def nstep (c : NCfg K F σ) (s : NSt K σ) : Option (NSt K σ) :=
  let g := fun i => (nadd (s.t i) (s.dt i)).map c.f32
  let i := nargmin g (c.nObj - 1)
  if ngt (g i) (some (c.f32 c.tFinal)) then none else some (nadvance c s i)

/-- The loop with a bound on the number of iterations (tracker.py 182-248). -/
def nrun (c : NCfg K F σ) : ℕ → NSt K σ → Option (NSt K σ)
  | 0, _ => none
  | n + 1, s =>
    match nstep c s with
    | none => some s
    | some s' => nrun c n s'

/-- Fields are calculated at `t = 0` (tracker.py 163-164). -/
def ninit (c : NCfg K F σ) : ℕ → σ → σ
  | 0, w => w
  | n + 1, w => c.updateF (ninit c n w) n

/-- State on entry of the loop (tracker.py 163-179). -/
def nstart (c : NCfg K F σ) (w : σ) : NSt K σ :=
  let w := ninit c c.nField w
  { t := fun _ => some 0, dt := c.dt0 w, w := w, snaps := [w] }

/-! ### Without `nan` it is the same loop -/

/-- The arguments are those of `c`, with `nan` allowed. -/
structure Extends (n : NCfg K F σ) (c : Cfg K F σ) : Prop where
  tFinal : n.tFinal = c.tFinal
  nBunch : n.nBunch = c.nBunch
  nField : n.nField = c.nField
  nDiag : n.nDiag = c.nDiag
  dtBunch : ∀ i, n.dtBunch i = (c.dtBunch i).map some
  dtField : ∀ j, n.dtField j = some (c.dtField j)
  autoDt : ∀ w i, n.autoDt w i = some (c.autoDt w i)
  push : n.pushBeforeDiags = c.pushBeforeDiags
  f32 : n.f32 = c.f32
  evolve : ∀ w i t dt, n.evolve w i (some t) (some dt) = c.evolve w i t dt
  updateF : n.updateF = c.updateF

/-- A state without `nan`. -/
def lift (s : St K σ) : NSt K σ := ⟨fun i => some (s.t i), fun i => some (s.dt i), s.w, s.snaps⟩

theorem update_some {α : Type*} (f : ℕ → α) (i : ℕ) (v : α) :
    Function.update (fun j => some (f j)) i (some v) = fun j => some (Function.update f i v j) := by
  funext j
  by_cases h : j = i
  · subst h; simp
  · simp [Function.update_of_ne h]

theorem nargmin_some (g : ℕ → F) (n : ℕ) : nargmin (fun i => some (g i)) n = argmin g n := by
  induction n with
  | zero => rfl
  | succ n ih =>
    unfold nargmin argmin
    rw [ih]

theorem nevolve_lift {n : NCfg K F σ} {c : Cfg K F σ} (h : Extends n c) (forced : Bool) (s : St K σ) (i : ℕ) (a b d : K) :
    nevolve n (lift s) i (some a) (some b) (some d) = lift (evolveBunch c forced s i a b d) := by
  unfold nevolve evolveBunch lift
  dsimp only
  rw [h.evolve, h.dtBunch, h.f32, h.tFinal]
  have key : ∀ dt : ℕ → K, (if ¬ neq' (some (c.f32 b)) (some (c.f32 c.tFinal)) ∧ ngt (nadd (some b) (some (dt i))) (some c.tFinal)
      then Function.update (fun j => some (dt j)) i (nsub (some c.tFinal) (some b)) else fun j => some (dt j)) =
      fun j => some ((if ¬ (c.f32 b = c.f32 c.tFinal) ∧ b + dt i > c.tFinal then Function.update dt i (c.tFinal - b) else dt) j) := by
    intro dt
    have e : (¬ neq' (some (c.f32 b)) (some (c.f32 c.tFinal)) ∧ ngt (nadd (some b) (some (dt i))) (some c.tFinal)) ↔
        (¬ (c.f32 b = c.f32 c.tFinal) ∧ b + dt i > c.tFinal) := by
      simp [neq', ngt, nadd]
    by_cases hc : ¬ (c.f32 b = c.f32 c.tFinal) ∧ b + dt i > c.tFinal
    · rw [if_pos hc, if_pos (e.mpr hc)]
      exact update_some _ _ _
    · rw [if_neg hc, if_neg (mt e.mp hc)]
  cases hd : c.dtBunch i with
  | none =>
    simp only [Option.map_none, Option.map_some]
    rw [h.autoDt, update_some, key]
    congr 1
    exact update_some _ _ _
  | some x =>
    simp only [Option.map_some]
    rw [key]
    congr 1
    exact update_some _ _ _

theorem npushAll_lift {n : NCfg K F σ} {c : Cfg K F σ} (h : Extends n c) (t : K) (m : ℕ) (s : St K σ) :
    npushAll n (some t) m (lift s) = lift (pushAll c t m s) := by
  induction m with
  | zero => rfl
  | succ m ih =>
    unfold npushAll pushAll
    rw [ih]
    exact nevolve_lift h true _ m _ _ _

/-- The loop with numbers only is the one of `Verif.Tracker.Model`. -/
theorem nstep_lift {n : NCfg K F σ} {c : Cfg K F σ} (h : Extends n c) (s : St K σ) :
    nstep n (lift s) = (step c s).map lift := by
  have ho : n.nObj = c.nObj := by unfold NCfg.nObj Cfg.nObj; rw [h.nBunch, h.nField, h.nDiag]
  have hi : nargmin (fun i => (nadd ((lift s).t i) ((lift s).dt i)).map n.f32) (n.nObj - 1) =
      argmin (fun i => c.f32 (s.t i + s.dt i)) (c.nObj - 1) := by
    rw [ho, h.f32]
    exact nargmin_some _ _
  unfold nstep step
  dsimp only
  rw [hi]
  generalize argmin (fun i => c.f32 (s.t i + s.dt i)) (c.nObj - 1) = i
  have e : ngt ((nadd ((lift s).t i) ((lift s).dt i)).map n.f32) (some (n.f32 n.tFinal)) ↔ c.f32 (s.t i + s.dt i) > c.f32 c.tFinal := by
    rw [h.f32, h.tFinal]
    simp [lift, nadd, ngt]
  by_cases hc : c.f32 (s.t i + s.dt i) > c.f32 c.tFinal
  · rw [if_pos hc, if_pos (e.mpr hc)]; rfl
  · rw [if_neg hc, if_neg (mt e.mp hc), Option.map_some]
    congr 1
    unfold nadvance advance
    dsimp only
    rw [h.nBunch, h.nField, h.push, h.updateF]
    by_cases h1 : i < c.nBunch
    · rw [if_pos h1, if_pos h1]
      exact nevolve_lift h false s i _ _ _
    · rw [if_neg h1, if_neg h1]
      by_cases h2 : i < c.nBunch + c.nField
      · rw [if_pos h2, if_pos h2]
        unfold lift
        dsimp only
        congr 1
        exact update_some _ _ _
      · rw [if_neg h2, if_neg h2]
        cases c.pushBeforeDiags with
        | false =>
          unfold lift generateDiagnostics
          dsimp only
          congr 1
          exact update_some _ _ _
        | true =>
          have hp := npushAll_lift h (s.t i + s.dt i) c.nBunch s
          have e1 : nadd ((lift s).t i) ((lift s).dt i) = some (s.t i + s.dt i) := rfl
          rw [if_pos rfl, if_pos rfl, e1, hp]
          unfold lift generateDiagnostics
          dsimp only
          congr 1
          exact update_some _ _ _

theorem nrun_lift {n : NCfg K F σ} {c : Cfg K F σ} (h : Extends n c) (fuel : ℕ) (s : St K σ) :
    nrun n fuel (lift s) = (run c fuel s).map lift := by
  induction fuel generalizing s with
  | zero => rfl
  | succ fuel ih =>
    unfold nrun run
    rw [nstep_lift h]
    cases step c s with
    | none => rfl
    | some s' => exact ih s'

theorem nstart_lift {n : NCfg K F σ} {c : Cfg K F σ} (h : Extends n c) (w : σ) : nstart n w = lift (start c w) := by
  have hw : ∀ m, ninit n m w = (initFields c m (blank w)).w := by
    intro m
    induction m with
    | zero => rfl
    | succ m ih =>
      unfold ninit initFields
      rw [ih, h.updateF]
  have hd : ∀ w', n.dt0 w' = fun i => some (c.dt0 w' i) := by
    intro w'
    funext i
    unfold NCfg.dt0 Cfg.dt0
    rw [h.nBunch, h.nField, h.nDiag, h.tFinal]
    by_cases h1 : i < c.nBunch
    · rw [if_pos h1, if_pos h1, h.dtBunch]
      cases c.dtBunch i with
      | none => exact h.autoDt _ _
      | some d => rfl
    · rw [if_neg h1, if_neg h1]
      by_cases h2 : i < c.nBunch + c.nField
      · rw [if_pos h2, if_pos h2, h.dtField]
      · rw [if_neg h2, if_neg h2]; rfl
  unfold nstart lift
  dsimp only
  rw [h.nField, hw, hd]
  have hs : (start c w).snaps = [(initFields c c.nField (blank w)).w] := by
    unfold start generateDiagnostics
    dsimp only
    rw [initFields_snaps]
    rfl
  rw [start_t, hs]
  rfl

/-- **C140, partial.** Tracking ends if every bunch has a positive step or the automatic one (`'auto'`), and gives the result of the exact model.
Missing: the documented value `None`, see `dt_none_violated`. -/
theorem auto_ends_partial [FloorSemiring K] {n : NCfg K F σ} {c : Cfg K F σ} (h : Extends n c) (w : σ) {δ : K} (hδ : 0 < δ) (ht : 0 < c.tFinal)
    (hb : c.Bounded δ) (hm : StrictMono c.f32) (hn : 0 < c.nDiag) :
    ∃ fuel s, doTracking c fuel w = .returned s ∧ nrun n fuel (nstart n w) = some (lift s) := by
  obtain ⟨s, hs⟩ := tracking_terminates c w hδ ht hb hm hn
  refine ⟨_, s, hs, ?_⟩
  rw [nstart_lift h, nrun_lift h, (doTracking_returned hs).2.2]
  rfl

/-- The arguments of `c`, with a world that is not changed by pushes with `nan`. -/
def NCfg.of (c : Cfg K F σ) : NCfg K F σ :=
  ⟨c.tFinal, c.nBunch, c.nField, c.nDiag, fun i => (c.dtBunch i).map some, fun j => some (c.dtField j), fun w i => some (c.autoDt w i),
    c.pushBeforeDiags, c.f32, fun w i t dt => match t, dt with | some t, some dt => c.evolve w i t dt | _, _ => w, c.updateF⟩

theorem extends_of (c : Cfg K F σ) : Extends (NCfg.of c) c :=
  ⟨rfl, rfl, rfl, rfl, fun _ => rfl, fun _ => rfl, fun _ _ => rfl, rfl, rfl, fun _ _ _ _ => rfl, rfl⟩

example : ∃ fuel s, doTracking demo fuel 0 = .returned s ∧ nrun (NCfg.of demo) fuel (nstart (NCfg.of demo) 0) = some (lift s) :=
  auto_ends_partial (extends_of demo) 0 (δ := 3 / 10) (by norm_num) demo_positive.tFinal demo_bounded strictMono_id (by decide)

/-! ### A step that is not a number -/

theorem nargmin_nan (g : ℕ → Option F) (n : ℕ) (h : ∃ i ≤ n, g i = none) : g (nargmin g n) = none := by
  induction n with
  | zero =>
    obtain ⟨i, hi, h⟩ := h
    rw [Nat.le_zero.mp hi] at h
    exact h
  | succ n ih =>
    unfold nargmin
    cases h1 : g (nargmin g n) with
    | none => exact h1
    | some a =>
      have hlast : g (n + 1) = none := by
        obtain ⟨i, hi, h⟩ := h
        rcases Nat.lt_or_ge n i with h2 | h2
        · rwa [show i = n + 1 by omega] at h
        · rw [ih ⟨i, h2, h⟩] at h1; cases h1
      simp only [hlast]

theorem nevolve_dt (c : NCfg K F σ) {i : ℕ} (hd : c.dtBunch i = some none) (s : NSt K σ) (hs : s.dt i = none) (j : ℕ) (a b d : Option K) :
    (nevolve c s j a b d).dt i = none := by
  unfold nevolve
  dsimp only
  by_cases hj : j = i
  · subst hj
    rw [hd]
    dsimp only
    have : nadd b (s.dt j) = none := by rw [hs]; cases b <;> rfl
    rw [this, if_neg (by simp [ngt])]
    exact hs
  · have hdt : ∀ f : ℕ → Option K, f i = none → ∀ P : Prop, ∀ [Decidable P], ∀ v, (if P then Function.update f j v else f) i = none := by
      intro f hf P _ v
      by_cases hP : P
      · rw [if_pos hP, Function.update_of_ne (Ne.symm hj)]; exact hf
      · rw [if_neg hP]; exact hf
    cases c.dtBunch j with
    | none => exact hdt _ (by dsimp only; rw [Function.update_of_ne (Ne.symm hj)]; exact hs) _ _
    | some x => exact hdt _ hs _ _

theorem nadvance_dt (c : NCfg K F σ) {i : ℕ} (hd : c.dtBunch i = some none) (s : NSt K σ) (hs : s.dt i = none) (j : ℕ) :
    (nadvance c s j).dt i = none := by
  have hall : ∀ t m, (npushAll c t m s).dt i = none := by
    intro t m
    induction m with
    | zero => exact hs
    | succ m ih => exact nevolve_dt c hd _ ih _ _ _ _
  unfold nadvance
  dsimp only
  by_cases h1 : j < c.nBunch
  · rw [if_pos h1]; exact nevolve_dt c hd s hs _ _ _ _
  · rw [if_neg h1]
    by_cases h2 : j < c.nBunch + c.nField
    · rw [if_pos h2]; exact hs
    · rw [if_neg h2]
      cases c.pushBeforeDiags with
      | false => exact hs
      | true => exact hall _ _

/-- **C140, violated.** Tracking with `dt_bunch=None` never ends: whatever the bunches, the fields, the length and the number of outputs, the
loop is still running after any number of iterations. -/
theorem dt_none_violated (c : NCfg K F σ) {i : ℕ} (hi : i < c.nBunch) (hd : c.dtBunch i = some none) (fuel : ℕ) (w : σ) :
    nrun c fuel (nstart c w) = none := by
  have key : ∀ fuel (s : NSt K σ), s.dt i = none → nrun c fuel s = none := by
    intro fuel
    induction fuel with
    | zero => intro s _; rfl
    | succ fuel ih =>
      intro s hs
      have hn : nadd (s.t i) (s.dt i) = none := by rw [hs]; cases s.t i <;> rfl
      have hg := nargmin_nan (fun i => (nadd (s.t i) (s.dt i)).map c.f32) (c.nObj - 1)
        ⟨i, by unfold NCfg.nObj; omega, by rw [hn]; rfl⟩
      have hstep : nstep c s = some (nadvance c s (nargmin (fun i => (nadd (s.t i) (s.dt i)).map c.f32) (c.nObj - 1))) := by
        unfold nstep
        dsimp only
        refine if_neg ?_
        rw [hg]
        simp [ngt]
      unfold nrun
      rw [hstep]
      exact ih _ (nadvance_dt c hd s hs _)
  refine key fuel _ ?_
  show c.dt0 _ i = none
  unfold NCfg.dt0
  rw [if_pos hi, hd]

/-- One bunch with step `d`, and one output at time 1; the world counts the pushes. -/
def demoN (d : Option (Option ℚ)) : NCfg ℚ ℚ ℕ :=
  ⟨1, 1, 0, 1, fun _ => d, fun _ => none, fun _ _ => some (1 / 3), true, id, fun w _ _ _ => w + 1, fun w _ => w⟩

/-- With a step or with `'auto'` the tracking of the instance ends, and with `None` it does not. -/
example : (∃ s, nrun (demoN (some (some (1 / 2)))) 10 (nstart (demoN (some (some (1 / 2)))) 0) = some s) ∧
    (∃ s, nrun (demoN none) 10 (nstart (demoN none) 0) = some s) ∧
    ∀ fuel, nrun (demoN (some none)) fuel (nstart (demoN (some none)) 0) = none := by
  refine ⟨Option.isSome_iff_exists.mp (by decide +kernel), Option.isSome_iff_exists.mp (by decide +kernel),
    fun fuel => dt_none_violated _ (i := 0) (by decide) rfl fuel 0⟩

end WakeT.Tracker
