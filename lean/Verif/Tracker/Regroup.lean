import Verif.Tracker.Together

/-! # Tracking the same particles in other bunches (C156)

The order in which bunches are pushed depends on their order in the list.  The proof compares the
tracking `c` with a tracking `c'` of other bunches: `c'` waits until `c` comes to a field or to the
diagnostics, and then catches up. -/

set_option linter.unusedSectionVars false

namespace WakeT.FieldElement

open Tracker Bunch
open Push (PField Sched Ph)

variable {F Φ : Type} [LinearOrder F]

/-- A bunch, its clock and its next step. -/
structure Clocked where
  t : ℝ
  dt : ℝ
  b : Bunch

/-- A push of a bunch in the fields `φ`. -/
noncomputable def Elem.push1 (e : Elem F Φ) (φ : Φ) (b : Bunch) (t dt : ℝ) : Bunch :=
  (b.evolve e.c (e.felt φ) (e.sch b.n) t dt e.pusher).1

/-- What `evolveBunch` does to the bunch; `o` is its time step, if it is fixed. -/
noncomputable def Elem.step1 (e : Elem F Φ) (o : Option ℝ) (φ : Φ) (x : Clocked) (tNext dtNext : ℝ) : Clocked :=
  let b := e.push1 φ x.b x.t dtNext
  let dt := match o with
    | none => e.autoDt b
    | some _ => x.dt
  let dt := if ¬ (e.f32 tNext = e.f32 (e.length / e.c)) ∧ tNext + dt > e.length / e.c then e.length / e.c - tNext else dt
  ⟨x.t + dtNext, dt, b⟩

/-- The bunch `i` in a state of the tracker. -/
def view (s : St ℝ (World Φ)) (i : ℕ) : Clocked := ⟨s.t i, s.dt i, s.w.bunch i⟩

theorem view_self (e : Elem F Φ) (opmd : Bool) (N : ℕ) (dts : List (Option ℝ)) (dtF : List ℝ) (f : Bool) (s : St ℝ (World Φ)) (i : ℕ)
    (tn d : ℝ) : view (evolveBunch (e.cfg opmd N dts dtF) f s i (s.t i) tn d) i =
      e.step1 (dts.getD i none) s.w.flds (view s i) tn d := by
  set c := e.cfg opmd N dts dtF with hcdef
  have hb : (c.evolve s.w i (s.t i) d).bunch i = e.push1 s.w.flds (s.w.bunch i) (s.t i) d := Function.update_self ..
  have ha : c.autoDt (c.evolve s.w i (s.t i) d) i = e.autoDt (e.push1 s.w.flds (s.w.bunch i) (s.t i) d) := congrArg e.autoDt hb
  have key : ∀ v : ℕ → ℝ, (if ¬ (c.f32 tn = c.f32 c.tFinal) ∧ tn + v i > c.tFinal then Function.update v i (c.tFinal - tn) else v) i =
      if ¬ (e.f32 tn = e.f32 (e.length / e.c)) ∧ tn + v i > e.length / e.c then e.length / e.c - tn else v i := by
    intro v
    by_cases h : ¬ (c.f32 tn = c.f32 c.tFinal) ∧ tn + v i > c.tFinal
    · rw [if_pos h, Function.update_self]
      exact (if_pos h).symm
    · rw [if_neg h]
      exact (if_neg h).symm
  cases ho : dts.getD i none with
  | none =>
    have hc : c.dtBunch i = none := ho
    unfold view evolveBunch Elem.step1
    simp only [hc]
    rw [hb, Function.update_self, key, Function.update_self, ha]
  | some x =>
    have hc : c.dtBunch i = some x := ho
    unfold view evolveBunch Elem.step1
    simp only [hc]
    rw [hb, Function.update_self, key]

theorem view_other (e : Elem F Φ) (opmd : Bool) (N : ℕ) (dts : List (Option ℝ)) (dtF : List ℝ) (f : Bool) (s : St ℝ (World Φ)) {i j : ℕ}
    (h : j ≠ i) (tc tn d : ℝ) : view (evolveBunch (e.cfg opmd N dts dtF) f s i tc tn d) j = view s j := by
  set c := e.cfg opmd N dts dtF with hcdef
  have hb : (c.evolve s.w i tc d).bunch j = s.w.bunch j := Function.update_of_ne h _ _
  unfold view evolveBunch
  dsimp only
  rw [hb, Function.update_of_ne h]
  have key : ∀ v : ℕ → ℝ, (if ¬ (c.f32 tn = c.f32 c.tFinal) ∧ tn + v i > c.tFinal then Function.update v i (c.tFinal - tn) else v) j =
      v j := by
    intro v
    split_ifs
    · exact Function.update_of_ne h _ _
    · rfl
  rw [key]
  cases c.dtBunch i with
  | none => dsimp only; rw [Function.update_of_ne h]
  | some x => rfl

theorem pushAll_view (e : Elem F Φ) (opmd : Bool) (N : ℕ) (dts : List (Option ℝ)) (dtF : List ℝ) (tn : ℝ) (s : St ℝ (World Φ)) (n : ℕ) :
    (∀ j, view (pushAll (e.cfg opmd N dts dtF) tn n s) j =
      if j < n then e.step1 (dts.getD j none) s.w.flds (view s j) tn (tn - s.t j) else view s j) ∧
    (pushAll (e.cfg opmd N dts dtF) tn n s).w.flds = s.w.flds ∧ (pushAll (e.cfg opmd N dts dtF) tn n s).w.n = s.w.n ∧
    (pushAll (e.cfg opmd N dts dtF) tn n s).snaps = s.snaps := by
  induction n with
  | zero => exact ⟨fun j => by simp [pushAll], rfl, rfl, rfl⟩
  | succ n ih =>
    obtain ⟨h1, h2, h3, h4⟩ := ih
    refine ⟨fun j => ?_, h2, h3, h4⟩
    show view (evolveBunch _ true (pushAll _ tn n s) n ((pushAll _ tn n s).t n) tn _) j = _
    by_cases hj : j = n
    · subst hj
      rw [view_self, h1 j, if_neg (lt_irrefl j), if_pos (Nat.lt_succ_self j), h2]
      have : (pushAll (e.cfg opmd N dts dtF) tn j s).t j = s.t j := by
        have := congrArg Clocked.t (h1 j)
        rw [if_neg (lt_irrefl j)] at this
        exact this
      rw [this]
    · rw [view_other _ _ _ _ _ _ _ hj, h1 j]
      by_cases hlt : j < n
      · rw [if_pos hlt, if_pos (by omega)]
      · rw [if_neg hlt, if_neg (by omega)]

/-! ### Specification -/

/-- How the bunches of two trackings in the element are related: `κ k` is the bunch of the first
one that contains the particles of bunch `k` of the second one, `P k` relates both, and `Inv i` is known
of bunch `i` of the first one.  Both give the same fields. -/
structure Elem.Regroups (e : Elem F Φ) (N N' : ℕ) (dts dts' : List (Option ℝ)) (κ : ℕ → ℕ) (P : ℕ → Bunch → Bunch → Prop)
    (Inv : ℕ → Bunch → Prop) : Prop where
  lt : ∀ k < N', κ k < N
  steps : ∀ k < N', dts'.getD k none = dts.getD (κ k) none
  auto : ∀ k < N', dts.getD (κ k) none = none → ∀ b b', P k b b' → e.autoDt b' = e.autoDt b
  push : ∀ k < N', ∀ φ b b' t dt, P k b b' → P k (e.push1 φ b t dt) (e.push1 φ b' t dt)
  inv : ∀ i < N, ∀ φ b t dt, Inv i b → Inv i (e.push1 φ b t dt)
  update : ∀ (f f' : ℕ → Bunch) φ j, (∀ k < N', P k (f (κ k)) (f' k)) → (∀ i < N, Inv i (f i)) →
    e.update ((List.range N').map f') φ j = e.update ((List.range N).map f) φ j

/-- Related worlds. -/
structure Alike (N N' : ℕ) (κ : ℕ → ℕ) (P : ℕ → Bunch → Bunch → Prop) (Inv : ℕ → Bunch → Prop) (w w' : World Φ) : Prop where
  n : w.n = N
  n' : w'.n = N'
  flds : w'.flds = w.flds
  rel : ∀ k < N', P k (w.bunch (κ k)) (w'.bunch k)
  inv : ∀ i < N, Inv i (w.bunch i)

/-- `y` is `x` after `m` pushes, all of them at times that satisfy `El`. -/
inductive Reach (e : Elem F Φ) (o : Option ℝ) (φ : Φ) (El : ℝ → Prop) : ℕ → Clocked → Clocked → Prop
  | refl (x : Clocked) : Reach e o φ El 0 x x
  | step {m : ℕ} {x y : Clocked} (h : El (x.t + x.dt)) (hr : Reach e o φ El m (e.step1 o φ x (x.t + x.dt) x.dt) y) :
      Reach e o φ El (m + 1) x y

theorem Reach.snoc {e : Elem F Φ} {o : Option ℝ} {φ : Φ} {El : ℝ → Prop} {m : ℕ} {x y : Clocked} (h : Reach e o φ El m x y)
    (hy : El (y.t + y.dt)) : Reach e o φ El (m + 1) x (e.step1 o φ y (y.t + y.dt) y.dt) := by
  induction h with
  | refl x => exact .step hy (.refl _)
  | step h1 _ ih => exact .step h1 (ih hy)

theorem Reach.zero {e : Elem F Φ} {o : Option ℝ} {φ : Φ} {El : ℝ → Prop} {x y : Clocked} (h : Reach e o φ El 0 x y) : x = y := by
  cases h
  rfl

/-- The same clocks and related bunches. -/
def Pair (P : Bunch → Bunch → Prop) (x x' : Clocked) : Prop := x'.t = x.t ∧ x'.dt = x.dt ∧ P x.b x'.b

/-- A push up to the time `v` comes before the fields, the diagnostics and the end. -/
def Early (e : Elem F Φ) (N : ℕ) (s : St ℝ (World Φ)) (v : ℝ) : Prop :=
  e.f32 v ≤ e.f32 (e.length / e.c) ∧ ∀ j < e.numFields.length + 1, e.f32 v ≤ e.f32 (s.t (N + j) + s.dt (N + j))

/-- The state `s'` lags behind the state `s` by `m k` pushes of its bunch `k`. -/
structure Lags (e : Elem F Φ) (N N' : ℕ) (dts : List (Option ℝ)) (κ : ℕ → ℕ) (P : ℕ → Bunch → Bunch → Prop)
    (Inv : ℕ → Bunch → Prop) (m : ℕ → ℕ) (s s' : St ℝ (World Φ)) : Prop where
  n : s.w.n = N
  n' : s'.w.n = N'
  flds : s'.w.flds = s.w.flds
  inv : ∀ i < N, Inv i (s.w.bunch i)
  rest : ∀ j < e.numFields.length + 1, s'.t (N' + j) = s.t (N + j) ∧ s'.dt (N' + j) = s.dt (N + j)
  snaps : List.Forall₂ (Alike N N' κ P Inv) s.snaps s'.snaps
  reach : ∀ k < N', ∃ y, Reach e (dts.getD (κ k) none) s.w.flds (Early e N s) (m k) (view s' k) y ∧ Pair (P k) (view s (κ k)) y

section
variable {e : Elem F Φ} {N N' : ℕ} {dts dts' : List (Option ℝ)} {κ : ℕ → ℕ} {P : ℕ → Bunch → Bunch → Prop} {Inv : ℕ → Bunch → Prop}

theorem Lags.pair {s s' : St ℝ (World Φ)} (h : Lags e N N' dts κ P Inv (fun _ => 0) s s') {k : ℕ} (hk : k < N') :
    Pair (P k) (view s (κ k)) (view s' k) := by
  obtain ⟨y, h1, h2⟩ := h.reach k hk
  rwa [h1.zero]

theorem Lags.alike {s s' : St ℝ (World Φ)} (h : Lags e N N' dts κ P Inv (fun _ => 0) s s') : Alike N N' κ P Inv s.w s'.w :=
  ⟨h.n, h.n', h.flds, fun _ hk => (h.pair hk).2.2, h.inv⟩

theorem step1_pair (hg : e.Regroups N N' dts dts' κ P Inv) {k : ℕ} (hk : k < N') (φ : Φ) {x x' : Clocked}
    (h : Pair (P k) x x') (tn d : ℝ) :
    Pair (P k) (e.step1 (dts.getD (κ k) none) φ x tn d) (e.step1 (dts.getD (κ k) none) φ x' tn d) := by
  obtain ⟨h1, h2, h3⟩ := h
  have h4 := hg.push k hk φ x.b x'.b x.t d h3
  have h5 := hg.auto k hk
  unfold Elem.step1
  cases ho : dts.getD (κ k) none with
  | none =>
    dsimp only
    rw [h1, h5 ho _ _ h4]
    exact ⟨rfl, rfl, h4⟩
  | some a =>
    dsimp only
    rw [h1, h2]
    exact ⟨rfl, rfl, h4⟩

/-- The first tracking pushes a bunch. -/
theorem lags_bunch (hg : e.Regroups N N' dts dts' κ P Inv) {opmd : Bool} {dtF : List ℝ} {m : ℕ → ℕ} {s s' : St ℝ (World Φ)}
    (h : Lags e N N' dts κ P Inv m s s') {i : ℕ} (hi : i < N) (hE : Early e N s (s.t i + s.dt i)) :
    ∃ m', Lags e N N' dts κ P Inv m' (advance (e.cfg opmd N dts dtF) s i) s' := by
  have ha : advance (e.cfg opmd N dts dtF) s i = evolveBunch (e.cfg opmd N dts dtF) false s i (s.t i) (s.t i + s.dt i) (s.dt i) := by
    unfold advance
    exact if_pos hi
  rw [ha]
  set s1 := evolveBunch (e.cfg opmd N dts dtF) false s i (s.t i) (s.t i + s.dt i) (s.dt i) with hs1
  have hself := view_self e opmd N dts dtF false s i (s.t i + s.dt i) (s.dt i)
  have hother : ∀ j, j ≠ i → view s1 j = view s j := fun j hj => view_other e opmd N dts dtF false s hj _ _ _
  rw [← hs1] at hself
  have hrest : ∀ j, s1.t (N + j) = s.t (N + j) ∧ s1.dt (N + j) = s.dt (N + j) := by
    intro j
    have := hother (N + j) (by omega)
    exact ⟨congrArg Clocked.t this, congrArg Clocked.dt this⟩
  have hearly : Early e N s1 = Early e N s := by
    funext v
    unfold Early
    simp only [hrest]
  have hfl : s1.w.flds = s.w.flds := rfl
  refine ⟨fun k => if κ k = i then m k + 1 else m k, h.n, h.n', h.flds, fun j hj => ?_, fun j hj => ?_, h.snaps, fun k hk => ?_⟩
  · by_cases hji : j = i
    · subst hji
      have : s1.w.bunch j = e.push1 s.w.flds (s.w.bunch j) (s.t j) (s.dt j) := congrArg Clocked.b hself
      rw [this]
      exact hg.inv j hj _ _ _ _ (h.inv j hj)
    · have : s1.w.bunch j = s.w.bunch j := congrArg Clocked.b (hother j hji)
      rw [this]
      exact h.inv j hj
  · rw [(hrest j).1, (hrest j).2]
    exact h.rest j hj
  · obtain ⟨y, h1, h2⟩ := h.reach k hk
    rw [hearly, hfl]
    by_cases hki : κ k = i
    · rw [if_pos hki]
      have e1 : y.t = s.t i := h2.1.trans (by rw [hki]; rfl)
      have e2 : y.dt = s.dt i := h2.2.1.trans (by rw [hki]; rfl)
      refine ⟨_, h1.snoc (by rw [e1, e2]; exact hE), ?_⟩
      rw [hki, hself, e1, e2]
      have := step1_pair hg hk s.w.flds h2 (s.t i + s.dt i) (s.dt i)
      rw [hki] at this
      exact this
    · rw [if_neg hki, hother _ hki]
      exact ⟨y, h1, h2⟩

/-- The second tracking catches up. -/
theorem catch_up (hg : e.Regroups N N' dts dts' κ P Inv) (hn : 0 < e.nOut) {opmd : Bool} {dtF : List ℝ} {s : St ℝ (World Φ)}
    (hs : ∀ i < N, ¬ Early e N s (s.t i + s.dt i)) (M : ℕ) : ∀ (m : ℕ → ℕ) (s' : St ℝ (World Φ)),
    ∑ k ∈ Finset.range N', m k = M → Lags e N N' dts κ P Inv m s s' →
    ∃ n0 s'', (∀ n, run (e.cfg opmd N' dts' dtF) (n + n0) s' = run (e.cfg opmd N' dts' dtF) n s'') ∧
      Lags e N N' dts κ P Inv (fun _ => 0) s s'' := by
  induction M with
  | zero =>
    intro m s' hM h
    have h0 : ∀ k < N', m k = 0 := fun k hk => (Finset.sum_eq_zero_iff.mp hM) k (Finset.mem_range.mpr hk)
    refine ⟨0, s', fun n => rfl, h.n, h.n', h.flds, h.inv, h.rest, h.snaps, fun k hk => ?_⟩
    have := h.reach k hk
    rw [h0 k hk] at this
    exact this
  | succ M ih =>
    intro m s' hM h
    have hob : (e.cfg opmd N' dts' dtF).nObj - 1 = N' + e.numFields.length := by
      unfold Cfg.nObj
      rw [if_pos (show 0 < (e.cfg opmd N' dts' dtF).nDiag from hn)]
      rfl
    have hpos : ∃ k < N', m k ≠ 0 := by
      by_contra hc
      have : ∑ k ∈ Finset.range N', m k = 0 := Finset.sum_eq_zero fun k hk => by
        by_contra hk'
        exact hc ⟨k, Finset.mem_range.mp hk, hk'⟩
      omega
    have hel : ∀ k < N', m k ≠ 0 → Early e N s (s'.t k + s'.dt k) := by
      intro k hk hk'
      obtain ⟨y, h1, h2⟩ := h.reach k hk
      obtain ⟨m1, hm1⟩ := Nat.exists_eq_succ_of_ne_zero hk'
      rw [hm1] at h1
      cases h1 with
      | step h3 _ => exact h3
    obtain ⟨k0, hk0, hm0⟩ := hpos
    have hE0 := hel k0 hk0 hm0
    set g : ℕ → F := fun i => e.f32 (s'.t i + s'.dt i) with hgdef
    set i := argmin g (N' + e.numFields.length) with hi
    have hile : i ≤ N' + e.numFields.length := argmin_le _ _
    have hmin := argmin_min g (N' + e.numFields.length)
    have hik : g i ≤ g k0 := hmin k0 (by omega)
    have hiN : i < N' := by
      by_contra hc
      have h1 : g i < g k0 := argmin_first g (N' + e.numFields.length) k0 (by omega)
      obtain ⟨j, hj⟩ := Nat.exists_eq_add_of_le (not_lt.mp hc)
      have h2 := hE0.2 j (by omega)
      obtain ⟨r1, r2⟩ := h.rest j (by omega)
      rw [← r1, ← r2, ← hj] at h2
      exact absurd h1 (not_lt.mpr h2)
    have hEi : Early e N s (s'.t i + s'.dt i) := ⟨hik.trans hE0.1, fun j hj => hik.trans (hE0.2 j hj)⟩
    obtain ⟨y, h1, h2⟩ := h.reach i hiN
    have hmi : m i ≠ 0 := by
      intro h0
      rw [h0] at h1
      have hy := h1.zero
      subst hy
      have e1 : s'.t i = s.t (κ i) := h2.1
      have e2 : s'.dt i = s.dt (κ i) := h2.2.1
      rw [e1, e2] at hEi
      exact hs _ (hg.lt i hiN) hEi
    obtain ⟨m1, hm1⟩ := Nat.exists_eq_succ_of_ne_zero hmi
    have hstep : step (e.cfg opmd N' dts' dtF) s' = some (advance (e.cfg opmd N' dts' dtF) s' i) := by
      unfold step
      rw [hob]
      exact if_neg (not_lt.mpr hEi.1)
    have ha : advance (e.cfg opmd N' dts' dtF) s' i =
        evolveBunch (e.cfg opmd N' dts' dtF) false s' i (s'.t i) (s'.t i + s'.dt i) (s'.dt i) := by
      unfold advance
      exact if_pos hiN
    set s1 := evolveBunch (e.cfg opmd N' dts' dtF) false s' i (s'.t i) (s'.t i + s'.dt i) (s'.dt i) with hs1
    have hself := view_self e opmd N' dts' dtF false s' i (s'.t i + s'.dt i) (s'.dt i)
    have hother : ∀ j, j ≠ i → view s1 j = view s' j := fun j hj => view_other e opmd N' dts' dtF false s' hj _ _ _
    rw [← hs1] at hself
    have hL : Lags e N N' dts κ P Inv (Function.update m i m1) s s1 := by
      refine ⟨h.n, h.n', h.flds, h.inv, fun j hj => ?_, h.snaps, fun k hk => ?_⟩
      · have := hother (N' + j) (by omega)
        have r1 : s1.t (N' + j) = s'.t (N' + j) := congrArg Clocked.t this
        have r2 : s1.dt (N' + j) = s'.dt (N' + j) := congrArg Clocked.dt this
        rw [r1, r2]
        exact h.rest j hj
      · by_cases hki : k = i
        · subst hki
          rw [Function.update_self, hself]
          rw [hm1] at h1
          cases h1 with
          | step _ h3 =>
            refine ⟨y, ?_, h2⟩
            rw [hg.steps i hiN, h.flds]
            exact h3
        · rw [Function.update_of_ne hki, hother k hki]
          exact h.reach k hk
    have hsum : ∑ k ∈ Finset.range N', Function.update m i m1 k = M := by
      have hmem : i ∈ Finset.range N' := Finset.mem_range.mpr hiN
      rw [← Finset.add_sum_erase _ _ hmem] at hM ⊢
      rw [Function.update_self]
      have : ∑ k ∈ (Finset.range N').erase i, Function.update m i m1 k = ∑ k ∈ (Finset.range N').erase i, m k :=
        Finset.sum_congr rfl fun k hk => Function.update_of_ne (Finset.ne_of_mem_erase hk) _ _
      rw [this]
      omega
    obtain ⟨n0, s'', h3, h4⟩ := ih _ s1 hsum hL
    refine ⟨n0 + 1, s'', fun n => ?_, h4⟩
    rw [← h3, ← Nat.add_assoc, run, hstep, ha]

/-- The keys of the objects of both trackings. -/
theorem Lags.key {s s' : St ℝ (World Φ)} (h : Lags e N N' dts κ P Inv (fun _ => 0) s s') {k : ℕ} (hk : k < N') :
    s'.t k + s'.dt k = s.t (κ k) + s.dt (κ k) := by
  have := h.pair hk
  rw [show s'.t k = s.t (κ k) from this.1, show s'.dt k = s.dt (κ k) from this.2.1]

/-- The same field or the diagnostics come next in the second tracking. -/
theorem argmin_rest (hg : e.Regroups N N' dts dts' κ P Inv) {s s' : St ℝ (World Φ)}
    (h : Lags e N N' dts κ P Inv (fun _ => 0) s s') {j : ℕ}
    (hj : argmin (fun i => e.f32 (s.t i + s.dt i)) (N + e.numFields.length) = N + j) :
    argmin (fun i => e.f32 (s'.t i + s'.dt i)) (N' + e.numFields.length) = N' + j := by
  set g : ℕ → F := fun i => e.f32 (s.t i + s.dt i) with hgd
  have hle := argmin_le g (N + e.numFields.length)
  have hmin := argmin_min g (N + e.numFields.length)
  have hfst := argmin_first g (N + e.numFields.length)
  rw [hj] at hle hmin hfst
  have hr : ∀ l < e.numFields.length + 1, e.f32 (s'.t (N' + l) + s'.dt (N' + l)) = g (N + l) := by
    intro l hl
    rw [(h.rest l hl).1, (h.rest l hl).2]
  have hb : ∀ l < N', e.f32 (s'.t l + s'.dt l) = g (κ l) := by
    intro l hl
    rw [h.key hl]
  refine argmin_eq (by omega) (fun l hl => ?_) (fun l hl => ?_)
  · rw [hr j (by omega)]
    by_cases hlN : l < N'
    · rw [hb l hlN]
      exact hmin _ (by have := hg.lt l hlN; omega)
    · obtain ⟨l', rfl⟩ := Nat.exists_eq_add_of_le (not_lt.mp hlN)
      rw [hr l' (by omega)]
      exact hmin _ (by omega)
  · rw [hr j (by omega)]
    by_cases hlN : l < N'
    · rw [hb l hlN]
      exact hfst _ (by have := hg.lt l hlN; omega)
    · obtain ⟨l', rfl⟩ := Nat.exists_eq_add_of_le (not_lt.mp hlN)
      rw [hr l' (by omega)]
      exact hfst _ (by omega)

/-- Both trackings come to the same field. -/
theorem lags_field (hg : e.Regroups N N' dts dts' κ P Inv) {opmd opmd' : Bool} {dtF : List ℝ} {s s' : St ℝ (World Φ)}
    (h : Lags e N N' dts κ P Inv (fun _ => 0) s s') {j : ℕ} (hj : j < e.numFields.length) :
    Lags e N N' dts κ P Inv (fun _ => 0) (advance (e.cfg opmd N dts dtF) s (N + j)) (advance (e.cfg opmd' N' dts' dtF) s' (N' + j)) := by
  have ha : ∀ (o : Bool) (n : ℕ) (d : List (Option ℝ)) (s : St ℝ (World Φ)), advance (e.cfg o n d dtF) s (n + j) =
      { s with w := (e.cfg o n d dtF).updateF s.w j, log := s.log ++ [.update j (s.t (n + j) + s.dt (n + j))],
               t := Function.update s.t (n + j) (s.t (n + j) + s.dt (n + j)) } := by
    intro o n d s
    have h1 : ¬ n + j < (e.cfg o n d dtF).nBunch := by show ¬ n + j < n; omega
    have h2 : n + j < (e.cfg o n d dtF).nBunch + (e.cfg o n d dtF).nField := by show n + j < n + e.numFields.length; omega
    unfold advance
    dsimp only
    rw [if_neg h1, if_pos h2, show n + j - (e.cfg o n d dtF).nBunch = j by show n + j - n = j; omega]
  rw [ha, ha]
  have hfl : e.update s'.w.list s'.w.flds j = e.update s.w.list s.w.flds j := by
    rw [h.flds]
    unfold World.list
    rw [h.n, h.n']
    exact hg.update _ _ _ _ (fun k hk => (h.pair hk).2.2) h.inv
  obtain ⟨r1, r2⟩ := h.rest j (by omega)
  refine ⟨h.n, h.n', hfl, h.inv, fun l hl => ?_, h.snaps, fun k hk => ⟨_, .refl _, ?_⟩⟩
  · obtain ⟨q1, q2⟩ := h.rest l hl
    refine ⟨?_, q2⟩
    by_cases hlj : l = j
    · subst hlj
      show Function.update s'.t (N' + l) _ (N' + l) = Function.update s.t (N + l) _ (N + l)
      rw [Function.update_self, Function.update_self, r1, r2]
    · show Function.update s'.t (N' + j) _ (N' + l) = Function.update s.t (N + j) _ (N + l)
      rw [Function.update_of_ne (by omega), Function.update_of_ne (by omega), q1]
  · have hp := h.pair hk
    have := hg.lt k hk
    refine ⟨?_, hp.2.1, hp.2.2⟩
    show Function.update s'.t (N' + j) _ k = Function.update s.t (N + j) _ (κ k)
    rw [Function.update_of_ne (by omega), Function.update_of_ne (by omega)]
    exact hp.1

theorem lags_pushAll (hg : e.Regroups N N' dts dts' κ P Inv) {opmd opmd' : Bool} {dtF : List ℝ} {s s' : St ℝ (World Φ)}
    (h : Lags e N N' dts κ P Inv (fun _ => 0) s s') (tn : ℝ) :
    Lags e N N' dts κ P Inv (fun _ => 0) (pushAll (e.cfg opmd N dts dtF) tn N s) (pushAll (e.cfg opmd' N' dts' dtF) tn N' s') := by
  obtain ⟨h1, h2, h3, h4⟩ := pushAll_view e opmd N dts dtF tn s N
  obtain ⟨g1, g2, g3, g4⟩ := pushAll_view e opmd' N' dts' dtF tn s' N'
  refine ⟨h3.trans h.n, g3.trans h.n', by rw [g2, h2, h.flds], fun i hi => ?_, fun j hj => ?_, by rw [h4, g4]; exact h.snaps,
    fun k hk => ⟨_, .refl _, ?_⟩⟩
  · have := congrArg Clocked.b (h1 i)
    rw [if_pos hi] at this
    have this : (pushAll (e.cfg opmd N dts dtF) tn N s).w.bunch i = e.push1 s.w.flds (s.w.bunch i) (s.t i) (tn - s.t i) := this
    rw [this]
    exact hg.inv i hi _ _ _ _ (h.inv i hi)
  · have e1 := h1 (N + j)
    have e2 := g1 (N' + j)
    rw [if_neg (by omega)] at e1 e2
    obtain ⟨r1, r2⟩ := h.rest j hj
    exact ⟨((congrArg Clocked.t e2).trans r1).trans (congrArg Clocked.t e1).symm,
      ((congrArg Clocked.dt e2).trans r2).trans (congrArg Clocked.dt e1).symm⟩
  · have hp := h.pair hk
    rw [h1, g1, if_pos hk, if_pos (hg.lt k hk), hg.steps k hk, h.flds, show s'.t k = s.t (κ k) from hp.1]
    exact step1_pair hg hk _ hp _ _

/-- Both trackings come to the diagnostics. -/
theorem lags_diag (hg : e.Regroups N N' dts dts' κ P Inv) {opmd opmd' : Bool} {dtF : List ℝ} {s s' : St ℝ (World Φ)}
    (h : Lags e N N' dts κ P Inv (fun _ => 0) s s') :
    Lags e N N' dts κ P Inv (fun _ => 0) (advance (e.cfg opmd N dts dtF) s (N + e.numFields.length))
      (advance (e.cfg opmd' N' dts' dtF) s' (N' + e.numFields.length)) := by
  have ha : ∀ (o : Bool) (n : ℕ) (d : List (Option ℝ)) (s : St ℝ (World Φ)),
      advance (e.cfg o n d dtF) s (n + e.numFields.length) =
      let i := n + e.numFields.length
      let s1 := if e.pushBefore then pushAll (e.cfg o n d dtF) (s.t i + s.dt i) n s else s
      { generateDiagnostics s1 (s.t i + s.dt i) with t := Function.update s1.t i (s1.t i + s.dt i) } := by
    intro o n d s
    have h1 : ¬ n + e.numFields.length < (e.cfg o n d dtF).nBunch := by show ¬ n + e.numFields.length < n; omega
    have h2 : ¬ n + e.numFields.length < (e.cfg o n d dtF).nBunch + (e.cfg o n d dtF).nField := by
      show ¬ n + e.numFields.length < n + e.numFields.length
      omega
    unfold advance
    dsimp only
    rw [if_neg h1, if_neg h2]
    rfl
  rw [ha, ha]
  dsimp only
  obtain ⟨r1, r2⟩ := h.rest e.numFields.length (by omega)
  rw [r1, r2]
  generalize s.t (N + e.numFields.length) + s.dt (N + e.numFields.length) = tn
  have fin : ∀ s1 s1' : St ℝ (World Φ), Lags e N N' dts κ P Inv (fun _ => 0) s1 s1' → ∀ d,
      Lags e N N' dts κ P Inv (fun _ => 0)
        { generateDiagnostics s1 tn with t := Function.update s1.t (N + e.numFields.length) (s1.t (N + e.numFields.length) + d) }
        { generateDiagnostics s1' tn with
          t := Function.update s1'.t (N' + e.numFields.length) (s1'.t (N' + e.numFields.length) + d) } := by
    intro s1 s1' h d
    refine ⟨h.n, h.n', h.flds, h.inv, fun l hl => ?_, List.rel_append h.snaps (.cons h.alike .nil), fun k hk => ⟨_, .refl _, ?_⟩⟩
    · obtain ⟨q1, q2⟩ := h.rest l hl
      refine ⟨?_, q2⟩
      by_cases hlj : l = e.numFields.length
      · subst hlj
        show Function.update s1'.t (N' + e.numFields.length) _ (N' + e.numFields.length) =
          Function.update s1.t (N + e.numFields.length) _ (N + e.numFields.length)
        rw [Function.update_self, Function.update_self, q1]
      · show Function.update s1'.t (N' + e.numFields.length) _ (N' + l) = Function.update s1.t (N + e.numFields.length) _ (N + l)
        rw [Function.update_of_ne (by omega), Function.update_of_ne (by omega), q1]
    · have hp := h.pair hk
      have := hg.lt k hk
      refine ⟨?_, hp.2.1, hp.2.2⟩
      show Function.update s1'.t (N' + e.numFields.length) _ k = Function.update s1.t (N + e.numFields.length) _ (κ k)
      rw [Function.update_of_ne (by omega), Function.update_of_ne (by omega)]
      exact hp.1
  cases e.pushBefore with
  | false => exact fin _ _ h _
  | true => exact fin _ _ (lags_pushAll hg h tn) _

/-- The second tracking follows the first one to the end. -/
theorem lags_run (hg : e.Regroups N N' dts dts' κ P Inv) (hn : 0 < e.nOut) {opmd opmd' : Bool} {dtF : List ℝ} (fuel : ℕ) :
    ∀ {m : ℕ → ℕ} {s s' r : St ℝ (World Φ)}, Lags e N N' dts κ P Inv m s s' → run (e.cfg opmd N dts dtF) fuel s = some r →
    ∃ fuel' r', run (e.cfg opmd' N' dts' dtF) fuel' s' = some r' ∧ Lags e N N' dts κ P Inv (fun _ => 0) r r' := by
  have hob : ∀ (o : Bool) (n : ℕ) (d : List (Option ℝ)), (e.cfg o n d dtF).nObj - 1 = n + e.numFields.length := by
    intro o n d
    unfold Cfg.nObj
    rw [if_pos (show 0 < (e.cfg o n d dtF).nDiag from hn)]
    rfl
  induction fuel with
  | zero => intro m s s' r _ h; cases h
  | succ fuel ih =>
    intro m s s' r h hr
    set g : ℕ → F := fun i => e.f32 (s.t i + s.dt i) with hgd
    have hstep : step (e.cfg opmd N dts dtF) s = if g (argmin g (N + e.numFields.length)) > e.f32 (e.length / e.c) then none
        else some (advance (e.cfg opmd N dts dtF) s (argmin g (N + e.numFields.length))) := by
      unfold step
      rw [hob]
      rfl
    have hmin := argmin_min g (N + e.numFields.length)
    have hfst := argmin_first g (N + e.numFields.length)
    have hle := argmin_le g (N + e.numFields.length)
    rw [run, hstep] at hr
    generalize hi : argmin g (N + e.numFields.length) = i at hr hmin hfst hle
    by_cases hend : g i > e.f32 (e.length / e.c)
    · rw [if_pos hend] at hr
      have hr : some s = some r := hr
      cases hr
      have hs : ∀ i < N, ¬ Early e N s (s.t i + s.dt i) := by
        intro l hl hE
        exact absurd (hmin l (by omega)) (not_le.mpr (lt_of_le_of_lt hE.1 hend))
      obtain ⟨n0, s'', h1, h2⟩ := catch_up hg hn (opmd := opmd') (dtF := dtF) hs _ m s' rfl h
      refine ⟨1 + n0, s'', ?_, h2⟩
      rw [h1, run]
      have hstep' : step (e.cfg opmd' N' dts' dtF) s'' = none := by
        unfold step
        rw [hob]
        dsimp only
        refine if_pos ?_
        have hle' := argmin_le (fun i => e.f32 (s''.t i + s''.dt i)) (N' + e.numFields.length)
        show e.f32 (e.length / e.c) < (fun i => e.f32 (s''.t i + s''.dt i)) (argmin (fun i => e.f32 (s''.t i + s''.dt i)) (N' + e.numFields.length))
        generalize argmin (fun i => e.f32 (s''.t i + s''.dt i)) (N' + e.numFields.length) = l at hle'
        dsimp only
        by_cases hlN : l < N'
        · rw [h2.key hlN]
          exact lt_of_lt_of_le hend (hmin _ (by have := hg.lt l hlN; omega))
        · obtain ⟨l', rfl⟩ := Nat.exists_eq_add_of_le (not_lt.mp hlN)
          rw [(h2.rest l' (by omega)).1, (h2.rest l' (by omega)).2]
          exact lt_of_lt_of_le hend (hmin _ (by omega))
      rw [hstep']
    · rw [if_neg hend] at hr
      have hr : run (e.cfg opmd N dts dtF) fuel (advance (e.cfg opmd N dts dtF) s i) = some r := hr
      by_cases hiN : i < N
      · obtain ⟨m', hm'⟩ := lags_bunch hg (opmd := opmd) (dtF := dtF) h hiN
          ⟨not_lt.mp hend, fun j hj => hmin (N + j) (by omega)⟩
        exact ih hm' hr
      · obtain ⟨j, rfl⟩ := Nat.exists_eq_add_of_le (not_lt.mp hiN)
        have hs : ∀ i < N, ¬ Early e N s (s.t i + s.dt i) := by
          intro l hl hE
          exact absurd (hE.2 j (by omega)) (not_le.mpr (hfst l (by omega)))
        obtain ⟨n0, s'', h1, h2⟩ := catch_up hg hn (opmd := opmd') (dtF := dtF) hs _ m s' rfl h
        have hi' := argmin_rest hg h2 hi
        have hnext : Lags e N N' dts κ P Inv (fun _ => 0) (advance (e.cfg opmd N dts dtF) s (N + j))
            (advance (e.cfg opmd' N' dts' dtF) s'' (N' + j)) := by
          by_cases hjf : j < e.numFields.length
          · exact lags_field hg h2 hjf
          · obtain rfl : j = e.numFields.length := by omega
            exact lags_diag hg h2
        obtain ⟨fuel', r', h3, h4⟩ := ih hnext hr
        refine ⟨fuel' + 1 + n0, r', ?_, h4⟩
        rw [h1, run]
        have hstep' : step (e.cfg opmd' N' dts' dtF) s'' = some (advance (e.cfg opmd' N' dts' dtF) s'' (N' + j)) := by
          unfold step
          rw [hob]
          show (if e.f32 (s''.t (argmin (fun i => e.f32 (s''.t i + s''.dt i)) (N' + e.numFields.length)) +
            s''.dt (argmin (fun i => e.f32 (s''.t i + s''.dt i)) (N' + e.numFields.length))) > e.f32 (e.length / e.c) then none else
              some (advance (e.cfg opmd' N' dts' dtF) s'' (argmin (fun i => e.f32 (s''.t i + s''.dt i)) (N' + e.numFields.length)))) = _
          rw [hi', if_neg]
          rw [(h2.rest j (by omega)).1, (h2.rest j (by omega)).2]
          exact hend
        rw [hstep']
        exact h3

/-- Both trackings start in the same way. -/
theorem lags_start (hg : e.Regroups N N' dts dts' κ P Inv) {opmd opmd' : Bool} {dtF : List ℝ} {w w' : World Φ}
    (h : Alike N N' κ P Inv w w') :
    Lags e N N' dts κ P Inv (fun _ => 0) (start (e.cfg opmd N dts dtF) w) (start (e.cfg opmd' N' dts' dtF) w') := by
  have hinit : ∀ n, Alike N N' κ P Inv (initFields (e.cfg opmd N dts dtF) n (blank w)).w
      (initFields (e.cfg opmd' N' dts' dtF) n (blank w')).w := by
    intro n
    induction n with
    | zero => exact h
    | succ n ih =>
      refine ⟨ih.n, ih.n', ?_, ih.rel, ih.inv⟩
      show e.update (initFields (e.cfg opmd' N' dts' dtF) n (blank w')).w.list _ n =
        e.update (initFields (e.cfg opmd N dts dtF) n (blank w)).w.list _ n
      rw [ih.flds]
      unfold World.list
      rw [ih.n, ih.n']
      exact hg.update _ _ _ _ ih.rel ih.inv
  have hclock : ∀ (c : Cfg ℝ F (World Φ)) n (w : World Φ), (initFields c n (blank w)).t = (fun _ => 0) ∧
      (initFields c n (blank w)).snaps = [] := by
    intro c n w
    induction n with
    | zero => exact ⟨rfl, rfl⟩
    | succ n ih => exact ih
  set s0 := initFields (e.cfg opmd N dts dtF) e.numFields.length (blank w) with hs0
  set s0' := initFields (e.cfg opmd' N' dts' dtF) e.numFields.length (blank w') with hs0'
  have h0 : Alike N N' κ P Inv s0.w s0'.w := hinit _
  obtain ⟨c1, c2⟩ := hclock (e.cfg opmd N dts dtF) e.numFields.length w
  obtain ⟨c1', c2'⟩ := hclock (e.cfg opmd' N' dts' dtF) e.numFields.length w'
  rw [← hs0] at c1 c2
  rw [← hs0'] at c1' c2'
  have e1 : start (e.cfg opmd N dts dtF) w = { generateDiagnostics s0 0 with dt := (e.cfg opmd N dts dtF).dt0 s0.w } := rfl
  have e1' : start (e.cfg opmd' N' dts' dtF) w' = { generateDiagnostics s0' 0 with dt := (e.cfg opmd' N' dts' dtF).dt0 s0'.w } := rfl
  rw [e1, e1']
  refine ⟨h0.n, h0.n', h0.flds, h0.inv, fun j hj => ⟨?_, ?_⟩, ?_, fun k hk => ⟨_, .refl _, ?_, ?_, h0.rel k hk⟩⟩
  · show s0'.t _ = s0.t _
    rw [c1, c1']
  · show (e.cfg opmd' N' dts' dtF).dt0 s0'.w (N' + j) = (e.cfg opmd N dts dtF).dt0 s0.w (N + j)
    unfold Cfg.dt0
    have n1 : ¬ N' + j < (e.cfg opmd' N' dts' dtF).nBunch := by show ¬ N' + j < N'; omega
    have n2 : ¬ N + j < (e.cfg opmd N dts dtF).nBunch := by show ¬ N + j < N; omega
    rw [if_neg n1, if_neg n2]
    show (if N' + j < N' + e.numFields.length then dtF.getD (N' + j - N') 0 else e.length / e.c / e.nOut) =
      (if N + j < N + e.numFields.length then dtF.getD (N + j - N) 0 else e.length / e.c / e.nOut)
    rw [Nat.add_sub_cancel_left, Nat.add_sub_cancel_left]
    by_cases hjf : j < e.numFields.length
    · rw [if_pos (by omega), if_pos (by omega)]
    · rw [if_neg (by omega), if_neg (by omega)]
  · show List.Forall₂ _ (s0.snaps ++ [s0.w]) (s0'.snaps ++ [s0'.w])
    rw [c2, c2']
    exact .cons h0 .nil
  · show s0'.t _ = s0.t _
    rw [c1, c1']
  · show (e.cfg opmd' N' dts' dtF).dt0 s0'.w k = (e.cfg opmd N dts dtF).dt0 s0.w (κ k)
    unfold Cfg.dt0
    have n1 : k < (e.cfg opmd' N' dts' dtF).nBunch := hk
    have n2 : κ k < (e.cfg opmd N dts dtF).nBunch := hg.lt k hk
    rw [if_pos n1, if_pos n2]
    have e2 : (e.cfg opmd' N' dts' dtF).dtBunch k = (e.cfg opmd N dts dtF).dtBunch (κ k) := hg.steps k hk
    have e3 := hg.auto k hk
    cases ho : (e.cfg opmd N dts dtF).dtBunch (κ k) with
    | none =>
      rw [ho] at e2
      simp only [e2]
      exact e3 ho _ _ (h0.rel k hk)
    | some d =>
      rw [ho] at e2
      simp only [e2]

/-- If the bunches of one tracking are related to those of another one, so are the outputs. -/
theorem track_related (d' : OneOrMany (Option ℝ)) (hn : 0 < e.nOut) {bs bs' : OneOrMany Bunch} (hd : e.dtList bs.toList.length = some dts)
    (hd' : ({ e with dtBunch := d' } : Elem F Φ).dtList bs'.toList.length = some dts')
    (hg : e.Regroups bs.toList.length bs'.toList.length dts dts' κ P Inv) {b0 b0' : Bunch} {φ : Φ}
    (h0 : Alike bs.toList.length bs'.toList.length κ P Inv (world bs.toList b0 φ) (world bs'.toList b0' φ))
    {opmd opmd' : Bool} {fuel : ℕ} {r : OneOrMany (List Bunch)} {w : World Φ} (hr : e.track opmd fuel bs b0 φ = .returned (r, w)) :
    ∃ fuel' ls ls' w', r = pack ls ∧ ({ e with dtBunch := d' } : Elem F Φ).track opmd' fuel' bs' b0' φ = .returned (pack ls', w') ∧
      ls.length = bs.toList.length ∧ ls'.length = bs'.toList.length ∧ w'.flds = w.flds ∧
      ∀ k < bs'.toList.length, List.Forall₂ (P k) (ls.getD (κ k) []) (ls'.getD k []) := by
  unfold Elem.track at hr
  dsimp only at hr
  rw [hd] at hr
  dsimp only at hr
  cases hf : e.dtFields with
  | none => rw [hf] at hr; cases hr
  | some dtF =>
  rw [hf] at hr
  dsimp only at hr
  unfold doTracking at hr
  rw [if_neg (fun h => absurd h.1 (Nat.pos_iff_ne_zero.mp hn))] at hr
  have hobj : ∀ (o : Bool) (n : ℕ) (d : List (Option ℝ)), (e.cfg o n d dtF).nObj ≠ 0 := by
    intro o n d
    unfold Cfg.nObj
    rw [if_pos (show 0 < (e.cfg o n d dtF).nDiag from hn)]
    omega
  rw [if_neg (hobj _ _ _)] at hr
  cases hs : run (e.cfg opmd bs.toList.length dts dtF) fuel (start (e.cfg opmd bs.toList.length dts dtF) (world bs.toList b0 φ)) with
  | none => rw [hs] at hr; cases hr
  | some st =>
  rw [hs] at hr
  dsimp only at hr
  rw [if_neg (show ¬ (e.cfg opmd bs.toList.length dts dtF).nDiag = 0 from Nat.pos_iff_ne_zero.mp hn)] at hr
  dsimp only at hr
  injection hr with hr
  injection hr with hr1 hr2
  obtain ⟨fuel', st', h1, h2⟩ := lags_run hg hn (opmd' := opmd') fuel (lags_start hg h0) hs
  refine ⟨fuel', _, bunchLists bs'.toList.length st'.snaps, st'.w, hr1.symm, ?_, by simp [bunchLists], by simp [bunchLists],
    by rw [h2.flds, ← hr2], fun k hk => ?_⟩
  · unfold Elem.track
    dsimp only
    rw [hd']
    dsimp only
    rw [show ({ e with dtBunch := d' } : Elem F Φ).dtFields = some dtF from hf]
    dsimp only
    rw [show ({ e with dtBunch := d' } : Elem F Φ).cfg opmd' bs'.toList.length dts' dtF = e.cfg opmd' bs'.toList.length dts' dtF from rfl]
    unfold doTracking
    rw [if_neg (fun h => absurd h.1 (Nat.pos_iff_ne_zero.mp hn)), if_neg (hobj _ _ _), h1]
    dsimp only
    rw [if_neg (show ¬ (e.cfg opmd' bs'.toList.length dts' dtF).nDiag = 0 from Nat.pos_iff_ne_zero.mp hn)]
  · have hget : ∀ (n : ℕ) (l : List (World Φ)) (i : ℕ), i < n → (bunchLists n l).getD i [] = l.map fun w => w.bunch i := by
      intro n l i hi
      simp [bunchLists, List.getD_eq_getElem?_getD, List.getElem?_map, List.getElem?_range, hi]
    rw [hget _ _ _ (hg.lt k hk), hget _ _ _ hk, List.forall₂_map_left_iff, List.forall₂_map_right_iff]
    exact h2.snaps.imp fun _ _ h => h.rel k hk

end

/-! ### The order of the bunches -/

/-- Specification: the element does not depend on the order of the bunches. -/
def Elem.Unordered (e : Elem F Φ) : Prop := ∀ l l' : List Bunch, l.Perm l' → ∀ φ j, e.update l' φ j = e.update l φ j

/-- Specification: `l'` is `l` in the order given by `σ`. -/
structure Reordered {α : Type} (σ : ℕ → ℕ) (l l' : List α) : Prop where
  length : l'.length = l.length
  get : ∀ k < l.length, l'[k]? = l[σ k]?

/-- `σ` is a permutation of the first `n` numbers. -/
structure Shuffle (σ : ℕ → ℕ) (n : ℕ) : Prop where
  lt : ∀ k < n, σ k < n
  inj : ∀ k < n, ∀ k' < n, σ k = σ k' → k = k'

theorem Shuffle.perm {σ : ℕ → ℕ} {n : ℕ} (h : Shuffle σ n) : ((List.range n).map σ).Perm (List.range n) := by
  have h1 : ((List.range n).map σ).Nodup := by
    refine List.Nodup.map_on (fun k hk k' hk' => h.inj k (List.mem_range.mp hk) k' (List.mem_range.mp hk')) List.nodup_range
  refine (List.subperm_of_subset h1 ?_).perm_of_length_le (by simp)
  intro i hi
  obtain ⟨k, hk, rfl⟩ := List.mem_map.mp hi
  exact List.mem_range.mpr (h.lt k (List.mem_range.mp hk))

/-- **C156.** Changing the order of the bunches, together with that of their time steps, changes
only the order of the results. -/
theorem track_reordered {e : Elem F Φ} (he : e.Unordered) (hn : 0 < e.nOut) {σ : ℕ → ℕ} {bs bs' : OneOrMany Bunch}
    (hσ : Shuffle σ bs.toList.length) (hb : Reordered σ bs.toList bs'.toList) {d' : OneOrMany (Option ℝ)} {dts dts' : List (Option ℝ)}
    (hd : e.dtList bs.toList.length = some dts) (hd' : ({ e with dtBunch := d' } : Elem F Φ).dtList bs'.toList.length = some dts')
    (hdd : Reordered σ dts dts') {opmd : Bool} {fuel : ℕ} {b0 : Bunch} {φ : Φ} {r : OneOrMany (List Bunch)} {w : World Φ}
    (hr : e.track opmd fuel bs b0 φ = .returned (r, w)) :
    ∃ fuel' ls ls' w', r = pack ls ∧ ({ e with dtBunch := d' } : Elem F Φ).track opmd fuel' bs' b0 φ = .returned (pack ls', w') ∧
      ls.length = bs.toList.length ∧ Reordered σ ls ls' ∧ w'.flds = w.flds := by
  have hlen : dts.length = bs.toList.length := by
    unfold Elem.dtList at hd
    split at hd
    · cases hd; simp
    · split at hd
      · cases hd
      · next h => cases hd; exact not_not.mp h
  have hreg : e.Regroups bs.toList.length bs'.toList.length dts dts' σ (fun _ b b' => b' = b) (fun _ _ => True) := by
    rw [hb.length]
    refine ⟨hσ.lt, fun k hk => ?_, fun _ _ _ _ _ h => by rw [h], fun _ _ _ _ _ _ _ h => by rw [h], fun _ _ _ _ _ _ _ => trivial, ?_⟩
    · rw [List.getD_eq_getElem?_getD, List.getD_eq_getElem?_getD, hdd.get k (hlen.symm ▸ hk)]
    · intro f f' φ j hff _
      apply he
      have : (List.range bs.toList.length).map f' = ((List.range bs.toList.length).map σ).map f := by
        rw [List.map_map]
        exact List.map_congr_left fun k hk => hff k (List.mem_range.mp hk)
      rw [this]
      exact (hσ.perm.map f).symm
  have h0 : Alike bs.toList.length bs'.toList.length σ (fun _ b b' => b' = b) (fun _ _ => True) (world bs.toList b0 φ)
      (world bs'.toList b0 φ) := by
    refine ⟨rfl, rfl, rfl, fun k hk => ?_, fun _ _ => trivial⟩
    show bs'.toList.getD k b0 = bs.toList.getD (σ k) b0
    rw [List.getD_eq_getElem?_getD, List.getD_eq_getElem?_getD, hb.get k (hb.length ▸ hk)]
  obtain ⟨fuel', ls, ls', w', h1, h2, h3, h4, h5, h6⟩ := track_related d' hn hd hd' hreg h0 (opmd' := opmd) hr
  refine ⟨fuel', ls, ls', w', h1, h2, h3, ⟨by rw [h3, h4, hb.length], fun k hk => ?_⟩, h5⟩
  rw [h3] at hk
  have := h6 k (hb.length.symm ▸ hk)
  have h7 : ls.getD (σ k) [] = ls'.getD k [] := by
    generalize ls.getD (σ k) [] = a at this
    generalize ls'.getD k [] = b at this
    induction this with
    | nil => rfl
    | cons h _ ih => rw [ih, h]
  have h8 : σ k < ls.length := h3.symm ▸ hσ.lt k hk
  have h9 : k < ls'.length := by rw [h4, hb.length]; exact hk
  rw [List.getD_eq_getElem?_getD, List.getD_eq_getElem?_getD, List.getElem?_eq_getElem h8, List.getElem?_eq_getElem h9] at h7
  rw [List.getElem?_eq_getElem h8, List.getElem?_eq_getElem h9]
  exact congrArg some h7.symm

/-! ### The same particles in other bunches -/

open Classical in
/-- Specification: the charged particles of the bunches. -/
noncomputable def charged (l : List Bunch) : List (Ph × ℝ) :=
  l.flatMap fun b => ((List.range b.n).map fun i => (b.ph i, b.q i)).filter fun x => x.2 ≠ 0

/-- Specification: the element depends on the bunches only through their charged particles. -/
def Elem.Collective (e : Elem F Φ) : Prop := ∀ l l' : List Bunch, (charged l).Perm (charged l') → ∀ φ j, e.update l' φ j = e.update l φ j

theorem Elem.Collective.unordered {e : Elem F Φ} (h : e.Collective) : e.Unordered := fun l l' hl => h l l' (hl.flatMap_right _)

/-- Specification: particle `p` of the bunch `b'` is the particle `g p` of the bunch `b`. -/
structure PartOf (g : ℕ → ℕ) (b b' : Bunch) : Prop where
  lt : ∀ p < b'.n, g p < b.n
  ph : ∀ p < b'.n, b'.ph p = b.ph (g p)
  w : ∀ p < b'.n, b'.w p = b.w (g p)
  q : b'.qSpecies = b.qSpecies
  m : b'.mSpecies = b.mSpecies
  dist : b'.propDistance = b.propDistance

/-- Specification: the bunches `bs'` contain the same charged particles as the bunches `bs`:
particle `p` of bunch `k` is particle `ι k p` of bunch `κ k`.  (Particles without charge may be missing.) -/
structure SameParticles (κ : ℕ → ℕ) (ι : ℕ → ℕ → ℕ) (bs bs' : List Bunch) : Prop where
  part : ∀ k b', bs'[k]? = some b' → ∃ b, bs[κ k]? = some b ∧ PartOf (ι k) b b'
  once : ∀ k k' b b', bs'[k]? = some b → bs'[k']? = some b' → ∀ p < b.n, ∀ p' < b'.n, κ k = κ k' → ι k p = ι k' p' → k = k' ∧ p = p'
  all : ∀ i b, bs[i]? = some b → ∀ p < b.n, b.q p ≠ 0 → ∃ k b' p', bs'[k]? = some b' ∧ p' < b'.n ∧ κ k = i ∧ ι k p' = p

/-- What a push does not change. -/
structure Kept (b0 b : Bunch) : Prop where
  n : b.n = b0.n
  w : b.w = b0.w
  q : b.qSpecies = b0.qSpecies
  m : b.mSpecies = b0.mSpecies
  z : b.zInjection = none
  fits : b.Fits

theorem push1_kept (e : Elem F Φ) (hsch : ∀ n, (e.sch n).Valid n) (φ : Φ) (t dt : ℝ) :
    ∃ (G : Push.Const → Ph → Ph) (δ : ℝ), ∀ b0 b, Kept b0 b → Kept b0 (e.push1 φ b t dt) ∧
      (∀ i < b.n, (e.push1 φ b t dt).ph i = G (b.const e.c) (b.ph i)) ∧ (e.push1 φ b t dt).propDistance = b.propDistance + δ := by
  have hact : ∀ b : Bunch, b.zInjection = none → b.activeFields (e.felt φ) = .ok (e.felt φ) := by
    intro b hz
    unfold Bunch.activeFields
    rw [hz]
  by_cases hp : e.pusher = "rk4" ∨ e.pusher = "boris"
  · refine ⟨fun k x => stepOf e.pusher k (e.felt φ) t dt x, dt * e.c, fun b0 b h => ?_⟩
    obtain ⟨b', h1, h2, h3, h4, h5, h6, h7, h8, h9, h10, h11, h12, h13, h14⟩ :=
      evolve_spec e.c b (e.felt φ) (e.felt φ) (hsch b.n) t dt hp h.fits (hact b h.z)
    have e1 : e.push1 φ b t dt = b' := by unfold Elem.push1; rw [h1]
    rw [e1]
    exact ⟨⟨h2.trans h.n, h3.trans h.w, h9.trans h.q, h10.trans h.m, h13.trans h.z, h14⟩, fun i hi => by rw [h4, if_pos hi], h5⟩
  · refine ⟨fun _ x => x, 0, fun b0 b h => ?_⟩
    have e1 : e.push1 φ b t dt = b := by unfold Elem.push1; rw [evolve_unknown e.c b _ _ _ t dt hp (hact b h.z)]
    rw [e1]
    exact ⟨h, fun _ _ => rfl, (add_zero _).symm⟩

/-- The charged particles of the bunches `f i`, by their indices. -/
theorem charged_range (f : ℕ → Bunch) (N : ℕ) : charged ((List.range N).map f) =
    (((List.range N).flatMap fun i => (List.range (f i).n).map fun p => (i, p)).filter fun x : ℕ × ℕ => (f x.1).q x.2 ≠ 0).map
      fun x => ((f x.1).ph x.2, (f x.1).q x.2) := by
  classical
  unfold charged
  rw [List.flatMap_map, List.filter_flatMap, List.map_flatMap]
  congr 1
  funext i
  rw [List.filter_map, List.filter_map, List.map_map]
  rfl

theorem charged_perm {κ : ℕ → ℕ} {ι : ℕ → ℕ → ℕ} {N N' : ℕ} {f f' : ℕ → Bunch} (lt : ∀ k < N', κ k < N)
    (part : ∀ k < N', PartOf (ι k) (f (κ k)) (f' k))
    (once : ∀ k < N', ∀ k' < N', ∀ p < (f' k).n, ∀ p' < (f' k').n, κ k = κ k' → ι k p = ι k' p' → k = k' ∧ p = p')
    (all : ∀ i < N, ∀ p < (f i).n, (f i).q p ≠ 0 → ∃ k < N', ∃ p' < (f' k).n, κ k = i ∧ ι k p' = p) :
    (charged ((List.range N).map f)).Perm (charged ((List.range N').map f')) := by
  classical
  rw [charged_range, charged_range]
  have hmem : ∀ (g : ℕ → Bunch) M (x : ℕ × ℕ),
      x ∈ (((List.range M).flatMap fun i => (List.range (g i).n).map fun p => (i, p)).filter fun x : ℕ × ℕ => (g x.1).q x.2 ≠ 0) ↔
        x.1 < M ∧ x.2 < (g x.1).n ∧ (g x.1).q x.2 ≠ 0 := by
    intro g M x
    rw [List.mem_filter, List.mem_flatMap]
    constructor
    · rintro ⟨⟨i, hi, hx⟩, hq⟩
      obtain ⟨p, hp, rfl⟩ := List.mem_map.mp hx
      exact ⟨List.mem_range.mp hi, List.mem_range.mp hp, by simpa using hq⟩
    · rintro ⟨h1, h2, h3⟩
      exact ⟨⟨x.1, List.mem_range.mpr h1, List.mem_map.mpr ⟨x.2, List.mem_range.mpr h2, rfl⟩⟩, by simpa using h3⟩
  have hnd : ∀ (g : ℕ → Bunch) M, (((List.range M).flatMap fun i => (List.range (g i).n).map fun p => (i, p)).filter
      fun x : ℕ × ℕ => (g x.1).q x.2 ≠ 0).Nodup := by
    intro g M
    refine List.Nodup.filter _ (List.nodup_flatMap.mpr ⟨fun i _ => ?_, ?_⟩)
    · exact List.nodup_range.map fun p p' h => (Prod.mk.inj h).2
    · refine List.nodup_range.imp fun {i i'} h => ?_
      intro x hx hx'
      obtain ⟨p, -, rfl⟩ := List.mem_map.mp hx
      obtain ⟨p', -, h'⟩ := List.mem_map.mp hx'
      exact h (Prod.mk.inj h').1.symm
  have hq : ∀ k < N', ∀ p < (f' k).n, (f' k).q p = (f (κ k)).q (ι k p) := by
    intro k hk p hp
    unfold Bunch.q
    rw [(part k hk).w p hp, (part k hk).q]
  have key : ((((List.range N').flatMap fun i => (List.range (f' i).n).map fun p => (i, p)).filter
      fun x : ℕ × ℕ => (f' x.1).q x.2 ≠ 0).map fun x => (κ x.1, ι x.1 x.2)).Perm
      (((List.range N).flatMap fun i => (List.range (f i).n).map fun p => (i, p)).filter fun x : ℕ × ℕ => (f x.1).q x.2 ≠ 0) := by
    refine (List.perm_ext_iff_of_nodup (List.Nodup.map_on ?_ (hnd f' N')) (hnd f N)).mpr fun x => ?_
    · intro x hx y hy hxy
      obtain ⟨x1, x2, -⟩ := (hmem f' N' x).mp hx
      obtain ⟨y1, y2, -⟩ := (hmem f' N' y).mp hy
      obtain ⟨e1, e2⟩ := Prod.mk.inj hxy
      obtain ⟨h1, h2⟩ := once _ x1 _ y1 _ x2 _ y2 e1 e2
      exact Prod.ext h1 h2
    · rw [List.mem_map, hmem]
      constructor
      · rintro ⟨y, hy, rfl⟩
        obtain ⟨y1, y2, y3⟩ := (hmem f' N' y).mp hy
        exact ⟨lt _ y1, (part _ y1).lt _ y2, hq _ y1 _ y2 ▸ y3⟩
      · rintro ⟨h1, h2, h3⟩
        obtain ⟨k, hk, p, hp, hk1, hp1⟩ := all _ h1 _ h2 h3
        refine ⟨(k, p), (hmem f' N' _).mpr ⟨hk, hp, ?_⟩, Prod.ext hk1 hp1⟩
        show (f' k).q p ≠ 0
        rw [hq k hk p hp, hk1, hp1]
        exact h3
  refine (key.symm.map _).trans ?_
  rw [List.map_map]
  refine List.Perm.of_eq (List.map_congr_left fun x hx => ?_)
  obtain ⟨x1, x2, -⟩ := (hmem f' N' x).mp hx
  show ((f (κ x.1)).ph (ι x.1 x.2), (f (κ x.1)).q (ι x.1 x.2)) = _
  rw [← hq _ x1 _ x2, ← (part _ x1).ph _ x2]

/-- **C156.** Distributing the charged particles among bunches in another way, without changing the
(fixed) time step of any of them, does not change their motion, nor the fields; particles
without charge may be left out. -/
theorem track_regrouped {e : Elem F Φ} (he : e.Collective) (hsch : ∀ n, (e.sch n).Valid n) (hn : 0 < e.nOut) {κ : ℕ → ℕ} {ι : ℕ → ℕ → ℕ}
    {bs bs' : OneOrMany Bunch} (hb : SameParticles κ ι bs.toList bs'.toList)
    (hz : ∀ b ∈ bs.toList, b.zInjection = none ∧ b.Fits) (hz' : ∀ b ∈ bs'.toList, b.zInjection = none ∧ b.Fits)
    {d' : OneOrMany (Option ℝ)} {dts dts' : List (Option ℝ)}
    (hd : e.dtList bs.toList.length = some dts) (hd' : ({ e with dtBunch := d' } : Elem F Φ).dtList bs'.toList.length = some dts')
    (hdd : ∀ k < bs'.toList.length, ∃ d, dts[κ k]? = some (some d) ∧ dts'[k]? = some (some d))
    {opmd : Bool} {fuel : ℕ} {b0 : Bunch} {φ : Φ} {r : OneOrMany (List Bunch)} {w : World Φ}
    (hr : e.track opmd fuel bs b0 φ = .returned (r, w)) :
    ∃ fuel' ls ls' w', r = pack ls ∧ ({ e with dtBunch := d' } : Elem F Φ).track opmd fuel' bs' b0 φ = .returned (pack ls', w') ∧
      ls.length = bs.toList.length ∧ ls'.length = bs'.toList.length ∧ w'.flds = w.flds ∧
      ∀ k < bs'.toList.length, List.Forall₂ (PartOf (ι k)) (ls.getD (κ k) []) (ls'.getD k []) := by
  set l := bs.toList with hl
  set l' := bs'.toList with hl'
  have hget : ∀ (l : List Bunch) (i : ℕ), i < l.length → l[i]? = some (l.getD i b0) := by
    intro l i hi
    rw [List.getD_eq_getElem?_getD, List.getElem?_eq_getElem hi]
    rfl
  have hmem : ∀ (l : List Bunch) (i : ℕ), i < l.length → l.getD i b0 ∈ l := fun l i hi => List.mem_of_getElem? (hget l i hi)
  have hpart : ∀ k < l'.length, κ k < l.length ∧ PartOf (ι k) (l.getD (κ k) b0) (l'.getD k b0) := by
    intro k hk
    obtain ⟨b, h1, h2⟩ := hb.part k _ (hget l' k hk)
    obtain ⟨h3, -⟩ := List.getElem?_eq_some_iff.mp h1
    refine ⟨h3, ?_⟩
    rw [hget l _ h3] at h1
    exact Option.some.inj h1 ▸ h2
  have hpush : ∀ k < l'.length, ∀ φ b b' t dt, (Kept (l.getD (κ k) b0) b ∧ Kept (l'.getD k b0) b' ∧ PartOf (ι k) b b') →
      Kept (l.getD (κ k) b0) (e.push1 φ b t dt) ∧ Kept (l'.getD k b0) (e.push1 φ b' t dt) ∧
        PartOf (ι k) (e.push1 φ b t dt) (e.push1 φ b' t dt) := by
    rintro k hk φ b b' t dt ⟨h1, h2, h3⟩
    obtain ⟨G, δ, hG⟩ := push1_kept e hsch φ t dt
    obtain ⟨a1, a2, a3⟩ := hG _ _ h1
    obtain ⟨c1, c2, c3⟩ := hG _ _ h2
    have hn1 : (e.push1 φ b t dt).n = b.n := a1.n.trans h1.n.symm
    have hn2 : (e.push1 φ b' t dt).n = b'.n := c1.n.trans h2.n.symm
    refine ⟨a1, c1, fun p hp => ?_, fun p hp => ?_, fun p hp => ?_, ?_, ?_, ?_⟩
    · rw [hn1]; exact h3.lt p (hn2 ▸ hp)
    · have hp : p < b'.n := hn2 ▸ hp
      rw [a2 _ (h3.lt p hp), c2 _ hp, h3.ph p hp, show b'.const e.c = b.const e.c by unfold Bunch.const; rw [h3.q, h3.m]]
    · rw [a1.w, c1.w, ← h1.w, ← h2.w]
      exact h3.w p (hn2 ▸ hp)
    · rw [a1.q, c1.q, ← h1.q, ← h2.q, h3.q]
    · rw [a1.m, c1.m, ← h1.m, ← h2.m, h3.m]
    · rw [a3, c3, h3.dist]
  have hreg : e.Regroups l.length l'.length dts dts' κ
      (fun k b b' => Kept (l.getD (κ k) b0) b ∧ Kept (l'.getD k b0) b' ∧ PartOf (ι k) b b') (fun i b => Kept (l.getD i b0) b) := by
    refine ⟨fun k hk => (hpart k hk).1, fun k hk => ?_, fun k hk ho => ?_, hpush, fun i hi φ b t dt h => ?_, ?_⟩
    · obtain ⟨d, h1, h2⟩ := hdd k hk
      rw [List.getD_eq_getElem?_getD, List.getD_eq_getElem?_getD, h1, h2]
    · obtain ⟨d, h1, -⟩ := hdd k hk
      rw [List.getD_eq_getElem?_getD, h1] at ho
      cases ho
    · obtain ⟨G, δ, hG⟩ := push1_kept e hsch φ t dt
      exact (hG _ _ h).1
    · intro f f' φ j hff hf
      refine he _ _ (charged_perm (κ := κ) (ι := ι) (fun k hk => (hpart k hk).1) (fun k hk => (hff k hk).2.2) ?_ ?_) φ j
      · intro k hk k' hk' p hp p' hp' h1 h2
        exact hb.once k k' _ _ (hget l' k hk) (hget l' k' hk') p ((hff k hk).2.1.n ▸ hp) p' ((hff k' hk').2.1.n ▸ hp') h1 h2
      · intro i hi p hp hq
        have hq' : (l.getD i b0).q p ≠ 0 := by
          unfold Bunch.q at hq ⊢
          rw [← (hf i hi).w, ← (hf i hi).q]
          exact hq
        obtain ⟨k, b', p', h1, h2, h3, h4⟩ := hb.all i _ (hget l i hi) p ((hf i hi).n ▸ hp) hq'
        obtain ⟨hk, -⟩ := List.getElem?_eq_some_iff.mp h1
        rw [hget l' k hk] at h1
        exact ⟨k, hk, p', by rw [(hff k hk).2.1.n, Option.some.inj h1]; exact h2, h3, h4⟩
  have hk0 : ∀ i < l.length, Kept (l.getD i b0) (l.getD i b0) := fun i hi =>
    ⟨rfl, rfl, rfl, rfl, (hz _ (hmem l i hi)).1, (hz _ (hmem l i hi)).2⟩
  have hk0' : ∀ i < l'.length, Kept (l'.getD i b0) (l'.getD i b0) := fun i hi =>
    ⟨rfl, rfl, rfl, rfl, (hz' _ (hmem l' i hi)).1, (hz' _ (hmem l' i hi)).2⟩
  obtain ⟨fuel', ls, ls', w', h1, h2, h3, h4, h5, h6⟩ := track_related d' hn hd hd' hreg (b0 := b0) (b0' := b0) (φ := φ)
    ⟨rfl, rfl, rfl, fun k hk => ⟨hk0 _ (hpart k hk).1, hk0' k hk, (hpart k hk).2⟩, hk0⟩ (opmd' := opmd) hr
  exact ⟨fuel', ls, ls', w', h1, h2, h3, h4, h5, fun k hk => (h6 k hk).imp fun _ _ h => h.2.2⟩

end WakeT.FieldElement
