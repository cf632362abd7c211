import Verif.Plasma.Memory
import Verif.Plasma.SolverProps

/-! # In-place updates of the plasma particles are those of the named quantities -/

set_option linter.unusedSectionVars false

namespace WakeT.Plasma.QS

open WakeT.Interp WakeT.Base WakeT.Util WakeT.Deposition

variable (c : QS)

/-- The arrays after the fields at the particles have been calculated. -/
private noncomputable def filled (m : Mem) (x : ℕ → RP) (f : ℕ → AtPart) : Mem := fun i a =>
  if a = 1 then (x i).pr else if a = 2 then (f i).kin.pz else if a = 3 then (f i).kin.gamma else if a = 5 then (f i).src.a2
  else if a = 6 then (f i).src.nablaA2 else if a = 7 then (f i).src.bTheta0 else if a = 8 then (f i).bT else if a = 9 then (f i).psi
  else if a = 10 then (f i).drPsi else if a = 11 then (f i).dxiPsi else m i a

/-- Compare two rows entry by entry. -/
syntax "rows " ident "[" num,* "]" : tactic
macro_rules
  | `(tactic| rows $a:ident []) => `(tactic| simp_all)
  | `(tactic| rows $a:ident [$n:num]) => `(tactic| (
      by_cases h : $a = $n
      · subst h; simp
      simp_all))
  | `(tactic| rows $a:ident [$n:num, $ns:num,*]) => `(tactic| (
      by_cases h : $a = $n
      · subst h; simp
      rows $a [$ns,*]))

private theorem arr_eq (m : Mem) (a : ℕ) : m.arr a = fun i => m i a := rfl

private theorem column_mem (s : Sources) (k : ℕ) (m : Mem) (g : Grids) (hq : ∀ i, m i 4 = c.q i) :
    c.columnM s k 0 1 2 3 4 ⟨5, 6, 7, 8, 9, 10, 11⟩ (m, g) =
      (c.column s k (fun i => ⟨m i 0, m i 1⟩) (fun i => ⟨m i 5, m i 6, m i 7⟩) g).map fun p => (filled m p.1 p.2.1, p.2.2) := by
  unfold columnM column gatherM
  simp only [arr_eq]
  cases hg : c.gather s (fun i => m i 0) (c.xi k) (fun i => ⟨m i 5, m i 6, m i 7⟩) with
  | none => simp
  | some src =>
    have r0 : ∀ i, (((m.write 5 fun i => (src i).a2).write 6 fun i => (src i).nablaA2).write 7 fun i => (src i).bTheta0) i 0 = m i 0 :=
      fun i => by simp [Mem.write, Row.set]
    have r1 : ∀ i, (((m.write 5 fun i => (src i).a2).write 6 fun i => (src i).nablaA2).write 7 fun i => (src i).bTheta0) i 1 = m i 1 :=
      fun i => by simp [Mem.write, Row.set]
    have r4 : ∀ i, (((m.write 5 fun i => (src i).a2).write 6 fun i => (src i).nablaA2).write 7 fun i => (src i).bTheta0) i 4 = c.q i :=
      fun i => by simp [Mem.write, Row.set, hq]
    simp only [Option.bind_eq_bind, Option.bind_some, psiM, bThetaM, atParticles, r0, r1, r4]
    generalize hidx : (c.argsort fun i => m i 0) = idx
    generalize scatter c.n idx (Slice.psi _) = P
    generalize scatter c.n idx (Slice.drPsiAt _) = D
    generalize scatter c.n idx (Slice.dxiPsi _) = X
    have hp : bPartsM idx 0 1 4 3 9 10 11 7 6 (gammaM 3 2 1 5 9 ((((((m.write 5 fun i => (src i).a2).write 6 fun i => (src i).nablaA2).write 7
        fun i => (src i).bTheta0).write 9 P).write 10 D).write 11 X)) =
        c.bParts idx (fun i => ⟨m i 0, m i 1⟩) (fun i => (updateGamma (m i 1) (src i).a2 (P i)).gamma) P D X src := by
      funext j
      simp [bPartsM, bParts, gammaM, Mem.write, Row.set, updateGamma, hq]
    rw [hp]
    cases aiBiFromAxis precise c.n
      (c.bParts idx (fun i => ⟨m i 0, m i 1⟩) (fun i => (updateGamma (m i 1) (src i).a2 (P i)).gamma) P D X src) c.n with
    | none => simp
    | some res =>
      simp only [Option.bind_some, Option.map_some]
      generalize scatter c.n idx (bThetaAt _ _ _ _) = B
      have hm : c.slowM 2 3 1 ((gammaM 3 2 1 5 9 ((((((m.write 5 fun i => (src i).a2).write 6 fun i => (src i).nablaA2).write 7
          fun i => (src i).bTheta0).write 9 P).write 10 D).write 11 X)).write 8 B) =
          filled m (fun i => ⟨m i 0, (slowDown c.maxGamma (updateGamma (m i 1) (src i).a2 (P i))).pr⟩)
            (fun i => ⟨src i, P i, D i, X i, B i, slowDown c.maxGamma (updateGamma (m i 1) (src i).a2 (P i))⟩) := by
        funext i a
        have hγ : ((gammaM 3 2 1 5 9 ((((((m.write 5 fun i => (src i).a2).write 6 fun i => (src i).nablaA2).write 7
            fun i => (src i).bTheta0).write 9 P).write 10 D).write 11 X)).write 8 B) i 3 = (updateGamma (m i 1) (src i).a2 (P i)).gamma := by
          simp [gammaM, Mem.write, Row.set, updateGamma]
        unfold slowM slowDown filled
        simp only [hγ]
        by_cases hg : (updateGamma (m i 1) (src i).a2 (P i)).gamma ≥ c.maxGamma
        all_goals
          simp only [hg, if_true, if_false]
          simp only [gammaM, Mem.write, Row.set, updateGamma]
          rows a [1, 2, 3, 5, 6, 7, 8, 9, 10, 11]
      rw [hm]
      generalize (fun i => slowDown c.maxGamma (updateGamma (m i 1) (src i).a2 (P i))) = K
      have hp2 : ∀ K : ℕ → Kin, bPartsM idx 0 1 4 3 9 10 11 7 6 (filled m (fun i => ⟨m i 0, (K i).pr⟩) (fun i => ⟨src i, P i, D i, X i, B i, K i⟩)) =
          c.bParts idx (fun i => ⟨m i 0, (K i).pr⟩) (fun i => (K i).gamma) P D X src := by
        intro K
        funext j
        simp [bPartsM, bParts, filled, hq]
      rw [hp2 fun i => slowDown c.maxGamma (updateGamma (m i 1) (src i).a2 (P i))]
      simp [filled, hq, Option.map_bind, Function.comp_def]

private theorem column_r {s : Sources} {k : ℕ} {x : ℕ → RP} {old : ℕ → Src} {g : Grids} {p} (h : c.column s k x old g = some p) (i : ℕ) :
    (p.1 i).r = (x i).r := by
  unfold column at h
  simp only [Option.bind_eq_bind, Option.bind_eq_some_iff] at h
  obtain ⟨src, -, f, -, b, -, hp⟩ := h
  rw [Option.some.injEq] at hp
  rw [← hp]

/-! ### Adams-Bashforth -/

/-- The particles in the arrays of the Adams-Bashforth pusher. -/
private noncomputable def histories (m : Mem) : ℕ → AbPart := fun i =>
  ⟨⟨m i 0, m i 1⟩, ⟨m i 13, m i 18⟩, ⟨m i 14, m i 19⟩, ⟨m i 15, m i 20⟩, ⟨m i 16, m i 21⟩⟩

private noncomputable def viewAb5 (m : Mem) : PState where
  ps := histories m
  o1 i := ⟨m i 5, m i 6, m i 7⟩
  o2 _ := ⟨0, 0, 0⟩
  o3 _ := ⟨0, 0, 0⟩
  o4 _ := ⟨0, 0, 0⟩

private theorem evolveAb5_mem (dxi : ℝ) (m : Mem) :
    histories (evolveAb5M dxi 0 1 3 6 7 8 9 10 12 13 14 15 16 17 18 19 20 21 m) =
      evolveAb5 dxi (fun _ i => ⟨m i 3, m i 9, m i 10, m i 8, m i 7, m i 6⟩) (histories m) := by
  funext i
  unfold evolveAb5 evolveAb5M mirrorM histories
  have hr : (copyM 18 17 (copyM 19 18 (copyM 20 19 (copyM 21 20 (copyM 13 12 (copyM 14 13 (copyM 15 14 (copyM 16 15
      (applyAb5M 1 dxi 17 18 19 20 21 (applyAb5M 0 dxi 12 13 14 15 16 (derivsM 1 3 7 6 8 9 10 12 17 m))))))))))) i 0 =
      (ab5Push dxi ⟨m i 3, m i 9, m i 10, m i 8, m i 7, m i 6⟩ (histories m i)).x.r := by
    simp [copyM, applyAb5M, derivsM, Mem.write, Mem.arr, Row.set, ab5Push, applyAb5, derivs, histories]
  simp only [hr]
  unfold histories
  by_cases h : (ab5Push dxi ⟨m i 3, m i 9, m i 10, m i 8, m i 7, m i 6⟩ (histories m i)).x.r < 0
  · unfold histories at h
    simp only [h, if_true]
    simp [copyM, applyAb5M, derivsM, Mem.write, Mem.arr, Row.set, ab5Push, applyAb5, derivs, AbPart.neg, RP.neg]
  · unfold histories at h
    simp only [h, if_false]
    simp [copyM, applyAb5M, derivsM, Mem.write, Mem.arr, Row.set, ab5Push, applyAb5, derivs]

private theorem evolveAb5_other (dxi : ℝ) (m : Mem) (i : ℕ) {a : ℕ} (h2 : 2 ≤ a) (h11 : a ≤ 11) :
    evolveAb5M dxi 0 1 3 6 7 8 9 10 12 13 14 15 16 17 18 19 20 21 m i a = m i a := by
  unfold evolveAb5M mirrorM
  have e : ∀ b, b = 0 ∨ b = 1 ∨ 12 ≤ b → a ≠ b := fun b hb => by omega
  have hset : ∀ (b : ℕ) (r : Row) v, b = 0 ∨ b = 1 ∨ 12 ≤ b → r.set b v a = r a := fun b r v hb => if_neg (e b hb)
  split_ifs
  · simp [hset, copyM, applyAb5M, derivsM, Mem.write]
  · simp [hset, copyM, applyAb5M, derivsM, Mem.write]

private theorem sliceAb5_mem (s : Sources) (k : ℕ) (m : Mem) (g : Grids) (hq : ∀ i, m i 4 = c.q i) :
    (c.sliceAb5 s k 0 1 2 3 4 ⟨5, 6, 7, 8, 9, 10, 11⟩ 12 13 14 15 16 17 18 19 20 21 (m, g)).map (fun p => (viewAb5 p.1, p.2)) =
      c.slice .ab5 s k (viewAb5 m, g) ∧
    ∀ p, c.sliceAb5 s k 0 1 2 3 4 ⟨5, 6, 7, 8, 9, 10, 11⟩ 12 13 14 15 16 17 18 19 20 21 (m, g) = some p → ∀ i, p.1 i 4 = c.q i := by
  unfold sliceAb5 slice
  rw [c.column_mem s k m g hq]
  have ex : (fun i => ((viewAb5 m, g).1.ps i).x) = fun i => (⟨m i 0, m i 1⟩ : RP) := rfl
  simp only [ex]
  cases hc : c.column s k (fun i => ⟨m i 0, m i 1⟩) (fun i => ⟨m i 5, m i 6, m i 7⟩) g with
  | none =>
    have hc' : c.column s k (fun i => ⟨m i 0, m i 1⟩) (viewAb5 m).o1 g = none := hc
    simp [hc']
  | some p =>
    obtain ⟨x, f, g'⟩ := p
    have hc' : c.column s k (fun i => ⟨m i 0, m i 1⟩) (viewAb5 m).o1 g = some (x, f, g') := hc
    have hr := c.column_r hc
    have h0 : ∀ i, filled m x f i 0 = (x i).r := fun i => by simpa [filled] using (hr i).symm
    have hq' : ∀ i, filled m x f i 4 = c.q i := fun i => by simp [filled, hq]
    have hh : histories (filled m x f) = fun i => { histories m i with x := x i } := by
      funext i
      unfold histories
      rw [h0 i]
      simp [filled]
    by_cases hk : k = 0
    · subst hk
      simp only [hc', Option.map_some, Option.bind_eq_bind, Option.bind_some, if_true, Option.some.injEq]
      refine ⟨?_, fun p hp i => by rw [← hp]; exact hq' i⟩
      unfold viewAb5
      rw [hh]
      simp [filled]
    · simp only [hk, hc', Option.map_some, Option.bind_eq_bind, Option.bind_some, if_false, Option.some.injEq]
      refine ⟨?_, fun p hp i => by rw [← hp]; exact (evolveAb5_other _ _ i (by norm_num) (by norm_num)).trans (hq' i)⟩
      unfold viewAb5
      rw [evolveAb5_mem, hh]
      simp only [evolveAb5_other _ _ _ (show 2 ≤ 5 by norm_num) (show 5 ≤ 11 by norm_num),
        evolveAb5_other _ _ _ (show 2 ≤ 6 by norm_num) (show 6 ≤ 11 by norm_num), evolveAb5_other _ _ _ (show 2 ≤ 7 by norm_num) (show 7 ≤ 11 by norm_num)]
      simp [filled, AtPart.pf]

/-! ### Runge-Kutta -/

private theorem substep_mem (s : Sources) (xi : ℝ) (m : Mem) (hq : ∀ i, m i 4 = c.q i) {b d : ℕ} (hb : 20 ≤ b) (hb' : b + 7 ≤ 41)
    (hd : 12 ≤ d) (hd' : d + 4 < 20) :
    (c.substepM s xi 41 42 43 4 ⟨b, b + 1, b + 2, b + 3, b + 4, b + 5, b + 6⟩ d (d + 4) m = none ∧
      c.rkSub s xi (fun i => ⟨m i b, m i (b + 1), m i (b + 2)⟩) (fun i => ⟨m i 41, m i 42⟩) = none) ∨
    ∃ m' src k, c.substepM s xi 41 42 43 4 ⟨b, b + 1, b + 2, b + 3, b + 4, b + 5, b + 6⟩ d (d + 4) m = some m' ∧
      c.rkSub s xi (fun i => ⟨m i b, m i (b + 1), m i (b + 2)⟩) (fun i => ⟨m i 41, m i 42⟩) = some (src, k) ∧
      ∀ i, (⟨m' i b, m' i (b + 1), m' i (b + 2)⟩ : Src) = src i ∧ m' i d = (k i).r ∧ m' i (d + 4) = (k i).pr ∧
        ∀ a, a < 41 → a < b ∨ b + 7 ≤ a → a ≠ d → a ≠ d + 4 → m' i a = m i a := by
  unfold substepM rkSub gatherM
  simp only [arr_eq]
  obtain ⟨y, hy⟩ : ∃ y, y = mirrorNeg fun i => (⟨m i 41, m i 42⟩ : RP) := ⟨_, rfl⟩
  obtain ⟨n, hn⟩ : ∃ n, n = mirrorM 41 [41, 42] m := ⟨_, rfl⟩
  have n41 : ∀ i, n i 41 = (y i).r := fun i => by
    rw [hn, hy]; unfold mirrorM mirrorNeg; split_ifs <;> simp [Row.set, RP.neg]
  have n42 : ∀ i, n i 42 = (y i).pr := fun i => by
    rw [hn, hy]; unfold mirrorM mirrorNeg; split_ifs <;> simp [Row.set, RP.neg]
  have na : ∀ i a, a < 41 → n i a = m i a := fun i a ha => by
    rw [hn]; unfold mirrorM
    have h1 : a ≠ 41 := by omega
    have h2 : a ≠ 42 := by omega
    split_ifs <;> simp [Row.set, h1, h2]
  rw [← hn, ← hy]
  simp only [n41]
  simp (disch := omega) only [na]
  cases hg : c.gather s (fun i => (y i).r) xi (fun i => ⟨m i b, m i (b + 1), m i (b + 2)⟩) with
  | none => left; simp
  | some src =>
    simp only [Option.bind_eq_bind, Option.bind_some, psiM, bThetaM, atParticles, Mem.write]
    simp (disch := omega) only [set_self, set_ne, n41, n42, na, hq]
    generalize hidx : (c.argsort fun i => (y i).r) = idx
    generalize scatter c.n idx (Slice.psi _) = P
    generalize scatter c.n idx (Slice.drPsiAt _) = D
    generalize scatter c.n idx (Slice.dxiPsi _) = X
    have hp : bPartsM idx 41 42 4 43 (b + 4) (b + 5) (b + 6) (b + 2) (b + 1)
        (((((((n.write b fun i => (src i).a2).write (b + 1) fun i => (src i).nablaA2).write (b + 2) fun i => (src i).bTheta0).write
          (b + 4) P).write (b + 5) D).write (b + 6) X).write 43 fun i => (1 + (y i).pr ^ 2 + (src i).a2 + (1 + P i) ^ 2) / (2 * (1 + P i))) =
        c.bParts idx y (fun i => (updateGamma (y i).pr (src i).a2 (P i)).gamma) P D X src := by
      funext j
      simp only [bPartsM, bParts, Mem.write]
      simp (disch := omega) only [set_self, set_ne, n41, n42, na, hq, updateGamma]
    rw [hp]
    cases aiBiFromAxis precise c.n (c.bParts idx y (fun i => (updateGamma (y i).pr (src i).a2 (P i)).gamma) P D X src) c.n with
    | none => left; simp
    | some res =>
      right
      simp only [Option.bind_some, Option.map_some, Option.some.injEq, Prod.mk.injEq]
      generalize scatter c.n idx (bThetaAt _ _ _ _) = B
      refine ⟨_, _, _, rfl, ⟨rfl, rfl⟩, fun i => ?_⟩
      simp only [derivsM, Mem.write, substep, AtPart.pf, derivs, updateGamma]
      have hy' : y i = if m i 41 < 0 then (⟨m i 41, m i 42⟩ : RP).neg else ⟨m i 41, m i 42⟩ := by rw [hy]; rfl
      rw [← hy']
      by_cases h : m i 41 < 0
      · simp only [h, if_true]
        simp (disch := omega) only [set_self, set_ne, n42]
        refine ⟨trivial, by simp [RP.neg], by simp [RP.neg], fun a ha hab h1 h2 => ?_⟩
        simp (disch := omega) only [set_self, set_ne, na]
      · simp only [h, if_false]
        simp (disch := omega) only [set_self, set_ne, n42]
        refine ⟨trivial, trivial, trivial, fun a ha hab h1 h2 => ?_⟩
        simp (disch := omega) only [set_self, set_ne, na]

/-- The part of `slice` after the column, for the Runge-Kutta pusher. -/
private noncomputable def rk4Part (s : Sources) (xi : ℝ) (pf : ℕ → PFields) (x : ℕ → RP) (o2 o3 o4 : ℕ → Src) :
    Option ((ℕ → RP) × (ℕ → Src) × (ℕ → Src) × (ℕ → Src)) := do
  let k1 := fun i => derivs (pf i) (x i).pr
  let (o2, k2) ← c.rkSub s (xi - c.dxi * (1 / 2)) o2 fun i => (x i).moved c.dxi (k1 i) (1 / 2)
  let (o3, k3) ← c.rkSub s (xi - c.dxi * (1 / 2)) o3 fun i => (x i).moved c.dxi (k2 i) (1 / 2)
  let (o4, k4) ← c.rkSub s (xi - c.dxi) o4 fun i => (x i).moved c.dxi (k3 i) 1
  some (rk4Combine c.dxi x k1 k2 k3 k4, o2, o3, o4)

private theorem slice_rk4 {s : Sources} {k : ℕ} {st : PState × Grids} {x : ℕ → RP} {f : ℕ → AtPart} {g : Grids} (hk : k ≠ 0)
    (hc : c.column s k (fun i => (st.1.ps i).x) st.1.o1 st.2 = some (x, f, g)) :
    c.slice .rk4 s k st = (c.rk4Part s (c.xi k) (fun i => (f i).pf) x st.1.o2 st.1.o3 st.1.o4).map fun y =>
      (⟨fun i => { st.1.ps i with x := y.1 i }, fun i => (f i).src, y.2.1, y.2.2.1, y.2.2.2⟩, g) := by
  unfold slice rk4Part
  simp only [hc, hk, if_false, Option.bind_eq_bind, Option.bind_some, Option.map_bind, Function.comp_def, Option.map_some]

private theorem evolveRk4_mem (s : Sources) (xi : ℝ) (m : Mem) (hq : ∀ i, m i 4 = c.q i) :
    (c.evolveRk4M s xi 41 0 1 3 4 12 13 14 15 16 17 18 19 ⟨5, 6, 7, 8, 9, 10, 11⟩ ⟨20, 21, 22, 23, 24, 25, 26⟩ ⟨27, 28, 29, 30, 31, 32, 33⟩
        ⟨34, 35, 36, 37, 38, 39, 40⟩ m = none ∧
      c.rk4Part s xi (fun i => ⟨m i 3, m i 9, m i 10, m i 8, m i 7, m i 6⟩) (fun i => ⟨m i 0, m i 1⟩) (fun i => ⟨m i 20, m i 21, m i 22⟩)
        (fun i => ⟨m i 27, m i 28, m i 29⟩) (fun i => ⟨m i 34, m i 35, m i 36⟩) = none) ∨
    ∃ m', c.evolveRk4M s xi 41 0 1 3 4 12 13 14 15 16 17 18 19 ⟨5, 6, 7, 8, 9, 10, 11⟩ ⟨20, 21, 22, 23, 24, 25, 26⟩
        ⟨27, 28, 29, 30, 31, 32, 33⟩ ⟨34, 35, 36, 37, 38, 39, 40⟩ m = some m' ∧
      c.rk4Part s xi (fun i => ⟨m i 3, m i 9, m i 10, m i 8, m i 7, m i 6⟩) (fun i => ⟨m i 0, m i 1⟩) (fun i => ⟨m i 20, m i 21, m i 22⟩)
        (fun i => ⟨m i 27, m i 28, m i 29⟩) (fun i => ⟨m i 34, m i 35, m i 36⟩) =
        some (fun i => ⟨m' i 0, m' i 1⟩, fun i => ⟨m' i 20, m' i 21, m' i 22⟩, fun i => ⟨m' i 27, m' i 28, m' i 29⟩,
          fun i => ⟨m' i 34, m' i 35, m' i 36⟩) ∧
      ∀ i a, 4 ≤ a → a ≤ 11 → m' i a = m i a := by
  unfold evolveRk4M rk4Part
  simp only
  -- the first substep
  obtain ⟨m0, h0⟩ : ∃ m0, m0 = derivsM 1 3 7 6 8 9 10 12 16 m := ⟨_, rfl⟩
  obtain ⟨k1, hk1⟩ : ∃ k1, k1 = fun i => derivs ⟨m i 3, m i 9, m i 10, m i 8, m i 7, m i 6⟩ (m i 1) := ⟨_, rfl⟩
  have e0 : ∀ i a, a ≠ 12 → a ≠ 16 → m0 i a = m i a := fun i a h1 h2 => by
    rw [h0]; unfold derivsM; simp (disch := omega) only [set_ne]
  have e0r : ∀ i, m0 i 12 = (k1 i).r := fun i => by rw [h0, hk1]; simp [derivsM, derivs, Row.set]
  have e0p : ∀ i, m0 i 16 = (k1 i).pr := fun i => by rw [h0, hk1]; simp [derivsM, derivs, Row.set]
  rw [← h0]
  obtain ⟨m1, h1⟩ : ∃ m1, m1 = (m0.write 41 fun i => m0 i 0 + c.dxi * m0 i 12 * (1 / 2)).write 42 fun i => m0 i 1 + c.dxi * m0 i 16 * (1 / 2) :=
    ⟨_, rfl⟩
  have e1 : ∀ i a, a < 41 → m1 i a = m0 i a := fun i a ha => by
    rw [h1]; unfold Mem.write; simp (disch := omega) only [set_ne]
  have x1 : (fun i => (⟨m1 i 41, m1 i 42⟩ : RP)) = fun i => (⟨m i 0, m i 1⟩ : RP).moved c.dxi (k1 i) (1 / 2) := by
    funext i
    rw [h1]
    simp [Mem.write, Row.set, RP.moved, e0, e0r, e0p]
  have hq1 : ∀ i, m1 i 4 = c.q i := fun i => by simp (disch := omega) only [e1, e0, hq]
  have o2 : (fun i => (⟨m1 i 20, m1 i 21, m1 i 22⟩ : Src)) = fun i => ⟨m i 20, m i 21, m i 22⟩ := by
    funext i; simp (disch := omega) only [e1, e0]
  have hk1' : ∀ i, derivs ⟨m i 3, m i 9, m i 10, m i 8, m i 7, m i 6⟩ (m i 1) = k1 i := fun i => by rw [hk1]
  rw [← h1]
  simp only [hk1']
  have S1 := c.substep_mem s (xi - c.dxi * (1 / 2)) m1 hq1 (b := 20) (d := 13) (by norm_num) (by norm_num) (by norm_num) (by norm_num)
  simp only [Nat.reduceAdd, x1, o2] at S1
  rcases S1 with ⟨ha, hb⟩ | ⟨m2, s2, k2, ha, hb, f2⟩
  · left
    simp only [Nat.reduceAdd, ha, hb, Option.bind_eq_bind, Option.bind_none, and_self]
  -- the second substep
  have e2 : ∀ i a, a < 41 → a < 20 ∨ 27 ≤ a → a ≠ 13 → a ≠ 17 → m2 i a = m1 i a := fun i => (f2 i).2.2.2
  have e2r := fun i => (f2 i).2.1
  have e2p := fun i => (f2 i).2.2.1
  obtain ⟨m3, h3⟩ : ∃ m3, m3 = (m2.write 41 fun i => m2 i 0 + c.dxi * m2 i 13 * (1 / 2)).write 42 fun i => m2 i 1 + c.dxi * m2 i 17 * (1 / 2) :=
    ⟨_, rfl⟩
  have e3 : ∀ i a, a < 41 → m3 i a = m2 i a := fun i a ha => by
    rw [h3]; unfold Mem.write; simp (disch := omega) only [set_ne]
  have x3 : (fun i => (⟨m3 i 41, m3 i 42⟩ : RP)) = fun i => (⟨m i 0, m i 1⟩ : RP).moved c.dxi (k2 i) (1 / 2) := by
    funext i
    rw [h3]
    simp only [Mem.write]
    simp (disch := omega) only [set_self, set_ne, RP.moved, e2r, e2p, e2, e1, e0]
  have hq3 : ∀ i, m3 i 4 = c.q i := fun i => by simp (disch := omega) only [e3, e2, e1, e0, hq]
  have o3 : (fun i => (⟨m3 i 27, m3 i 28, m3 i 29⟩ : Src)) = fun i => ⟨m i 27, m i 28, m i 29⟩ := by
    funext i; simp (disch := omega) only [e3, e2, e1, e0]
  have S3 := c.substep_mem s (xi - c.dxi * (1 / 2)) m3 hq3 (b := 27) (d := 14) (by norm_num) (by norm_num) (by norm_num) (by norm_num)
  simp only [Nat.reduceAdd, x3, o3] at S3
  rcases S3 with ⟨ha', hb'⟩ | ⟨m4, s3, k3, ha', hb', f4⟩
  · left
    simp only [Nat.reduceAdd, ha, hb, Option.bind_eq_bind, Option.bind_some, ← h3, ha', hb', Option.bind_none, and_self]
  -- the third substep
  have e4 : ∀ i a, a < 41 → a < 27 ∨ 34 ≤ a → a ≠ 14 → a ≠ 18 → m4 i a = m3 i a := fun i => (f4 i).2.2.2
  have e4r := fun i => (f4 i).2.1
  have e4p := fun i => (f4 i).2.2.1
  obtain ⟨m5, h5⟩ : ∃ m5, m5 = (m4.write 41 fun i => m4 i 0 + c.dxi * m4 i 14).write 42 fun i => m4 i 1 + c.dxi * m4 i 18 :=
    ⟨_, rfl⟩
  have e5 : ∀ i a, a < 41 → m5 i a = m4 i a := fun i a ha => by
    rw [h5]; unfold Mem.write; simp (disch := omega) only [set_ne]
  have x5 : (fun i => (⟨m5 i 41, m5 i 42⟩ : RP)) = fun i => (⟨m i 0, m i 1⟩ : RP).moved c.dxi (k3 i) 1 := by
    funext i
    rw [h5]
    simp only [Mem.write]
    simp (disch := omega) only [set_self, set_ne, RP.moved, e4r, e4p, e4, e3, e2, e1, e0, mul_one]
  have hq5 : ∀ i, m5 i 4 = c.q i := fun i => by simp (disch := omega) only [e5, e4, e3, e2, e1, e0, hq]
  have o4 : (fun i => (⟨m5 i 34, m5 i 35, m5 i 36⟩ : Src)) = fun i => ⟨m i 34, m i 35, m i 36⟩ := by
    funext i; simp (disch := omega) only [e5, e4, e3, e2, e1, e0]
  have S5 := c.substep_mem s (xi - c.dxi) m5 hq5 (b := 34) (d := 15) (by norm_num) (by norm_num) (by norm_num) (by norm_num)
  simp only [Nat.reduceAdd, x5, o4] at S5
  rcases S5 with ⟨ha'', hb''⟩ | ⟨m6, s4, k4, ha'', hb'', f6⟩
  · left
    simp only [Nat.reduceAdd, ha, hb, Option.bind_eq_bind, Option.bind_some, ← h3, ha', hb', ← h5, ha'', hb'', Option.bind_none, and_self]
  -- the combination
  have e6 : ∀ i a, a < 41 → a < 34 ∨ 41 ≤ a → a ≠ 15 → a ≠ 19 → m6 i a = m5 i a := fun i => (f6 i).2.2.2
  have e6r := fun i => (f6 i).2.1
  have e6p := fun i => (f6 i).2.2.1
  right
  simp only [Nat.reduceAdd, ha, hb, Option.bind_eq_bind, Option.bind_some, ← h3, ha', hb', ← h5, ha'', hb'', Option.some.injEq]
  refine ⟨_, rfl, ?_, fun i a h4 h11 => ?_⟩
  · have hM : ∀ i a, 2 ≤ a → mirrorM 0 [0, 1] (applyRk4M 1 c.dxi 16 17 18 19 (applyRk4M 0 c.dxi 12 13 14 15 m6)) i a = m6 i a :=
        fun i a h => by
      unfold mirrorM applyRk4M
      split_ifs
      all_goals
        simp only [List.foldl_cons, List.foldl_nil]
        simp (disch := omega) only [set_ne]
    simp (disch := omega) only [hM, e6, e5, e4, e3]
    refine Prod.ext ?_ (Prod.ext (funext fun i => (f2 i).1.symm) (Prod.ext (funext fun i => (f4 i).1.symm) (funext fun i => (f6 i).1.symm)))
    · funext i
      simp only [rk4Combine, applyRk4]
      have hr : (applyRk4M 1 c.dxi 16 17 18 19 (applyRk4M 0 c.dxi 12 13 14 15 m6)) i 0 =
          m i 0 + c.dxi * ((k1 i).r + 2 * ((k2 i).r + (k3 i).r) + (k4 i).r) * (1 / 6) := by
        unfold applyRk4M
        simp (disch := omega) only [set_self, set_ne, e6r, e6, e5, e4r, e4, e3, e2r, e2, e1, e0r, e0]
      have hp : (applyRk4M 1 c.dxi 16 17 18 19 (applyRk4M 0 c.dxi 12 13 14 15 m6)) i 1 =
          m i 1 + c.dxi * ((k1 i).pr + 2 * ((k2 i).pr + (k3 i).pr) + (k4 i).pr) * (1 / 6) := by
        unfold applyRk4M
        simp (disch := omega) only [set_self, set_ne, e6p, e6, e5, e4p, e4, e3, e2p, e2, e1, e0p, e0]
      unfold mirrorM
      rw [hr]
      by_cases h : m i 0 + c.dxi * ((k1 i).r + 2 * ((k2 i).r + (k3 i).r) + (k4 i).r) * (1 / 6) < 0
      · simp only [if_pos h, List.foldl_cons, List.foldl_nil, RP.neg]
        simp (disch := omega) only [set_self, set_ne, hr, hp, mul_neg, mul_one]
        exact if_pos h
      · simp only [if_neg h, hr, hp]
        exact if_neg h
  · unfold mirrorM applyRk4M
    split_ifs
    all_goals
      simp only [List.foldl_cons, List.foldl_nil]
      simp (disch := omega) only [set_ne, e6, e5, e4, e3, e2, e1, e0]

private noncomputable def viewRk4 (m : Mem) : PState where
  ps i := AbPart.init ⟨m i 0, m i 1⟩
  o1 i := ⟨m i 5, m i 6, m i 7⟩
  o2 i := ⟨m i 20, m i 21, m i 22⟩
  o3 i := ⟨m i 27, m i 28, m i 29⟩
  o4 i := ⟨m i 34, m i 35, m i 36⟩

private theorem sliceRk4_mem (s : Sources) (k : ℕ) (m : Mem) (g : Grids) (hq : ∀ i, m i 4 = c.q i) :
    (c.sliceRk4 s k 41 0 1 2 3 4 12 13 14 15 16 17 18 19 ⟨5, 6, 7, 8, 9, 10, 11⟩ ⟨20, 21, 22, 23, 24, 25, 26⟩ ⟨27, 28, 29, 30, 31, 32, 33⟩
        ⟨34, 35, 36, 37, 38, 39, 40⟩ (m, g)).map (fun p => (viewRk4 p.1, p.2)) = c.slice .rk4 s k (viewRk4 m, g) ∧
    ∀ p, c.sliceRk4 s k 41 0 1 2 3 4 12 13 14 15 16 17 18 19 ⟨5, 6, 7, 8, 9, 10, 11⟩ ⟨20, 21, 22, 23, 24, 25, 26⟩
      ⟨27, 28, 29, 30, 31, 32, 33⟩ ⟨34, 35, 36, 37, 38, 39, 40⟩ (m, g) = some p → ∀ i, p.1 i 4 = c.q i := by
  unfold sliceRk4
  rw [c.column_mem s k m g hq]
  have ex : (fun i => ((viewRk4 m, g).1.ps i).x) = fun i => (⟨m i 0, m i 1⟩ : RP) := rfl
  cases hc : c.column s k (fun i => ⟨m i 0, m i 1⟩) (fun i => ⟨m i 5, m i 6, m i 7⟩) g with
  | none =>
    have hc' : c.column s k (fun i => ((viewRk4 m, g).1.ps i).x) (viewRk4 m, g).1.o1 (viewRk4 m, g).2 = none := hc
    simp only [slice, hc']
    simp
  | some p =>
    obtain ⟨x, f, g'⟩ := p
    have hc' : c.column s k (fun i => ((viewRk4 m, g).1.ps i).x) (viewRk4 m, g).1.o1 (viewRk4 m, g).2 = some (x, f, g') := hc
    have hr := c.column_r hc
    have h0 : ∀ i, filled m x f i 0 = (x i).r := fun i => by simpa [filled] using (hr i).symm
    have h1 : ∀ i, filled m x f i 1 = (x i).pr := fun i => by simp [filled]
    have hq' : ∀ i, filled m x f i 4 = c.q i := fun i => by simp [filled, hq]
    have hx : (fun i => (⟨filled m x f i 0, filled m x f i 1⟩ : RP)) = x := by funext i; rw [h0, h1]
    have ho1 : (fun i => (⟨filled m x f i 5, filled m x f i 6, filled m x f i 7⟩ : Src)) = fun i => (f i).src := by
      funext i; simp [filled]
    have ho2 : (fun i => (⟨filled m x f i 20, filled m x f i 21, filled m x f i 22⟩ : Src)) = (viewRk4 m).o2 := by
      funext i; simp [filled, viewRk4]
    have ho3 : (fun i => (⟨filled m x f i 27, filled m x f i 28, filled m x f i 29⟩ : Src)) = (viewRk4 m).o3 := by
      funext i; simp [filled, viewRk4]
    have ho4 : (fun i => (⟨filled m x f i 34, filled m x f i 35, filled m x f i 36⟩ : Src)) = (viewRk4 m).o4 := by
      funext i; simp [filled, viewRk4]
    by_cases hk : k = 0
    · subst hk
      simp only [slice, hc', Option.map_some, Option.bind_eq_bind, Option.bind_some, if_true, Option.some.injEq]
      refine ⟨?_, fun p hp i => by rw [← hp]; exact hq' i⟩
      have hv : viewRk4 (filled m x f) = ⟨fun i => AbPart.init (x i), fun i => (f i).src, (viewRk4 m).o2, (viewRk4 m).o3, (viewRk4 m).o4⟩ := by
        rw [← ho1, ← ho2, ← ho3, ← ho4, ← hx]
        rfl
      rw [hv]
      rfl
    · have E := c.evolveRk4_mem s (c.xi k) (filled m x f) hq'
      have hpf : (fun i => (⟨filled m x f i 3, filled m x f i 9, filled m x f i 10, filled m x f i 8, filled m x f i 7, filled m x f i 6⟩ : PFields)) =
          fun i => (f i).pf := by funext i; simp [filled, AtPart.pf]
      rw [hpf, hx, ho2, ho3, ho4] at E
      rw [c.slice_rk4 hk hc']
      simp only [hk, Option.map_some, Option.bind_eq_bind, Option.bind_some, if_false]
      rcases E with ⟨ha, hb⟩ | ⟨m', ha, hb, hm⟩
      · rw [ha, hb]
        simp
      · rw [ha, hb]
        simp only [Option.bind_some, Option.map_some, Option.some.injEq]
        refine ⟨?_, fun p hp i => by rw [← hp]; exact (hm i 4 (by norm_num) (by norm_num)).trans (hq' i)⟩
        rw [← ho1]
        unfold viewRk4
        simp only [hm _ 5 (by norm_num) (by norm_num), hm _ 6 (by norm_num) (by norm_num), hm _ 7 (by norm_num) (by norm_num)]
        rfl

/-! ### The loop -/

private theorem loop_mem (p : Pusher) (s : Sources) (body : ℕ → Mem × Grids → Option (Mem × Grids)) (view : Mem → PState)
    (h : ∀ k m g, (∀ i, m i 4 = c.q i) → (body k (m, g)).map (fun p => (view p.1, p.2)) = c.slice p s k (view m, g) ∧
      ∀ p, body k (m, g) = some p → ∀ i, p.1 i 4 = c.q i) (m : Mem) (g : Grids) (hq : ∀ i, m i 4 = c.q i) (j : ℕ) :
    (c.loopM body (m, g) j).map (fun p => (view p.1, p.2)) = c.loop p s (view m, g) j ∧
      ∀ p, c.loopM body (m, g) j = some p → ∀ i, p.1 i 4 = c.q i := by
  induction j with
  | zero => exact ⟨rfl, fun p hp => by rw [loopM, Option.some.injEq] at hp; rw [← hp]; exact hq⟩
  | succ j ih =>
    obtain ⟨h1, h2⟩ := ih
    rw [loopM, loop, ← h1]
    cases hl : c.loopM body (m, g) j with
    | none => simp
    | some st =>
      have := h (c.nXi - j - 1) st.1 st.2 (h2 st hl)
      simpa using this

private theorem alloc_ab5 (garbage : Mem) : ∃ M, (c.allocate "ab5").run ⟨0, garbage⟩ =
      (⟨0, 1, 2, 3, 4, [5, 6, 7, 8, 9, 10, 11], [12, 13, 14, 15, 16], [17, 18, 19, 20, 21], []⟩, ⟨22, M⟩) ∧
    (∀ i, M i 4 = c.q i) ∧ viewAb5 M = c.startState ∧
      ∀ i, M i 0 = c.r0 i ∧ M i 1 = 0 ∧ M i 2 = 0 ∧ M i 3 = 1 ∧ ∀ a, 5 ≤ a → a < 22 → M i a = 0 := by
  refine ⟨_, rfl, fun i => ?_, ?_, fun i => ⟨?_, ?_, ?_, ?_, fun a h1 h2 => ?_⟩⟩
  · simp [Mem.write, Row.set]
  · unfold viewAb5 histories
    simp [startState, AbPart.init, Mem.write, Row.set]
  all_goals try (simp [Mem.write, Row.set]; done)
  interval_cases a <;> simp [Mem.write, Row.set]

private theorem alloc_rk4 (garbage : Mem) : ∃ M, (c.allocate "rk4").run ⟨0, garbage⟩ =
      (⟨0, 1, 2, 3, 4, [5, 6, 7, 8, 9, 10, 11], [12, 13, 14, 15], [16, 17, 18, 19],
        [[5, 6, 7, 8, 9, 10, 11], [20, 21, 22, 23, 24, 25, 26], [27, 28, 29, 30, 31, 32, 33], [34, 35, 36, 37, 38, 39, 40]]⟩, ⟨41, M⟩) ∧
    (∀ i, M i 4 = c.q i) ∧ viewRk4 M = c.startState ∧
      ∀ i, M i 0 = c.r0 i ∧ M i 1 = 0 ∧ M i 2 = 0 ∧ M i 3 = 1 ∧ ∀ a, 5 ≤ a → a < 41 → M i a = 0 := by
  refine ⟨_, rfl, fun i => ?_, ?_, fun i => ⟨?_, ?_, ?_, ?_, fun a h1 h2 => ?_⟩⟩
  · simp [Mem.write, Row.set]
  · simp [viewRk4, startState, AbPart.init, Mem.write, Row.set]
  all_goals try (simp [Mem.write, Row.set]; done)
  interval_cases a <;> simp [Mem.write, Row.set]

/-- The particles live in arrays that are updated in place.  The rows written to the grids are those of the calculation in which every
intermediate value has its own name. -/
theorem evolve_mem (pusher : String) (s : Sources) (garbage : Mem) (g : Grids) :
    c.evolveM pusher s garbage g = c.evolve pusher s g := by
  unfold evolveM evolve
  by_cases h5 : pusher = "ab5"
  · subst h5
    obtain ⟨M, ha, hq, hv, -⟩ := c.alloc_ab5 garbage
    have L := (c.loop_mem .ab5 s _ viewAb5 (fun k m g => c.sliceAb5_mem s k m g) M g hq c.nXi).1
    rw [hv] at L
    rw [ha]
    simp only [if_true, FArr.ofList, ← L]
    cases c.loopM _ (M, g) c.nXi <;> rfl
  by_cases h4 : pusher = "rk4"
  · subst h4
    obtain ⟨M, ha, hq, hv, -⟩ := c.alloc_rk4 garbage
    have L := (c.loop_mem .rk4 s _ viewRk4 (fun k m g => c.sliceRk4_mem s k m g) M g hq c.nXi).1
    rw [hv] at L
    rw [ha]
    simp only [h5, if_false, if_true, List.map_cons, List.map_nil, FArr.ofList, ← L]
    cases c.loopM _ (M, g) c.nXi <;> rfl
  · simp only [h5, h4, if_false]
    rfl

/-- **C193.**  The fields calculated with arrays that are updated in place are those of the calculation in which every intermediate
value has its own name: no array is overwritten while its old contents are still needed, none is passed in the place of another, and
nothing is read that was in the memory before. -/
theorem calculateField_mem (pusher : String) (L : ℕ → ℕ → ℝ) (B : List (List (Deposition.Part ℝ))) (e0 cc : ℝ) (garbage : Mem) (f : Fld) :
    c.calculateFieldM pusher L B e0 cc garbage = c.calculateField pusher L B e0 cc f := by
  unfold calculateFieldM calculateField calculate
  simp only [c.evolve_mem]
  cases c.beamField B <;> rfl

/-- **C193.**  All arrays of the particles are different ones, and they hold what the pushers expect at the start: particles at rest at
their initial radii, histories and fields of zero. -/
theorem allocate_distinct (pusher : String) (garbage : Mem) :
    let p := ((c.allocate pusher).run ⟨0, garbage⟩).1
    let m := ((c.allocate pusher).run ⟨0, garbage⟩).2.mem
    ([p.r, p.pr, p.pz, p.gamma, p.q] ++ p.fields ++ p.dr ++ p.dpr ++ (p.rk4Flds.drop 1).flatten).Nodup ∧
      p.rk4Flds.take 1 = (if pusher = "rk4" then [p.fields] else []) ∧
      (∀ i, m i p.r = c.r0 i ∧ m i p.pr = 0 ∧ m i p.pz = 0 ∧ m i p.gamma = 1 ∧ m i p.q = c.q i ∧
        ∀ a ∈ p.fields ++ p.dr ++ p.dpr ++ p.rk4Flds.flatten, m i a = 0) := by
  by_cases h5 : pusher = "ab5"
  · subst h5
    obtain ⟨M, ha, hq, -, hM⟩ := c.alloc_ab5 garbage
    rw [ha]
    refine ⟨by simp, rfl, fun i => ⟨(hM i).1, (hM i).2.1, (hM i).2.2.1, (hM i).2.2.2.1, hq i, fun a h => (hM i).2.2.2.2 a ?_ ?_⟩⟩
    all_goals
      simp only [List.cons_append, List.nil_append, List.flatten_nil, List.append_nil, List.mem_cons, List.not_mem_nil, or_false] at h
      omega
  by_cases h4 : pusher = "rk4"
  · subst h4
    obtain ⟨M, ha, hq, -, hM⟩ := c.alloc_rk4 garbage
    rw [ha]
    refine ⟨by simp, rfl, fun i => ⟨(hM i).1, (hM i).2.1, (hM i).2.2.1, (hM i).2.2.2.1, hq i, fun a h => (hM i).2.2.2.2 a ?_ ?_⟩⟩
    all_goals
      simp only [List.cons_append, List.nil_append, List.flatten_cons, List.flatten_nil, List.append_nil, List.mem_cons, List.not_mem_nil,
        or_false] at h
      omega
  · have ha : ∃ M, (c.allocate pusher).run ⟨0, garbage⟩ = (⟨0, 1, 2, 3, 4, [5, 6, 7, 8, 9, 10, 11], [], [], []⟩, ⟨12, M⟩) ∧
        ∀ i, M i 0 = c.r0 i ∧ M i 1 = 0 ∧ M i 2 = 0 ∧ M i 3 = 1 ∧ M i 4 = c.q i ∧ ∀ a, 5 ≤ a → a < 12 → M i a = 0 := by
      unfold allocate
      simp only [h5, h4, if_false]
      refine ⟨_, rfl, fun i => ⟨?_, ?_, ?_, ?_, ?_, fun a h1 h2 => ?_⟩⟩
      all_goals try (simp [Mem.write, Row.set]; done)
      interval_cases a <;> simp [Mem.write, Row.set]
    obtain ⟨M, ha, hM⟩ := ha
    rw [ha]
    refine ⟨by simp, by simp [h4], fun i => ⟨(hM i).1, (hM i).2.1, (hM i).2.2.1, (hM i).2.2.2.1, (hM i).2.2.2.2.1,
      fun a h => (hM i).2.2.2.2.2 a ?_ ?_⟩⟩
    all_goals
      simp only [List.flatten_nil, List.append_nil, List.mem_cons, List.not_mem_nil, or_false] at h
      omega

/-- A case where the calculation ends, with either pusher. -/
example (garbage : Mem) (pusher : String) (hp : pusher = "ab5" ∨ pusher = "rk4") :
    ∃ r, demoQS.calculateFieldM pusher (fun k _ => if k = 1 then 1 else 0) [[⟨0, 1, 1⟩]] 1 1 garbage = .ok r := by
  obtain ⟨r, hr⟩ := total (c := demoQS) (by norm_num [demoQS]) (by norm_num [demoQS])
    (by intro i _; show (0 : ℝ) ≤ if i = 0 then 1 else 2; split_ifs <;> norm_num) pusher hp (.inr rfl)
    (fun k _ => if k = 1 then 1 else 0) [[⟨0, 1, 1⟩]] 1 1 ⟨fun _ _ => 0, fun _ _ => 0, fun _ _ => 0, fun _ _ => 0, fun _ _ => 0⟩
  exact ⟨r, (calculateField_mem demoQS _ _ _ _ _ _ _).trans hr⟩

end WakeT.Plasma.QS
