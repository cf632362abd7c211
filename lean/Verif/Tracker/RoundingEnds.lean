import Verif.Tracker.RoundingTiny
import Verif.Tracker.RoundingSchedule
import Mathlib.Algebra.Order.BigOperators.Group.Finset
import Mathlib.Algebra.Order.Floor.Semiring

/-!
# Final times for which tracking ends

The tracking loop with rounded times ends if no step is lost in rounding and the cut of the last step never leaves a tiny one.  With numbers of
64 bits and casts to numbers of 32 bits this is so if the final time is itself a number of 32 bits, or not close to the middle between two of
them and to a power of two.
-/

set_option linter.unusedSectionVars false

namespace WakeT.Tracker.Rounded

open WakeT.Base (ieee_exact ieee_eq)

section
variable {K F σ : Type*} [Field K] [LinearOrder K] [IsStrictOrderedRing K] [FloorSemiring K] [LinearOrder F]
variable {rnd : K → K} {ε δ L : K} {c : Cfg K F σ}

/-- What is assumed of the times: they are small compared with the inverse of the error of rounding, and the last step is not tiny. -/
private structure Good (rnd : K → K) (ε δ L : K) (c : Cfg K F σ) : Prop where
  rounds : ∀ x, |rnd x - x| ≤ ε * |x|
  pos : 0 < δ
  e0 : 0 ≤ ε
  e1 : ε ≤ 1 / 4
  len : 0 ≤ L
  fine : 4 * ε * L ≤ δ
  bounded : c.Bounded δ
  diag : δ ≤ rnd (c.tFinal / c.nDiag)
  below : ∀ x, c.f32 x ≤ c.f32 c.tFinal → x ≤ L
  cut : ∀ x, c.f32 x < c.f32 c.tFinal → δ ≤ rnd (c.tFinal - x)

/-- The bounds of the clock and of the step of an object. -/
private def Ok (δ L : K) (s : St K σ) (j : ℕ) : Prop := -L ≤ s.t j ∧ s.t j ≤ 2 * L ∧ δ ≤ s.dt j

private theorem moves (g : Good rnd ε δ L c) {t dt : K} (ht : -L ≤ t) (hd : δ ≤ dt) (hl : rnd (t + dt) ≤ L) : t + δ / 2 ≤ rnd (t + dt) := by
  have h := g.rounds (t + dt)
  have f := g.fine
  have p := g.pos
  have h1 := (abs_le.mp h).1
  have l := g.len
  rcases le_or_gt 0 (t + dt) with x0 | x0
  · rw [abs_of_nonneg x0] at h1
    have a : ε * (t + dt) ≤ 1 / 4 * (t + dt) := mul_le_mul_of_nonneg_right g.e1 x0
    have b : t + dt ≤ 2 * L := by linarith
    have d := mul_le_mul_of_nonneg_left b g.e0
    have : ε * (2 * L) = 4 * ε * L / 2 := by ring
    linarith
  · rw [abs_of_neg x0] at h1
    have b : -(t + dt) ≤ L := by linarith
    have d := mul_le_mul_of_nonneg_left b g.e0
    have : ε * L = 4 * ε * L / 4 := by ring
    linarith

private theorem forced (g : Good rnd ε δ L c) {t tn : K} (h1 : -L ≤ t) (h2 : t ≤ 2 * L) (h3 : 0 ≤ tn) (h4 : tn ≤ L) :
    -L ≤ rnd (t + rnd (tn - t)) ∧ rnd (t + rnd (tn - t)) ≤ 2 * L := by
  have l := g.len
  have a := g.rounds (tn - t)
  have a1 : |tn - t| ≤ 2 * L := abs_le.mpr ⟨by linarith, by linarith⟩
  have a2 : ε * |tn - t| ≤ 1 / 4 * (2 * L) := mul_le_mul g.e1 a1 (abs_nonneg _) (by norm_num)
  have a3 := abs_le.mp (a.trans a2)
  have b := g.rounds (t + rnd (tn - t))
  have b1 : |t + rnd (tn - t)| ≤ 3 / 2 * L := abs_le.mpr ⟨by linarith, by linarith⟩
  have b2 : ε * |t + rnd (tn - t)| ≤ 1 / 4 * (3 / 2 * L) := mul_le_mul g.e1 b1 (abs_nonneg _) (by norm_num)
  have b3 := abs_le.mp (b.trans b2)
  constructor <;> linarith

private theorem evolve_other (b : Bool) (s : St K σ) {i : ℕ} (x y z : K) {j : ℕ} (hj : j ≠ i) :
    (evolveBunch rnd c b s i x y z).t j = s.t j ∧ (evolveBunch rnd c b s i x y z).dt j = s.dt j := by
  refine ⟨?_, ?_⟩
  · simp only [evolveBunch, Function.update_of_ne hj]
  · simp only [evolveBunch]
    cases c.dtBunch i <;> dsimp only <;> split_ifs <;> simp only [Function.update_of_ne hj]

private theorem evolve_own (g : Good rnd ε δ L c) (b : Bool) {s : St K σ} {i : ℕ} (x : K) {y : K} (z : K) (hy : c.f32 y ≤ c.f32 c.tFinal)
    (hd : δ ≤ s.dt i) : (evolveBunch rnd c b s i x y z).t i = rnd (s.t i + z) ∧ δ ≤ (evolveBunch rnd c b s i x y z).dt i := by
  refine ⟨by simp only [evolveBunch, Function.update_self], ?_⟩
  simp only [evolveBunch]
  cases c.dtBunch i <;> dsimp only <;> split_ifs with h
  · rw [Function.update_self]
    exact g.cut y (lt_of_le_of_ne hy h.1)
  · rw [Function.update_self]
    exact g.bounded.auto _ _
  · rw [Function.update_self]
    exact g.cut y (lt_of_le_of_ne hy h.1)
  · exact hd

private theorem pushAll_ok (g : Good rnd ε δ L c) {tn : K} (h3 : 0 ≤ tn) (h4 : c.f32 tn ≤ c.f32 c.tFinal) (s : St K σ) (n : ℕ) :
    (∀ j, n ≤ j → (pushAll rnd c tn n s).t j = s.t j ∧ (pushAll rnd c tn n s).dt j = s.dt j) ∧
      ∀ j, Ok δ L s j → Ok δ L (pushAll rnd c tn n s) j := by
  induction n with
  | zero => exact ⟨fun _ _ => ⟨rfl, rfl⟩, fun _ h => h⟩
  | succ n ih =>
    obtain ⟨k, o⟩ := ih
    have other := fun j (hj : j ≠ n) => evolve_other (rnd := rnd) (c := c) true (pushAll rnd c tn n s) ((pushAll rnd c tn n s).t n) tn
      (rnd (tn - (pushAll rnd c tn n s).t n)) hj
    refine ⟨fun j hj => ?_, fun j h => ?_⟩
    · obtain ⟨a, b⟩ := other j (by omega)
      obtain ⟨a', b'⟩ := k j (by omega)
      exact ⟨a.trans a', b.trans b'⟩
    · have h := o j h
      by_cases e : j = n
      · subst e
        obtain ⟨a, b⟩ := evolve_own g true ((pushAll rnd c tn j s).t j) (rnd (tn - (pushAll rnd c tn j s).t j)) h4 h.2.2
        obtain ⟨p, q⟩ := forced g h.1 h.2.1 h3 (g.below tn h4)
        exact ⟨p.trans_eq a.symm, (le_of_eq a).trans q, b⟩
      · obtain ⟨a, b⟩ := other j e
        exact ⟨h.1.trans_eq a.symm, (le_of_eq a).trans h.2.1, h.2.2.trans_eq b.symm⟩

/-- The number of steps of length `δ / 2` from `t` to `L`. -/
private def left (δ L t : K) : ℕ := ⌊(L - t) / (δ / 2)⌋₊

private theorem left_lt (hδ : 0 < δ) {t t' : K} (h : t + δ / 2 ≤ t') (hl : t' ≤ L) : left δ L t' + 1 ≤ left δ L t := by
  have d2 : 0 < δ / 2 := by linarith
  unfold left
  rw [← Nat.floor_add_one (div_nonneg (by linarith) d2.le)]
  refine Nat.floor_le_floor ?_
  rw [div_add_one d2.ne', div_le_div_iff_of_pos_right d2]
  linarith

private theorem left_le (hδ : 0 < δ) {t : K} (h : -L ≤ t) : left δ L t ≤ ⌊4 * L / δ⌋₊ := by
  have d2 : 0 < δ / 2 := by linarith
  unfold left
  refine Nat.floor_le_floor ?_
  rw [div_le_div_iff₀ d2 hδ]
  have := mul_le_mul_of_nonneg_right (show L - t ≤ 2 * L by linarith) hδ.le
  linarith

/-- What decreases with each iteration. -/
private def todo (δ L : K) (c : Cfg K F σ) (s : St K σ) : ℕ :=
  left δ L (s.t c.iDiag) * (c.iDiag * ⌊4 * L / δ⌋₊ + 1) + ∑ j ∈ Finset.range c.iDiag, left δ L (s.t j)

private structure Inv (δ L : K) (c : Cfg K F σ) (s : St K σ) : Prop where
  ok : ∀ j, j ≤ c.iDiag → Ok δ L s j
  clock : 0 ≤ s.t c.iDiag

private theorem sum_le (hδ : 0 < δ) {s : St K σ} (h : Inv δ L c s) :
    ∑ j ∈ Finset.range c.iDiag, left δ L (s.t j) ≤ c.iDiag * ⌊4 * L / δ⌋₊ := by
  calc _ ≤ ∑ _j ∈ Finset.range c.iDiag, ⌊4 * L / δ⌋₊ :=
        Finset.sum_le_sum fun j hj => left_le hδ (h.ok j (Finset.mem_range.mp hj).le).1
    _ = _ := by rw [Finset.sum_const, Finset.card_range, smul_eq_mul]

private theorem inv_step (g : Good rnd ε δ L c) (hD : 0 < c.nDiag) {s s' : St K σ} (h : Inv δ L c s) (hs : step rnd c s = some s') :
    Inv δ L c s' ∧ todo δ L c s' < todo δ L c s := by
  simp only [step] at hs
  generalize hi : argmin (fun i => c.f32 (rnd (s.t i + s.dt i))) (c.nObj - 1) = i at hs
  split at hs
  · cases hs
  rename_i hle
  have hle := not_lt.mp hle
  cases hs
  have hin : i ≤ c.iDiag := by
    have := argmin_le (fun i => c.f32 (rnd (s.t i + s.dt i))) (c.nObj - 1)
    rw [hi] at this
    unfold Cfg.nObj at this
    unfold Cfg.iDiag
    split_ifs at this
    omega
  have l := g.len
  have p := g.pos
  obtain ⟨o1, o2, o3⟩ := h.ok i hin
  have tl := g.below _ hle
  have mv := moves g o1 o3 tl
  have lf := left_lt g.pos mv tl
  -- an object other than the diagnostics
  have small : ∀ s1 : St K σ, i < c.iDiag → s1.t = Function.update s.t i (rnd (s.t i + s.dt i)) → (∀ j, j ≠ i → s1.dt j = s.dt j) →
      δ ≤ s1.dt i → Inv δ L c s1 ∧ todo δ L c s1 < todo δ L c s := by
    intro s1 hi1 ht hd1 hd2
    have tj : ∀ j, j ≠ i → s1.t j = s.t j := fun j hj => by rw [ht, Function.update_of_ne hj]
    have ti : s1.t i = rnd (s.t i + s.dt i) := by rw [ht, Function.update_self]
    refine ⟨⟨fun j hj => ?_, ?_⟩, ?_⟩
    · by_cases e : j = i
      · subst e
        refine ⟨?_, ?_, hd2⟩
        · rw [ti]; linarith
        · rw [ti]; linarith
      · obtain ⟨a, b, d⟩ := h.ok j hj
        exact ⟨a.trans_eq (tj j e).symm, (le_of_eq (tj j e)).trans b, d.trans_eq (hd1 j e).symm⟩
    · rw [tj _ (by omega)]
      exact h.clock
    · unfold todo
      rw [tj _ (show c.iDiag ≠ i by omega)]
      refine Nat.add_lt_add_left ?_ _
      refine Finset.sum_lt_sum (fun j hj => ?_) ⟨i, Finset.mem_range.mpr hi1, ?_⟩
      · by_cases e : j = i
        · rw [e, ti]; omega
        · rw [tj j e]
      · rw [ti]; omega
  unfold advance
  by_cases h1 : i < c.nBunch
  · simp only [if_pos h1]
    have own := evolve_own g false (s.t i) (s.dt i) hle o3
    exact small _ (by unfold Cfg.iDiag; omega) rfl (fun j hj => (evolve_other false s _ _ _ hj).2) own.2
  · simp only [if_neg h1]
    by_cases h2 : i < c.nBunch + c.nField
    · simp only [if_pos h2]
      exact small _ h2 rfl (fun _ _ => rfl) o3
    · simp only [if_neg h2]
      obtain rfl : i = c.iDiag := by unfold Cfg.iDiag at hin ⊢; omega
      have n0 : 0 ≤ rnd (s.t c.iDiag + s.dt c.iDiag) := by linarith [h.clock]
      generalize hs1 : (if c.pushBeforeDiags = true then pushAll rnd c (rnd (s.t c.iDiag + s.dt c.iDiag)) c.nBunch s else s) = s1
      have keep : (s1.t c.iDiag = s.t c.iDiag ∧ s1.dt c.iDiag = s.dt c.iDiag) ∧ ∀ j, Ok δ L s j → Ok δ L s1 j := by
        rw [← hs1]
        split_ifs
        · have := pushAll_ok g n0 hle s c.nBunch
          exact ⟨this.1 _ (by unfold Cfg.iDiag; omega), this.2⟩
        · exact ⟨⟨rfl, rfl⟩, fun _ h => h⟩
      obtain ⟨⟨a, b⟩, o⟩ := keep
      obtain ⟨s2, hs2⟩ : ∃ s2 : St K σ, s2 = { generateDiagnostics s1 (rnd (s.t c.iDiag + s.dt c.iDiag)) with
        t := Function.update (generateDiagnostics s1 (rnd (s.t c.iDiag + s.dt c.iDiag))).t c.iDiag
          (rnd ((generateDiagnostics s1 (rnd (s.t c.iDiag + s.dt c.iDiag))).t c.iDiag + s.dt c.iDiag)) } := ⟨_, rfl⟩
      have td : s2.t c.iDiag = rnd (s.t c.iDiag + s.dt c.iDiag) := by
        rw [hs2]
        show Function.update _ _ _ _ = _
        rw [Function.update_self]
        show rnd (s1.t c.iDiag + _) = _
        rw [a]
      have tj : ∀ j, j ≠ c.iDiag → s2.t j = s1.t j := by
        intro j hj
        rw [hs2]
        show Function.update _ _ _ _ = _
        rw [Function.update_of_ne hj]
        rfl
      have dj : s2.dt = s1.dt := by rw [hs2]; rfl
      rw [← hs2]
      have inv : Inv δ L c s2 := by
        refine ⟨fun j hj => ?_, ?_⟩
        · obtain ⟨x, y, z⟩ := o j (h.ok j hj)
          by_cases e : j = c.iDiag
          · subst e
            refine ⟨?_, ?_, ?_⟩
            · rw [td]; linarith
            · rw [td]; linarith
            · rw [dj]; exact z
          · exact ⟨x.trans_eq (tj j e).symm, (le_of_eq (tj j e)).trans y, by rw [dj]; exact z⟩
        · rw [td]
          exact n0
      refine ⟨inv, ?_⟩
      have sl := sum_le g.pos inv
      unfold todo
      rw [td]
      have := Nat.mul_le_mul_right (c.iDiag * ⌊4 * L / δ⌋₊ + 1) lf
      rw [add_mul, one_mul] at this
      omega

/-- Tracking with rounded times ends, if all steps are at least `δ`, if `L` bounds the times that are not beyond the end after the cast, if the
rounding of such times is much less than `δ` and if the cut of the last step leaves at least `δ`. -/
theorem ends_rounded (c : Cfg K F σ) (w : σ) (hr : ∀ x, |rnd x - x| ≤ ε * |x|) (e0 : 0 ≤ ε) (e1 : ε ≤ 1 / 4) (hδ : 0 < δ) (hL : 0 ≤ L)
    (hf : 4 * ε * L ≤ δ) (hb : c.Bounded δ) (hn : 0 < c.nDiag) (hd : δ ≤ rnd (c.tFinal / c.nDiag)) (below : ∀ x, c.f32 x ≤ c.f32 c.tFinal → x ≤ L)
    (cut : ∀ x, c.f32 x < c.f32 c.tFinal → δ ≤ rnd (c.tFinal - x)) :
    ∃ s, doTracking rnd c ((⌊4 * L / δ⌋₊ + 1) * ((c.nBunch + c.nField) * ⌊4 * L / δ⌋₊ + 1)) w = .returned s := by
  have g : Good rnd ε δ L c := ⟨hr, hδ, e0, e1, hL, hf, hb, hd, below, cut⟩
  have t0 : ∀ j, (start rnd c w).t j = 0 := fun j => by simp [start, generateDiagnostics, initFields_t, blank]
  have inv : Inv δ L c (start rnd c w) := by
    refine ⟨fun j hj => ⟨?_, ?_, ?_⟩, (t0 _).ge⟩
    · rw [t0]; linarith
    · rw [t0]; linarith
    · show δ ≤ dt0 rnd c _ j
      unfold dt0
      split_ifs with h
      · exact dt0_low hb _ (by unfold Cfg.nObj; omega)
      · exact hd
  have key : ∀ f (s : St K σ), Inv δ L c s → todo δ L c s < f → ∃ r, run rnd c f s = some r := by
    intro f
    induction f with
    | zero => intro s _ h; omega
    | succ f ih =>
      intro s hs hf
      simp only [run]
      cases h : step rnd c s with
      | none => exact ⟨s, rfl⟩
      | some s' =>
        obtain ⟨a, b⟩ := inv_step g hn hs h
        exact ih s' a (by omega)
  have lt : todo δ L c (start rnd c w) < (⌊4 * L / δ⌋₊ + 1) * (c.iDiag * ⌊4 * L / δ⌋₊ + 1) := by
    have a := sum_le hδ inv
    have b := Nat.mul_le_mul_right (c.iDiag * ⌊4 * L / δ⌋₊ + 1) (left_le hδ (inv.ok c.iDiag le_rfl).1)
    unfold todo
    rw [add_mul, one_mul]
    omega
  obtain ⟨r, hr⟩ := key _ _ inv lt
  refine ⟨r, ?_⟩
  have h0 : ¬ c.nDiag = 0 := by omega
  have h1 : ¬ c.nObj = 0 := by unfold Cfg.nObj; simp [hn]
  unfold Cfg.iDiag at hr
  simp only [doTracking, h0, h1, false_and, if_false, hr]

/-! ### The end of the bunches -/

/-- A bunch that has been pushed is at the end, or its next step is not beyond it. -/
private def Arr (rnd : K → K) (c : Cfg K F σ) (ρ : K) (s : St K σ) (i : ℕ) : Prop :=
  pushesOf i s.log = [] ∨ |s.t i - c.tFinal| ≤ ρ ∨ c.f32 (rnd (s.t i + s.dt i)) ≤ c.f32 c.tFinal

private theorem forced_near (g : Good rnd ε δ L c) {t tn : K} (h1 : -L ≤ t) (h2 : t ≤ 2 * L) (h3 : 0 ≤ tn) (h4 : tn ≤ L) :
    |rnd (t + rnd (tn - t)) - tn| ≤ 4 * ε * L := by
  have l := g.len
  have e := g.e0
  have a := g.rounds (tn - t)
  have a1 : |tn - t| ≤ 2 * L := abs_le.mpr ⟨by linarith, by linarith⟩
  have a2 := mul_le_mul_of_nonneg_left a1 e
  have a2' : ε * |tn - t| ≤ 1 / 4 * (2 * L) := mul_le_mul g.e1 a1 (abs_nonneg _) (by norm_num)
  have a3 := abs_le.mp (a.trans a2)
  have a3' := abs_le.mp (a.trans a2')
  have b := g.rounds (t + rnd (tn - t))
  have b1 : |t + rnd (tn - t)| ≤ 3 / 2 * L := abs_le.mpr ⟨by linarith, by linarith⟩
  have b3 := abs_le.mp (b.trans (mul_le_mul_of_nonneg_left b1 e))
  have el : 0 ≤ ε * L := mul_nonneg e l
  exact abs_le.mpr ⟨by linarith, by linarith⟩

/-- The next time after a step that was cut, or did not need to be. -/
private theorem next_in (g : Good rnd ε δ L c) (hT : 0 ≤ c.tFinal) {t tn d : K} (hn : |t - tn| ≤ 4 * ε * L) (n1 : -L ≤ tn) (n2 : tn ≤ L)
    (hd : rnd (tn + d) ≤ c.tFinal ∨ d = rnd (c.tFinal - tn)) : rnd (t + d) ≤ c.tFinal + 16 * ε * L := by
  have l := g.len
  have e := g.e0
  have el : 0 ≤ ε * L := mul_nonneg e l
  have tl := g.below c.tFinal le_rfl
  have n3 := abs_le.mp hn
  have eq : ε * L ≤ 1 / 4 * L := mul_le_mul_of_nonneg_right g.e1 l
  have up : t + d ≤ c.tFinal + 6 * (ε * L) := by
    rcases hd with h | h
    · have b := (abs_le.mp (g.rounds (tn + d))).1
      rcases le_or_gt 0 (tn + d) with y | y
      · rw [abs_of_nonneg y] at b
        have b1 : ε * (tn + d) ≤ 1 / 4 * (tn + d) := mul_le_mul_of_nonneg_right g.e1 y
        have b2 := mul_le_mul_of_nonneg_left (show tn + d ≤ 2 * L by linarith) e
        linarith
      · linarith
    · have b := (abs_le.mp (g.rounds (c.tFinal - tn))).2
      have b1 : |c.tFinal - tn| ≤ 2 * L := abs_le.mpr ⟨by linarith, by linarith⟩
      have b2 := mul_le_mul_of_nonneg_left b1 e
      linarith
  have r := (abs_le.mp (g.rounds (t + d))).2
  rcases le_or_gt 0 (t + d) with y | y
  · rw [abs_of_nonneg y] at r
    have b2 := mul_le_mul_of_nonneg_left (show t + d ≤ 3 * L by linarith) e
    linarith
  · rw [abs_of_neg y] at r
    have : ε * -(t + d) ≤ 1 / 4 * -(t + d) := mul_le_mul_of_nonneg_right g.e1 (by linarith)
    linarith

variable {ν : K}

private theorem arr_own (g : Good rnd ε δ L c) (hT : 0 ≤ c.tFinal) (margin : ∀ x, x ≤ c.tFinal + 16 * ε * L → c.f32 x ≤ c.f32 c.tFinal)
    (same : ∀ x, c.f32 x = c.f32 c.tFinal → |x - c.tFinal| ≤ ν) (b : Bool) {s : St K σ} {i : ℕ} (x : K) {tn : K} (z : K)
    (near : |rnd (s.t i + z) - tn| ≤ 4 * ε * L) (n1 : -L ≤ tn) (n2 : tn ≤ L) :
    Arr rnd c (ν + 4 * ε * L) (evolveBunch rnd c b s i x tn z) i := by
  have ht : (evolveBunch rnd c b s i x tn z).t i = rnd (s.t i + z) := by simp only [evolveBunch, Function.update_self]
  by_cases e : c.f32 tn = c.f32 c.tFinal
  · refine Or.inr (Or.inl ?_)
    rw [ht]
    have h1 := abs_le.mp (same tn e)
    have h2 := abs_le.mp near
    exact abs_le.mpr ⟨by linarith, by linarith⟩
  · refine Or.inr (Or.inr (margin _ ?_))
    rw [ht]
    refine next_in g hT near n1 n2 ?_
    simp only [evolveBunch]
    cases c.dtBunch i <;> dsimp only <;> split_ifs with h
    · exact Or.inr (Function.update_self _ _ _)
    · exact Or.inl (not_lt.mp fun hh => h ⟨e, hh⟩)
    · exact Or.inr (Function.update_self _ _ _)
    · exact Or.inl (not_lt.mp fun hh => h ⟨e, hh⟩)

private theorem arr_other {ρ : K} (b : Bool) {s : St K σ} {i : ℕ} (x y z : K) {j : ℕ} (hj : j ≠ i) (h : Arr rnd c ρ s j) :
    Arr rnd c ρ (evolveBunch rnd c b s i x y z) j := by
  obtain ⟨e1, e2⟩ := evolve_other (rnd := rnd) (c := c) b s x y z hj
  have e3 : pushesOf j (evolveBunch rnd c b s i x y z).log = pushesOf j s.log := by
    simp only [evolveBunch, pushesOf_append, pushesOf_push, if_neg (Ne.symm hj), List.append_nil]
  unfold Arr
  rw [e1, e2, e3]
  exact h

private theorem arr_pushAll (g : Good rnd ε δ L c) (hT : 0 ≤ c.tFinal) (margin : ∀ x, x ≤ c.tFinal + 16 * ε * L → c.f32 x ≤ c.f32 c.tFinal)
    (same : ∀ x, c.f32 x = c.f32 c.tFinal → |x - c.tFinal| ≤ ν) {tn : K} (h3 : 0 ≤ tn) (h4 : c.f32 tn ≤ c.f32 c.tFinal) {s : St K σ}
    (ok : ∀ j, j < c.nBunch → Ok δ L s j) (h : ∀ j, j < c.nBunch → Arr rnd c (ν + 4 * ε * L) s j) :
    ∀ n ≤ c.nBunch, ∀ j, j < c.nBunch → Arr rnd c (ν + 4 * ε * L) (pushAll rnd c tn n s) j
  | 0, _, j, hj => h j hj
  | n + 1, hn, j, hj => by
    by_cases e : j = n
    · subst e
      have o := (pushAll_ok g h3 h4 s j).2 j (ok j hj)
      have l := g.len
      exact arr_own g hT margin same true _ _ (forced_near g o.1 o.2.1 h3 (g.below tn h4)) (by linarith) (g.below tn h4)
    · exact arr_other true _ _ _ e (arr_pushAll g hT margin same h3 h4 ok h n (by omega) j hj)

private theorem arr_step (g : Good rnd ε δ L c) (hT : 0 ≤ c.tFinal) (margin : ∀ x, x ≤ c.tFinal + 16 * ε * L → c.f32 x ≤ c.f32 c.tFinal)
    (same : ∀ x, c.f32 x = c.f32 c.tFinal → |x - c.tFinal| ≤ ν) (hD : 0 < c.nDiag) {s s' : St K σ} (inv : Inv δ L c s)
    (h : ∀ j, j < c.nBunch → Arr rnd c (ν + 4 * ε * L) s j) (hs : step rnd c s = some s') :
    ∀ j, j < c.nBunch → Arr rnd c (ν + 4 * ε * L) s' j := by
  simp only [step] at hs
  generalize hi : argmin (fun i => c.f32 (rnd (s.t i + s.dt i))) (c.nObj - 1) = i at hs
  split at hs
  · cases hs
  rename_i hle
  have hle := not_lt.mp hle
  cases hs
  have hin : i ≤ c.iDiag := by
    have := argmin_le (fun i => c.f32 (rnd (s.t i + s.dt i))) (c.nObj - 1)
    rw [hi] at this
    unfold Cfg.nObj at this
    unfold Cfg.iDiag
    split_ifs at this
    omega
  have l := g.len
  have p := g.pos
  obtain ⟨o1, o2, o3⟩ := inv.ok i hin
  have tl := g.below _ hle
  have mv := moves g o1 o3 tl
  intro j hj
  unfold advance
  by_cases h1 : i < c.nBunch
  · simp only [if_pos h1]
    by_cases e : j = i
    · subst e
      refine arr_own g hT margin same false _ _ ?_ (by linarith) tl
      rw [sub_self, abs_zero]
      exact mul_nonneg (mul_nonneg (by norm_num) g.e0) l
    · exact arr_other false _ _ _ e (h j hj)
  · simp only [if_neg h1]
    by_cases h2 : i < c.nBunch + c.nField
    · simp only [if_pos h2]
      have := h j hj
      unfold Arr at this ⊢
      simp only [pushesOf_append, pushesOf_update, List.append_nil, Function.update_of_ne (show j ≠ i by omega)]
      exact this
    · simp only [if_neg h2]
      obtain rfl : i = c.iDiag := by unfold Cfg.iDiag at hin ⊢; omega
      have n0 : 0 ≤ rnd (s.t c.iDiag + s.dt c.iDiag) := by linarith [inv.clock]
      generalize hs1 : (if c.pushBeforeDiags = true then pushAll rnd c (rnd (s.t c.iDiag + s.dt c.iDiag)) c.nBunch s else s) = s1
      have keep : Arr rnd c (ν + 4 * ε * L) s1 j := by
        rw [← hs1]
        split_ifs
        · exact arr_pushAll g hT margin same n0 hle (fun j hj => inv.ok j (by unfold Cfg.iDiag; omega)) h _ le_rfl j hj
        · exact h j hj
      unfold Arr at keep ⊢
      simp only [generateDiagnostics, pushesOf_append, pushesOf_diag, List.append_nil,
        Function.update_of_ne (show j ≠ c.iDiag by unfold Cfg.iDiag; omega)]
      exact keep

private theorem inv_start (g : Good rnd ε δ L c) (w : σ) : Inv δ L c (start rnd c w) := by
  have l := g.len
  have t0 : ∀ j, (start rnd c w).t j = 0 := fun j => by simp [start, generateDiagnostics, initFields_t, blank]
  refine ⟨fun j hj => ⟨?_, ?_, ?_⟩, (t0 _).ge⟩
  · rw [t0]; linarith
  · rw [t0]; linarith
  · show δ ≤ dt0 rnd c _ j
    unfold dt0
    split_ifs with h
    · exact dt0_low g.bounded _ (by unfold Cfg.nObj; omega)
    · exact g.diag

private theorem arrives (g : Good rnd ε δ L c) (hT : 0 ≤ c.tFinal) (margin : ∀ x, x ≤ c.tFinal + 16 * ε * L → c.f32 x ≤ c.f32 c.tFinal)
    (same : ∀ x, c.f32 x = c.f32 c.tFinal → |x - c.tFinal| ≤ ν) {w : σ} {fuel : ℕ} {s : St K σ} (h : doTracking rnd c fuel w = .returned s) :
    ∀ i < c.nBunch, pushesOf i s.log ≠ [] → |s.t i - c.tFinal| ≤ ν + 4 * ε * L := by
  have past := (schedule_rounded c w fuel h).1
  unfold doTracking at h
  split_ifs at h with h1 h2 h3
  · split at h <;> cases h
  split at h
  · cases h
  rename_i s1 hrun
  cases h
  have hD : 0 < c.nDiag := Nat.pos_of_ne_zero h3
  have key : ∀ n (s0 : St K σ), Inv δ L c s0 → (∀ j, j < c.nBunch → Arr rnd c (ν + 4 * ε * L) s0 j) → run rnd c n s0 = some s →
      ∀ j, j < c.nBunch → Arr rnd c (ν + 4 * ε * L) s j := by
    intro n
    induction n with
    | zero => intro s0 _ _ h; cases h
    | succ n ih =>
      intro s0 hi hk h
      simp only [run] at h
      split at h
      · cases h
        exact hk
      · rename_i s' hs'
        exact ih s' (inv_step g hD hi hs').1 (arr_step g hT margin same hD hi hk hs') h
  have st : ∀ j, j < c.nBunch → Arr rnd c (ν + 4 * ε * L) (start rnd c w) j := fun j _ =>
    Or.inl (by simp [start, generateDiagnostics, initFields_log, blank, pushesOf_updates])
  intro i hi hp
  rcases key fuel _ (inv_start g w) st hrun i hi with h | h | h
  · exact absurd h hp
  · exact h
  · exact absurd (past i hi).2 (not_lt.mpr h)

private theorem log_evolve (b : Bool) (s : St K σ) (i : ℕ) (x y z : K) (j : ℕ) :
    pushesOf j (evolveBunch rnd c b s i x y z).log = pushesOf j s.log ++ if i = j then [(x, z)] else [] := by
  simp only [evolveBunch, pushesOf_append, pushesOf_push]

private theorem log_pushAll (tn : K) (s : St K σ) (j : ℕ) :
    ∀ n, j < n ∨ pushesOf j s.log ≠ [] → pushesOf j (pushAll rnd c tn n s).log ≠ []
  | 0, h => h.resolve_left (by omega)
  | n + 1, h => by
    show pushesOf j (evolveBunch rnd c true (pushAll rnd c tn n s) n _ tn _).log ≠ []
    rw [log_evolve]
    by_cases e : n = j
    · rw [if_pos e]
      simp
    · rw [if_neg e, List.append_nil]
      exact log_pushAll tn s j n (h.imp_left fun hj => by omega)

private theorem pushed (hp : c.pushBeforeDiags = true) {w : σ} {fuel : ℕ} {s : St K σ} (h : doTracking rnd c fuel w = .returned s)
    (hs : 2 ≤ s.snaps.length) : ∀ i < c.nBunch, pushesOf i s.log ≠ [] := by
  have one : ∀ s s' : St K σ, (2 ≤ s.snaps.length → ∀ i < c.nBunch, pushesOf i s.log ≠ []) → step rnd c s = some s' →
      2 ≤ s'.snaps.length → ∀ i < c.nBunch, pushesOf i s'.log ≠ [] := by
    intro s s' h hs
    simp only [step] at hs
    generalize argmin (fun i => c.f32 (rnd (s.t i + s.dt i))) (c.nObj - 1) = i at hs
    split at hs
    · cases hs
    cases hs
    unfold advance
    by_cases h1 : i < c.nBunch
    · simp only [if_pos h1]
      intro h2 j hj
      rw [log_evolve]
      simp [h h2 j hj]
    · simp only [if_neg h1]
      by_cases h2 : i < c.nBunch + c.nField
      · simp only [if_pos h2]
        intro h3 j hj
        rw [pushesOf_append, pushesOf_update, List.append_nil]
        exact h h3 j hj
      · simp only [if_neg h2, hp, if_true]
        intro _ j hj
        simp only [generateDiagnostics, pushesOf_append, pushesOf_diag, List.append_nil]
        exact log_pushAll _ s j _ (Or.inl hj)
  unfold doTracking at h
  split_ifs at h with h1 h2 h3
  · split at h <;> cases h
  split at h
  · cases h
  rename_i s1 hrun
  cases h
  have key : ∀ n (s0 : St K σ), (2 ≤ s0.snaps.length → ∀ i < c.nBunch, pushesOf i s0.log ≠ []) → run rnd c n s0 = some s →
      2 ≤ s.snaps.length → ∀ i < c.nBunch, pushesOf i s.log ≠ [] := by
    intro n
    induction n with
    | zero => intro s0 _ h; cases h
    | succ n ih =>
      intro s0 hk h
      simp only [run] at h
      split at h
      · cases h
        exact hk
      · rename_i s' hs'
        exact ih s' (one s0 s' hk hs') h
  refine key fuel _ (fun h => ?_) hrun hs
  simp [start, generateDiagnostics, initFields_snaps, blank] at h

end

/-! ### Numbers of 64 and 32 bits -/

/-- A number less than a quarter of a unit below a number of 32 bits is cast to it. -/
private theorem cast_near {n k : ℤ} (n1 : 2 ^ 23 ≤ n) (n2 : n < 2 ^ 24) {x : ℝ} (h1 : x < n * (2 : ℝ) ^ k)
    (h2 : n * (2 : ℝ) ^ k - x < (2 : ℝ) ^ k / 4) : Base.ieee 24 x = n * (2 : ℝ) ^ k := by
  have u : (0 : ℝ) < (2 : ℝ) ^ k := zpow_pos (by norm_num) _
  have p : ∀ j : ℕ, (2 : ℝ) ^ (k + j) = 2 ^ j * (2 : ℝ) ^ k := fun j => by rw [zpow_add₀ (by norm_num), zpow_natCast, mul_comm]
  rcases n1.lt_or_eq with n3 | rfl
  · have m : ((2 ^ 23 + 1 : ℤ) : ℝ) ≤ n := by exact_mod_cast n3
    have m' : (n : ℝ) ≤ ((2 ^ 24 : ℤ) : ℝ) := by exact_mod_cast n2.le
    have a := mul_le_mul_of_nonneg_right m u.le
    have a' := mul_le_mul_of_nonneg_right m' u.le
    push_cast at a a'
    have e : k + 23 + 1 - ((24 : ℕ) : ℤ) = k := by push_cast; ring
    have := ieee_eq (p := 24) (x := x) (e := k + 23) (n := n) (by rw [show k + 23 = k + (23 : ℕ) by norm_num, p]; linarith)
      (by rw [show k + 23 + 1 = k + (24 : ℕ) by push_cast; ring, p]; linarith)
      (by rw [e, abs_of_nonpos (by linarith)]; linarith)
    rw [this, e]
  · push_cast at h1 h2 ⊢
    have e : (2 : ℝ) ^ (k + 22 + 1 - ((24 : ℕ) : ℤ)) = (2 : ℝ) ^ k / 2 := by
      rw [show k + 22 + 1 - ((24 : ℕ) : ℤ) = k - 1 by push_cast; ring, zpow_sub_one₀ (by norm_num)]
      ring
    have := ieee_eq (p := 24) (x := x) (e := k + 22) (n := 2 ^ 24) (by rw [show k + 22 = k + (22 : ℕ) by norm_num, p]; linarith)
      (by rw [show k + 22 + 1 = k + (23 : ℕ) by push_cast; ring, p]; linarith)
      (by rw [e, abs_of_nonpos (by push_cast; linarith)]; push_cast; linarith)
    rw [this, e]
    push_cast
    ring

/-- With numbers of 64 bits and casts to numbers of 32 bits, tracking ends whenever the final time is a number of 32 bits and the steps are not
shorter than its part `2 ^ -50`. -/
theorem ends_double {σ : Type*} (c : Cfg ℝ ℝ σ) (w : σ) {n k : ℤ} (n1 : 2 ^ 23 ≤ n) (n2 : n < 2 ^ 24) (hT : c.tFinal = n * (2 : ℝ) ^ k)
    (h32 : c.f32 = Base.ieee 24) (hb : c.Bounded (c.tFinal / 2 ^ 50)) (hn : 0 < c.nDiag) :
    ∃ s, doTracking (Base.ieee 53) c ((2 ^ 53 + 1) * ((c.nBunch + c.nField) * 2 ^ 53 + 1)) w = .returned s := by
  have u : (0 : ℝ) < (2 : ℝ) ^ k := zpow_pos (by norm_num) _
  have m1 : (2 ^ 23 : ℝ) ≤ n := by exact_mod_cast n1
  have m2 : (n : ℝ) < 2 ^ 24 := by exact_mod_cast n2
  have T0 : 0 < c.tFinal := by rw [hT]; exact mul_pos (by linarith) u
  have p : ∀ j : ℕ, (2 : ℝ) ^ (k - j) = (2 : ℝ) ^ k / 2 ^ j := fun j => by rw [zpow_sub₀ (by norm_num), zpow_natCast]
  have na : |n| < 2 ^ 24 := by rw [abs_of_pos (by linarith)]; exact n2
  have ex : Base.ieee 53 (c.tFinal / 2 ^ 50) = c.tFinal / 2 ^ 50 := by
    have : c.tFinal / 2 ^ 50 = n * (2 : ℝ) ^ (k - (50 : ℕ)) := by rw [hT, p]; ring
    rw [this]
    exact ieee_exact (na.trans (by norm_num)) _
  have fT : Base.ieee 24 c.tFinal = c.tFinal := by rw [hT]; exact ieee_exact na _
  have f2 : Base.ieee 24 (2 * c.tFinal) = 2 * c.tFinal := by
    have : 2 * c.tFinal = n * (2 : ℝ) ^ (k + 1) := by rw [hT, zpow_add_one₀ (by norm_num)]; ring
    rw [this]
    exact ieee_exact na _
  have mono24 := Base.ieee_mono (p := 24) (by norm_num)
  have mono53 := Base.ieee_mono (p := 53) (by norm_num)
  have fl : ⌊4 * (2 * c.tFinal) / (c.tFinal / 2 ^ 50)⌋₊ = 2 ^ 53 := by
    have : 4 * (2 * c.tFinal) / (c.tFinal / 2 ^ 50) = ((2 ^ 53 : ℕ) : ℝ) := by
      rw [div_div_eq_mul_div, div_eq_iff T0.ne']
      push_cast
      ring
    rw [this, Nat.floor_natCast]
  have := ends_rounded (rnd := Base.ieee 53) (ε := 1 / 2 ^ 53) (δ := c.tFinal / 2 ^ 50) (L := 2 * c.tFinal) c w (Base.ieee_rounds 53)
    (by norm_num) (by norm_num) (by positivity) (by linarith) ?_ hb hn ?_ ?_ ?_
  · rw [fl] at this
    exact this
  · have : 4 * (1 / 2 ^ 53) * (2 * c.tFinal) = c.tFinal / 2 ^ 50 := by ring
    exact this.le
  · rw [← ex]
    exact mono53 (hb.diag hn)
  · intro x hx
    rw [h32, fT] at hx
    by_contra h
    have := mono24 (not_le.mp h).le
    rw [f2] at this
    linarith
  · intro x hx
    rw [h32, fT] at hx
    rw [← ex]
    refine mono53 ?_
    have lt : x < c.tFinal := by
      by_contra h
      have := mono24 (not_lt.mp h)
      rw [fT] at this
      linarith
    have : (2 : ℝ) ^ k / 4 ≤ c.tFinal - x := by
      by_contra h
      rw [hT] at lt h hx
      rw [cast_near n1 n2 lt (not_le.mp h)] at hx
      exact lt_irrefl _ hx
    refine le_trans ?_ this
    rw [hT]
    have := mul_le_mul_of_nonneg_right m2.le u.le
    rw [div_le_div_iff₀ (by norm_num) (by norm_num)]
    linarith

/-- A number less than half a unit above a number of 32 bits is cast to it. -/
private theorem cast_above {n k : ℤ} (n1 : 2 ^ 23 ≤ n) (n2 : n < 2 ^ 24) {x : ℝ} (h1 : n * (2 : ℝ) ^ k ≤ x)
    (h2 : x - n * (2 : ℝ) ^ k < (2 : ℝ) ^ k / 2) : Base.ieee 24 x = n * (2 : ℝ) ^ k := by
  have u : (0 : ℝ) < (2 : ℝ) ^ k := zpow_pos (by norm_num) _
  have p : ∀ j : ℕ, (2 : ℝ) ^ (k + j) = 2 ^ j * (2 : ℝ) ^ k := fun j => by rw [zpow_add₀ (by norm_num), zpow_natCast, mul_comm]
  have m : ((2 ^ 23 : ℤ) : ℝ) ≤ n := by exact_mod_cast n1
  have m' : (n : ℝ) ≤ ((2 ^ 24 - 1 : ℤ) : ℝ) := by exact_mod_cast (show n ≤ 2 ^ 24 - 1 by linarith)
  have a := mul_le_mul_of_nonneg_right m u.le
  have a' := mul_le_mul_of_nonneg_right m' u.le
  push_cast at a a'
  have e : k + 23 + 1 - ((24 : ℕ) : ℤ) = k := by push_cast; ring
  have := ieee_eq (p := 24) (x := x) (e := k + 23) (n := n) (by rw [show k + 23 = k + (23 : ℕ) by norm_num, p]; linarith)
    (by rw [show k + 23 + 1 = k + (24 : ℕ) by push_cast; ring, p]; linarith)
    (by rw [e, abs_of_nonneg (by linarith)]; linarith)
  rw [this, e]

/-- With numbers of 64 bits, a final time that is a number of 32 bits, steps not shorter than its part `2 ^ -50` and at most a hundred thousand
outputs, tracking returns one snapshot more than the number of outputs, at equal distances up to rounding. -/
theorem complete_double {σ : Type*} (c : Cfg ℝ ℝ σ) (w : σ) {n k : ℤ} (n1 : 2 ^ 23 ≤ n) (n2 : n < 2 ^ 24) (hT : c.tFinal = n * (2 : ℝ) ^ k)
    (h32 : c.f32 = Base.ieee 24) (hb : c.Bounded (c.tFinal / 2 ^ 50)) (hn : 0 < c.nDiag) (hN : c.nDiag ≤ 10 ^ 5) :
    ∃ fuel s, doTracking (Base.ieee 53) c fuel w = .returned s ∧ s.snaps.length = c.nDiag + 1 ∧ (diagTimes s.log).length = c.nDiag + 1 ∧
      ∀ (j : ℕ) (t : ℝ), (diagTimes s.log)[j]? = some t → |t - j * (c.tFinal / c.nDiag)| ≤ 2 * (c.nDiag + 1) * (1 / 2 ^ 53) * c.tFinal := by
  obtain ⟨s, hs⟩ := ends_double c w n1 n2 hT h32 hb hn
  have u : (0 : ℝ) < (2 : ℝ) ^ k := zpow_pos (by norm_num) _
  have m1 : (2 ^ 23 : ℝ) ≤ n := by exact_mod_cast n1
  have m2 : (n : ℝ) < 2 ^ 24 := by exact_mod_cast n2
  have T0 : 0 < c.tFinal := by rw [hT]; exact mul_pos (by linarith) u
  have N : (c.nDiag : ℝ) ≤ 10 ^ 5 := by exact_mod_cast hN
  have N0 : (0 : ℝ) < c.nDiag := by exact_mod_cast hn
  have N2 : (c.nDiag : ℝ) ^ 2 ≤ (10 ^ 5) ^ 2 := pow_le_pow_left₀ N0.le N 2
  have mono24 := Base.ieee_mono (p := 24) (by norm_num)
  have na : |n| < 2 ^ 24 := by rw [abs_of_pos (by linarith)]; exact n2
  have fT : Base.ieee 24 c.tFinal = c.tFinal := by rw [hT]; exact ieee_exact na _
  obtain ⟨a, b, d⟩ := snapshot_count_partial (Base.ieee_rounds 53) (by positivity) T0 (by rw [h32]; exact mono24)
    (η := 1 / 2 ^ 24) (by rw [h32]; exact Base.ieee_rounds 24) (by positivity) (by linarith) hs
  have last : c.f32 (ticks (Base.ieee 53) (Base.ieee 53 (c.tFinal / c.nDiag)) c.nDiag) ≤ c.f32 c.tFinal := by
    have cb := (clock_bounds (Base.ieee_rounds 53) (by positivity) (by norm_num) T0.le c.nDiag c.nDiag).2
    rw [mul_div_cancel₀ _ N0.ne'] at cb
    have ph := pow_high (ε := 1 / 2 ^ 53) (by positivity) (by norm_num) (c.nDiag + 1)
    have p1 : (0 : ℝ) ≤ (1 + 1 / 2 ^ 53) ^ (c.nDiag + 1) := by positivity
    generalize ((1 : ℝ) + 1 / 2 ^ 53) ^ (c.nDiag + 1) = q at cb ph p1
    generalize ticks (Base.ieee 53) (Base.ieee 53 (c.tFinal / c.nDiag)) c.nDiag = x at cb ⊢
    push_cast at ph
    have q1 : q ≤ 1 + 1 / 2 ^ 30 := by
      have e : ((c.nDiag : ℝ) + 1) * (1 / 2 ^ 53) ≤ 1 / 2 ^ 36 := by linarith
      have := mul_le_mul_of_nonneg_right e p1
      linarith
    rw [h32, fT]
    rcases le_total x c.tFinal with hx | hx
    · exact (mono24 hx).trans_eq fT
    · refine le_of_eq ?_
      rw [hT] at hx cb ⊢
      refine cast_above n1 n2 hx ?_
      have t1 := mul_le_mul_of_nonneg_right m2.le u.le
      have t2 := mul_le_mul_of_nonneg_left q1 (mul_nonneg (by linarith) u.le : (0 : ℝ) ≤ n * (2 : ℝ) ^ k)
      linarith
  rw [if_pos last] at a
  exact ⟨_, s, hs, a, b.trans a, d⟩

private theorem cast_both {n k : ℤ} (n1 : 2 ^ 23 < n) (n2 : n < 2 ^ 24) {x : ℝ} (h : |x - n * (2 : ℝ) ^ k| < (2 : ℝ) ^ k / 2) :
    Base.ieee 24 x = n * (2 : ℝ) ^ k := by
  have u : (0 : ℝ) < (2 : ℝ) ^ k := zpow_pos (by norm_num) _
  have p : ∀ j : ℕ, (2 : ℝ) ^ (k + j) = 2 ^ j * (2 : ℝ) ^ k := fun j => by rw [zpow_add₀ (by norm_num), zpow_natCast, mul_comm]
  have m : ((2 ^ 23 + 1 : ℤ) : ℝ) ≤ n := by exact_mod_cast n1
  have m' : (n : ℝ) ≤ ((2 ^ 24 - 1 : ℤ) : ℝ) := by exact_mod_cast (show n ≤ 2 ^ 24 - 1 by linarith)
  have a := mul_le_mul_of_nonneg_right m u.le
  have a' := mul_le_mul_of_nonneg_right m' u.le
  push_cast at a a'
  have b := abs_lt.mp h
  have e : k + 23 + 1 - ((24 : ℕ) : ℤ) = k := by push_cast; ring
  have := ieee_eq (p := 24) (x := x) (e := k + 23) (n := n) (by rw [show k + 23 = k + (23 : ℕ) by norm_num, p]; linarith)
    (by rw [show k + 23 + 1 = k + (24 : ℕ) by push_cast; ring, p]; linarith) (by rw [e]; exact h)
  rw [this, e]

/-- The assumptions of `ends_rounded` for almost all final times. -/
private theorem typical_good {σ : Type*} (c : Cfg ℝ ℝ σ) {n k : ℤ} (n1 : 2 ^ 23 < n) (n2 : n < 2 ^ 24)
    (hT : |c.tFinal - n * (2 : ℝ) ^ k| ≤ (1 / 2 - 1 / 2 ^ 10) * (2 : ℝ) ^ k)
    (h32 : c.f32 = Base.ieee 24) (hb : c.Bounded (c.tFinal / 2 ^ 49)) (hn : 0 < c.nDiag) :
    Good (Base.ieee 53) (1 / 2 ^ 53) ((2 : ℝ) ^ k / 2 ^ 26) (2 ^ 25 * (2 : ℝ) ^ k) c := by
  have u : (0 : ℝ) < (2 : ℝ) ^ k := zpow_pos (by norm_num) _
  have m1 : ((2 ^ 23 + 1 : ℤ) : ℝ) ≤ n := by exact_mod_cast n1
  have m2 : (n : ℝ) ≤ ((2 ^ 24 - 1 : ℤ) : ℝ) := by exact_mod_cast (show n ≤ 2 ^ 24 - 1 by linarith)
  have a1 := mul_le_mul_of_nonneg_right m1 u.le
  have a2 := mul_le_mul_of_nonneg_right m2 u.le
  push_cast at a1 a2
  obtain ⟨b1, b2⟩ := abs_le.mp hT
  have T1 : 2 ^ 23 * (2 : ℝ) ^ k ≤ c.tFinal := by linarith
  have T2 : c.tFinal ≤ 2 ^ 24 * (2 : ℝ) ^ k := by linarith
  have T0 : 0 < c.tFinal := by linarith
  have mono24 := Base.ieee_mono (p := 24) (by norm_num)
  have mono53 := Base.ieee_mono (p := 53) (by norm_num)
  have fT : Base.ieee 24 c.tFinal = n * (2 : ℝ) ^ k := cast_both n1 n2 (lt_of_le_of_lt hT (by linarith))
  have ed : (2 : ℝ) ^ (k - (26 : ℕ)) = (2 : ℝ) ^ k / 2 ^ 26 := by rw [zpow_sub₀ (by norm_num), zpow_natCast]
  have ex : Base.ieee 53 ((2 : ℝ) ^ k / 2 ^ 26) = (2 : ℝ) ^ k / 2 ^ 26 := by
    have := ieee_exact (p := 53) (m := 1) (by norm_num) (k - (26 : ℕ))
    rwa [Int.cast_one, one_mul, ed] at this
  have el : (2 : ℝ) ^ (k + (25 : ℕ)) = 2 ^ 25 * (2 : ℝ) ^ k := by rw [zpow_add₀ (by norm_num), zpow_natCast, mul_comm]
  have fL : Base.ieee 24 (2 ^ 25 * (2 : ℝ) ^ k) = 2 ^ 25 * (2 : ℝ) ^ k := by
    have := ieee_exact (p := 24) (m := 1) (by norm_num) (k + (25 : ℕ))
    rwa [Int.cast_one, one_mul, el] at this
  have dl : (2 : ℝ) ^ k / 2 ^ 26 ≤ c.tFinal / 2 ^ 49 := by
    rw [div_le_div_iff₀ (by norm_num) (by norm_num)]
    linarith
  have hb' : c.Bounded ((2 : ℝ) ^ k / 2 ^ 26) :=
    ⟨fun i hi d hd => dl.trans (hb.bunch i hi d hd), fun w i => dl.trans (hb.auto w i), fun j hj => dl.trans (hb.field j hj),
      fun h => dl.trans (hb.diag h)⟩
  exact ⟨Base.ieee_rounds 53, by positivity, by norm_num, by norm_num, by positivity, by linarith, hb',
    (by
      have := mono53 (hb'.diag hn)
      rwa [ex] at this),
    (by
      intro x hx
      rw [h32, fT] at hx
      by_contra h
      have := mono24 (not_le.mp h).le
      rw [fL] at this
      linarith),
    (by
      intro x hx
      rw [h32, fT] at hx
      rw [← ex]
      refine mono53 ?_
      by_contra h
      have h := not_le.mp h
      have h' : c.tFinal - x < 1 / 2 ^ 10 * (2 : ℝ) ^ k := by linarith
      have : n * (2 : ℝ) ^ k ≤ Base.ieee 24 x := by
        rcases le_total x c.tFinal with h1 | h1
        · rw [cast_both (k := k) n1 n2 (abs_lt.mpr ⟨by linarith, by linarith⟩)]
        · rw [← fT]
          exact mono24 h1
      linarith)⟩

/-- The same for almost all final times: those that are not in the middle between two numbers of 32 bits, up to a thousandth of their distance,
and not next to a power of two. -/
theorem complete_typical {σ : Type*} (c : Cfg ℝ ℝ σ) (w : σ) {n k : ℤ} (n1 : 2 ^ 23 < n) (n2 : n < 2 ^ 24)
    (hT : |c.tFinal - n * (2 : ℝ) ^ k| ≤ (1 / 2 - 1 / 2 ^ 10) * (2 : ℝ) ^ k)
    (h32 : c.f32 = Base.ieee 24) (hb : c.Bounded (c.tFinal / 2 ^ 49)) (hn : 0 < c.nDiag) (hN : c.nDiag ≤ 10 ^ 5) :
    ∃ fuel s, doTracking (Base.ieee 53) c fuel w = .returned s ∧ s.snaps.length = c.nDiag + 1 ∧ (diagTimes s.log).length = c.nDiag + 1 ∧
      ∀ (j : ℕ) (t : ℝ), (diagTimes s.log)[j]? = some t → |t - j * (c.tFinal / c.nDiag)| ≤ 2 * (c.nDiag + 1) * (1 / 2 ^ 53) * c.tFinal := by
  have u : (0 : ℝ) < (2 : ℝ) ^ k := zpow_pos (by norm_num) _
  have m1 : ((2 ^ 23 + 1 : ℤ) : ℝ) ≤ n := by exact_mod_cast n1
  have m2 : (n : ℝ) ≤ ((2 ^ 24 - 1 : ℤ) : ℝ) := by exact_mod_cast (show n ≤ 2 ^ 24 - 1 by linarith)
  have a1 := mul_le_mul_of_nonneg_right m1 u.le
  have a2 := mul_le_mul_of_nonneg_right m2 u.le
  push_cast at a1 a2
  obtain ⟨b1, b2⟩ := abs_le.mp hT
  have T1 : 2 ^ 23 * (2 : ℝ) ^ k ≤ c.tFinal := by linarith
  have T2 : c.tFinal ≤ 2 ^ 24 * (2 : ℝ) ^ k := by linarith
  have T0 : 0 < c.tFinal := by linarith
  have N : (c.nDiag : ℝ) ≤ 10 ^ 5 := by exact_mod_cast hN
  have N0 : (0 : ℝ) < c.nDiag := by exact_mod_cast hn
  have N2 : (c.nDiag : ℝ) ^ 2 ≤ (10 ^ 5) ^ 2 := pow_le_pow_left₀ N0.le N 2
  have mono24 := Base.ieee_mono (p := 24) (by norm_num)
  have fT : Base.ieee 24 c.tFinal = n * (2 : ℝ) ^ k := cast_both n1 n2 (lt_of_le_of_lt hT (by linarith))
  have g := typical_good c n1 n2 hT h32 hb hn
  obtain ⟨s, hs⟩ := ends_rounded c w g.rounds g.e0 g.e1 g.pos g.len g.fine g.bounded hn g.diag g.below g.cut
  obtain ⟨a, b, d⟩ := snapshot_count_partial (Base.ieee_rounds 53) (by positivity) T0 (by rw [h32]; exact mono24)
    (η := 1 / 2 ^ 24) (by rw [h32]; exact Base.ieee_rounds 24) (by positivity) (by linarith) hs
  have last : c.f32 (ticks (Base.ieee 53) (Base.ieee 53 (c.tFinal / c.nDiag)) c.nDiag) ≤ c.f32 c.tFinal := by
    have cb := (clock_bounds (Base.ieee_rounds 53) (by positivity) (by norm_num) T0.le c.nDiag c.nDiag).2
    rw [mul_div_cancel₀ _ N0.ne'] at cb
    have ph := pow_high (ε := 1 / 2 ^ 53) (by positivity) (by norm_num) (c.nDiag + 1)
    have p1 : (0 : ℝ) ≤ (1 + 1 / 2 ^ 53) ^ (c.nDiag + 1) := by positivity
    generalize ((1 : ℝ) + 1 / 2 ^ 53) ^ (c.nDiag + 1) = q at cb ph p1
    generalize ticks (Base.ieee 53) (Base.ieee 53 (c.tFinal / c.nDiag)) c.nDiag = x at cb ⊢
    push_cast at ph
    have q1 : q ≤ 1 + 1 / 2 ^ 35 := by
      have e : ((c.nDiag : ℝ) + 1) * (1 / 2 ^ 53) ≤ 1 / 2 ^ 36 := by linarith
      have := mul_le_mul_of_nonneg_right e p1
      linarith
    rw [h32]
    rcases le_total x c.tFinal with hx | hx
    · exact mono24 hx
    · have t2 := mul_le_mul_of_nonneg_left q1 T0.le
      rw [fT, cast_both (k := k) n1 n2 (abs_lt.mpr ⟨by linarith, by linarith⟩)]
  rw [if_pos last] at a
  exact ⟨_, s, hs, a, b.trans a, d⟩

/-- For the same final times, every bunch that is pushed (which is every bunch, if the bunches are pushed before the outputs) ends at the final
time up to a few units of the casts; its pushes follow each other from time zero. -/
theorem arrives_typical {σ : Type*} (c : Cfg ℝ ℝ σ) (w : σ) {n k : ℤ} (n1 : 2 ^ 23 < n) (n2 : n < 2 ^ 24)
    (hT : |c.tFinal - n * (2 : ℝ) ^ k| ≤ (1 / 2 - 1 / 2 ^ 10) * (2 : ℝ) ^ k)
    (h32 : c.f32 = Base.ieee 24) (hb : c.Bounded (c.tFinal / 2 ^ 49)) (hn : 0 < c.nDiag) (hN : c.nDiag ≤ 10 ^ 5) :
    ∃ fuel s, doTracking (Base.ieee 53) c fuel w = .returned s ∧ ∀ i < c.nBunch, (c.pushBeforeDiags = true ∨ pushesOf i s.log ≠ []) →
      ∃ t, Rolls (Base.ieee 53) 0 (pushesOf i s.log) t ∧ |t - c.tFinal| ≤ 3 / 10 ^ 7 * c.tFinal := by
  obtain ⟨fuel, s, hs, hl, _⟩ := complete_typical c w n1 n2 hT h32 hb hn hN
  refine ⟨fuel, s, hs, fun i hi hp => ⟨s.t i, ((schedule_rounded c w fuel hs).1 i hi).1, ?_⟩⟩
  have hp : pushesOf i s.log ≠ [] := hp.elim (fun h => pushed h hs (by omega) i hi) id
  have u : (0 : ℝ) < (2 : ℝ) ^ k := zpow_pos (by norm_num) _
  have m1 : ((2 ^ 23 + 1 : ℤ) : ℝ) ≤ n := by exact_mod_cast n1
  have m2 : (n : ℝ) ≤ ((2 ^ 24 - 1 : ℤ) : ℝ) := by exact_mod_cast (show n ≤ 2 ^ 24 - 1 by linarith)
  have a1 := mul_le_mul_of_nonneg_right m1 u.le
  have a2 := mul_le_mul_of_nonneg_right m2 u.le
  push_cast at a1 a2
  obtain ⟨b1, b2⟩ := abs_le.mp hT
  have T1 : 2 ^ 23 * (2 : ℝ) ^ k ≤ c.tFinal := by linarith
  have fT : Base.ieee 24 c.tFinal = n * (2 : ℝ) ^ k := cast_both n1 n2 (lt_of_le_of_lt hT (by linarith))
  have mono24 := Base.ieee_mono (p := 24) (by norm_num)
  have := arrives (typical_good c n1 n2 hT h32 hb hn) (by linarith) (ν := 2 * (2 : ℝ) ^ k) ?_ ?_ hs i hi hp
  · refine this.trans ?_
    linarith
  · intro x hx
    rw [h32]
    refine (mono24 hx).trans ?_
    rw [fT, cast_both (k := k) n1 n2 (abs_lt.mpr ⟨by linarith, by linarith⟩)]
  · intro x hx
    rw [h32, fT] at hx
    have r := Base.ieee_rounds 24 x
    rw [hx] at r
    rcases le_or_gt x 0 with x0 | x0
    · rw [abs_of_nonpos x0] at r
      have := (abs_le.mp r).2
      linarith
    · rw [abs_of_pos x0] at r
      have := abs_le.mp r
      exact abs_le.mpr ⟨by linarith, by linarith⟩

/-- One bunch with steps of a tenth of the stage and seven outputs, with a final time that is a number of 32 bits. -/
noncomputable def tame : Cfg ℝ ℝ ℝ where
  tFinal := 1
  nBunch := 1
  nField := 0
  nDiag := 7
  dtBunch := fun _ => some (Base.ieee 53 (1 / 10))
  dtField := fun _ => 1
  autoDt := fun _ _ => 1
  pushBeforeDiags := true
  opmd := false
  f32 := Base.ieee 24
  evolve := fun w _ _ dt => w + dt
  updateF := fun w _ => w

private theorem tame_bounded : tame.Bounded (tame.tFinal / 2 ^ 50) := by
  have d : (1 : ℝ) / 2 ^ 50 ≤ Base.ieee 53 (1 / 10) := by
    have := (abs_le.mp (Base.ieee_rounds 53 (1 / 10))).1
    rw [abs_of_pos (by norm_num)] at this
    norm_num at this ⊢
    linarith
  refine ⟨?_, ?_, ?_, ?_⟩
  · intro i _ x hx
    exact d.trans_eq (Option.some.inj hx)
  · intro _ _
    simp [tame]
    norm_num
  · intro j hj
    exact absurd hj (Nat.not_lt_zero j)
  · intro _
    simp [tame, Cfg.dtDiag]
    norm_num

private theorem tame_final : tame.tFinal = ((2 ^ 23 : ℤ) : ℝ) * (2 : ℝ) ^ (-23 : ℤ) := by
  simp [tame]
  norm_num

example : ∃ s, doTracking (Base.ieee 53) tame ((2 ^ 53 + 1) * ((1 + 0) * 2 ^ 53 + 1)) 0 = .returned s :=
  ends_double tame 0 (by norm_num) (by norm_num) tame_final rfl tame_bounded (by simp [tame])

example : ∃ fuel s, doTracking (Base.ieee 53) tame fuel 0 = .returned s ∧ s.snaps.length = 8 := by
  obtain ⟨f, s, h1, h2, _⟩ := complete_double tame 0 (by norm_num) (by norm_num) tame_final rfl tame_bounded (by simp [tame]) (by simp [tame])
  exact ⟨f, s, h1, h2⟩

private theorem tame_bounded' : ({ tame with tFinal := 13 / 10 } : Cfg ℝ ℝ ℝ).Bounded ((13 / 10 : ℝ) / 2 ^ 49) := by
  have d : (13 / 10 : ℝ) / 2 ^ 49 ≤ Base.ieee 53 (1 / 10) := by
    have := (abs_le.mp (Base.ieee_rounds 53 (1 / 10))).1
    rw [abs_of_pos (by norm_num)] at this
    norm_num at this ⊢
    linarith
  exact ⟨fun i _ x hx => d.trans_eq (Option.some.inj hx), fun _ _ => by norm_num [tame],
    fun j hj => absurd hj (Nat.not_lt_zero j), fun _ => by norm_num [tame, Cfg.dtDiag]⟩

/-- The same stage with the final time `13 / 10`, which is not a number of 32 bits. -/
example : ∃ fuel s, doTracking (Base.ieee 53) { tame with tFinal := 13 / 10 } fuel 0 = .returned s ∧ s.snaps.length = 8 := by
  obtain ⟨f, s, h1, h2, _⟩ := complete_typical { tame with tFinal := 13 / 10 } 0 (n := 10905190) (k := -23) (by norm_num) (by norm_num)
    (by norm_num [abs_le]) rfl tame_bounded' (by simp [tame]) (by simp [tame])
  exact ⟨f, s, h1, h2⟩

example : ∃ fuel s, doTracking (Base.ieee 53) { tame with tFinal := 13 / 10 } fuel 0 = .returned s ∧
    ∃ t, Rolls (Base.ieee 53) 0 (pushesOf 0 s.log) t ∧ |t - 13 / 10| ≤ 3 / 10 ^ 7 * (13 / 10) := by
  obtain ⟨f, s, h1, h2⟩ := arrives_typical { tame with tFinal := 13 / 10 } 0 (n := 10905190) (k := -23) (by norm_num) (by norm_num)
    (by norm_num [abs_le]) rfl tame_bounded' (by simp [tame]) (by simp [tame])
  exact ⟨f, s, h1, h2 0 (by simp [tame]) (Or.inl rfl)⟩

end WakeT.Tracker.Rounded
