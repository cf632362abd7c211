import Verif.CSR.Kernel
import Verif.CSR.Props

/-!
# Properties of the CSR energy change
-/

set_option linter.unusedSectionVars false

namespace WakeT.CSR

open Finset

/-! ### Straight beamlines -/

/-- Specification: the trajectory runs along the `z` axis. -/
def OnAxis (p : Pt) : Prop := p.pos = ![0, 0, p.s] ∧ p.tan = ![0, 0, 1]

theorem onAxis_trajPoint {e : Elem} (h : e.theta = 0) {p : Pt} (hp : OnAxis p) (l : ℝ) :
    OnAxis (trajPoint e p l) := by
  obtain ⟨h1, h2⟩ := hp
  unfold trajPoint
  rw [if_neg (by simp [h])]
  refine ⟨?_, h2⟩
  funext a
  rw [h1, h2]
  fin_cases a <;> simp

theorem onAxis_getLastD {traj : List Pt} (h : ∀ p ∈ traj, OnAxis p) : OnAxis (traj.getLastD startPt) := by
  rcases List.eq_nil_or_concat traj with rfl | ⟨l, a, rfl⟩
  · exact ⟨by simp [startPt], rfl⟩
  · simpa using h a (by simp)

theorem history_onAxis (a b : ℝ) (ops : List Op) (h : ∀ e, Occurs ops e → e.theta = 0) :
    ∀ p ∈ (history a b ops).refTraj.getD [startPt], OnAxis p := by
  have hs : ∀ p ∈ [startPt], OnAxis p := by
    intro p hp
    rw [List.mem_singleton.mp hp]
    exact ⟨by simp [startPt], rfl⟩
  induction ops using List.reverseRecOn with
  | nil => simpa [history, Calc.new] using hs
  | append_singleton ops o ih =>
    have ih := ih fun e he => h e (List.mem_append_left _ he)
    have hH : history a b (ops ++ [o]) = (history a b ops).op o := by simp [history, List.foldl_append]
    rw [hH]
    cases o with
    | add e =>
      have he : e.theta = 0 := h e (by simp [Occurs])
      simp only [Calc.op]
      rw [add_refTraj, Option.getD_some]
      intro p hp
      rcases List.mem_append.mp hp with hp | hp
      · exact ih p hp
      · obtain ⟨j, -, rfl⟩ := List.mem_map.mp hp
        exact onAxis_trajPoint he (onAxis_getLastD ih) _
    | clear => simpa [Calc.op, Calc.clear] using hs

theorem betaOf_lt_one {γ : ℝ} (h : 1 < γ) : 0 < betaOf γ ∧ betaOf γ < 1 ∧ betaOf γ ^ 2 = 1 - 1 / γ ^ 2 := by
  have h1 : 0 < γ ^ 2 := by positivity
  have h2 : 1 / γ ^ 2 < 1 := by rw [div_lt_one h1]; nlinarith
  have h3 : 0 < 1 / γ ^ 2 := by positivity
  have h4 : betaOf γ ^ 2 = 1 - 1 / γ ^ 2 := Real.sq_sqrt (by linarith)
  refine ⟨Real.sqrt_pos.mpr (by linarith), ?_, h4⟩
  have h5 : 0 ≤ betaOf γ := Real.sqrt_nonneg _
  nlinarith

theorem chord_onAxis {traj : ℕ → Pt} {i k : ℕ} (hi : OnAxis (traj i)) (hk : OnAxis (traj k))
    (h : (traj k).s < (traj i).s) : chord traj i k = (traj i).s - (traj k).s := by
  unfold chord
  rw [hi.1, hk.1]
  simp only [Matrix.cons_val_zero, Matrix.cons_val_one, Matrix.cons_val]
  rw [show (0 - 0 : ℝ) * (0 - 0) + (0 - 0) * (0 - 0)
    + ((traj i).s - (traj k).s) * ((traj i).s - (traj k).s) = ((traj i).s - (traj k).s) ^ 2 by ring]
  exact Real.sqrt_sq (by linarith)

theorem retarded_eq (traj : ℕ → Pt) (β : ℝ) (i k : ℕ) :
    retarded traj β i k = (traj k).s - (traj i).s + β * chord traj i k := rfl

theorem kernelAt_onAxis {traj : ℕ → Pt} {γ : ℝ} (hγ : 1 < γ) {i k : ℕ} (hi : OnAxis (traj i))
    (hk : OnAxis (traj k)) (h : (traj k).s < (traj i).s) : kernelAt traj γ i k = 0 := by
  obtain ⟨b0, b1, b2⟩ := betaOf_lt_one hγ
  unfold kernelAt
  simp only [retarded_eq, chord_onAxis hi hk h, dot]
  rw [hi.1, hk.1, hi.2, hk.2]
  simp only [Matrix.cons_val_zero, Matrix.cons_val_one, Matrix.cons_val]
  have hd : (traj i).s - (traj k).s ≠ 0 := by linarith
  have hb : 1 - betaOf γ ≠ 0 := by linarith
  generalize 1 / γ ^ 2 = g at *
  generalize betaOf γ = β at *
  have hx : (traj k).s - (traj i).s + β * ((traj i).s - (traj k).s) =
      -((1 - β) * ((traj i).s - (traj k).s)) := by ring
  rw [hx]
  field_simp
  ring

theorem longRange_onAxis {traj : ℕ → Pt} {γ : ℝ} (hγ : 1 < γ) {i : ℕ} (ha : ∀ k ≤ i, OnAxis (traj k))
    (h : ∀ k < i, (traj k).s < (traj i).s) (k : ℕ) : longRange traj γ i k = 0 := by
  apply Finset.sum_eq_zero
  intro m hm
  have hm := Finset.mem_Ico.mp hm
  have h1 : ∀ m < i, kernelAt traj γ i m = 0 := fun m hm =>
    kernelAt_onAxis hγ (ha i le_rfl) (ha m hm.le) (h m hm)
  unfold kernelSeg
  split_ifs with h2
  · rw [h1 m hm.2, h1 (m + 1) h2]; ring
  · rw [h1 m hm.2]; ring

theorem shortRange_onAxis {traj : ℕ → Pt} {γ : ℝ} (hγ : 1 < γ) {i : ℕ} (hi : OnAxis (traj i))
    (h0 : OnAxis (traj 0)) {w0 w : ℝ} (hw0 : w0 < 0) (hw : w < 0) (w1 : ℝ) :
    shortRange traj γ i w0 w1 w = 0 := by
  obtain ⟨b0, b1, b2⟩ := betaOf_lt_one hγ
  have hg : 0 < γ := by linarith
  have hlen : entryLen traj i = (traj i).s - (traj 0).s := by
    unfold entryLen entryVec dot
    rw [hi.1, h0.1, h0.2]
    simp
  have hinf : wInf traj i = 0 := by unfold wInf; rw [hlen]; ring
  have ha : entryA2 traj i = 0 := by
    have : entryAcross traj i = fun _ => 0 := by
      funext a
      unfold entryAcross
      rw [hlen]
      unfold entryVec
      rw [hi.1, h0.1, h0.2]
      fin_cases a <;> simp
    unfold entryA2
    rw [this]
    simp [dot]
  have hc : dot (traj 0).tan (traj i).tan = 1 := by
    rw [hi.2, h0.2]; simp [dot]
  have hs : ∀ w < 0, shortS traj γ i w = w / (1 - betaOf γ) := by
    intro w hw
    unfold shortS
    rw [hinf, ha, sub_zero, add_zero, show γ ^ 2 * w ^ 2 = (γ * -w) ^ 2 by ring,
      Real.sqrt_sq (by nlinarith)]
    have h1 : 1 - betaOf γ ≠ 0 := by linarith
    have h2 : γ ^ 2 * (1 - betaOf γ ^ 2) = 1 := by rw [b2]; field_simp; ring
    rw [eq_div_iff h1]
    linear_combination w * h2
  have hR : ∀ w < 0, shortR traj γ i w = -w / (1 - betaOf γ) := by
    intro w hw
    unfold shortR
    rw [hs w hw]
    have h1 : 1 - betaOf γ ≠ 0 := by linarith
    have h2 := b0.ne'
    field_simp
    ring
  unfold shortRange
  dsimp only
  rw [ha, zero_div, if_neg (by norm_num), hc, hinf, hs w hw, hs w0 hw0, hR w hw, hR w0 hw0]
  have h1 : (0 - w / (1 - betaOf γ) + -w / (1 - betaOf γ)) / (0 - w0 / (1 - betaOf γ) + -w0 / (1 - betaOf γ)) =
      w / w0 := by
    have h1 : 1 - betaOf γ ≠ 0 := by linarith
    rw [show 0 - w / (1 - betaOf γ) + -w / (1 - betaOf γ) = -2 / (1 - betaOf γ) * w by ring,
      show 0 - w0 / (1 - betaOf γ) + -w0 / (1 - betaOf γ) = -2 / (1 - betaOf γ) * w0 by ring]
    exact mul_div_mul_left _ _ (div_ne_zero (by norm_num) h1)
  rw [h1, show w0 / w = (w / w0)⁻¹ by rw [inv_div], Real.log_inv]
  ring

theorem npInterp_zero (xp : ℕ → ℝ) {fp : ℕ → ℝ} (h : ∀ k, fp k = 0) (n : ℕ) (x : ℝ) : npInterp xp fp n x = 0 := by
  unfold npInterp
  split
  · exact h 0
  · split_ifs
    · exact h _
    · rw [h, h]; ring

theorem foldl_min_lt {w : ℕ → ℝ} (l : List ℕ) (x c : ℝ) (h : x < c) :
    l.foldl (fun m k => min m (w k)) x < c := by
  induction l generalizing x with
  | nil => exact h
  | cons a l ih => exact ih _ (lt_of_le_of_lt (min_le_left _ _) h)

theorem arrMin_le (f : ℕ → ℝ) (n : ℕ) : arrMin f n ≤ f 0 := by
  unfold arrMin
  suffices ∀ (l : List ℕ) (x : ℝ), l.foldl (fun m k => min m (f k)) x ≤ x from this _ _
  intro l
  induction l with
  | nil => intro x; exact le_rfl
  | cons a l ih => intro x; exact (ih _).trans (min_le_left _ _)

theorem le_arrMax (f : ℕ → ℝ) (n : ℕ) : f 0 ≤ arrMax f n := by
  unfold arrMax
  suffices ∀ (l : List ℕ) (x : ℝ), x ≤ l.foldl (fun m k => max m (f k)) x from this _ _
  intro l
  induction l with
  | nil => intro x; exact le_rfl
  | cons a l ih => intro x; exact (le_max_left _ _).trans (ih _)

theorem binSize_pos (z : ℕ → ℝ) (n : ℕ) {nBins : ℕ} (hn : 1 ≤ nBins) : 0 < binSize z n nBins := by
  have h1 := (arrMin_le z n).trans (le_arrMax z n)
  have h2 : (0 : ℝ) < nBins := by exact_mod_cast hn
  unfold binSize
  apply div_pos _ h2
  unfold histRange
  dsimp only
  split_ifs with h
  · dsimp only; linarith
  · dsimp only
    have := lt_of_le_of_ne h1 h
    linarith

theorem estimateStart_lt (traj : ℕ → Pt) (β : ℝ) {wMin : ℝ} (hw : wMin < 0) {i : ℕ} (hi : 0 < i) (iMin nTest : ℕ) :
    estimateStart traj β wMin i iMin nTest < i := by
  unfold estimateStart
  split_ifs with h
  · dsimp only
    split
    · rename_i m hm
      obtain ⟨h1, h2, -⟩ := lastBelow_some.mp hm
      rcases Nat.eq_zero_or_pos (nTest - 1) with h3 | h3
      · rw [h3, Nat.div_zero]; exact hi
      · have hle : m * i / (nTest - 1) ≤ i := by
          apply Nat.div_le_of_le_mul
          exact Nat.mul_le_mul_right i (by omega)
        rcases Nat.lt_or_eq_of_le hle with h | h
        · exact h
        · rw [h, retarded_self] at h2
          linarith
    · exact hi
  · exact hi

theorem firstPoint_lt (traj : ℕ → Pt) (γ : ℝ) {wMin : ℝ} (hw : wMin < 0) {i : ℕ} (hi : 0 < i) :
    firstPoint traj γ wMin i < i := by
  have h := estimateStart_lt traj (betaOf γ) hw hi 1000 10
  unfold firstPoint kernelStart
  split
  · rename_i j hj
    have := (lastBelow_some.mp hj).1
    omega
  · exact h

theorem kernelSum_onAxis {traj : ℕ → Pt} {γ : ℝ} (hγ : 1 < γ) {i : ℕ} (hi : 0 < i)
    (ha : ∀ k ≤ i, OnAxis (traj k)) (h : ∀ k < i, (traj k).s < (traj i).s) {nBins : ℕ} {bs : ℝ} (hb : 0 < bs)
    {l : ℕ} (hl : l < nBins) : kernelSum traj γ i nBins bs l = 0 := by
  obtain ⟨b0, b1, -⟩ := betaOf_lt_one hγ
  have hn : (0 : ℝ) < nBins := by
    have : 0 < nBins := by omega
    exact_mod_cast this
  have hwr : ∀ l < nBins, ((l : ℝ) - nBins) * bs < 0 := by
    intro l hl
    have : (l : ℝ) < nBins := by exact_mod_cast hl
    nlinarith
  have hL := longRange_onAxis hγ ha h
  have hret : ∀ k < i, retarded traj (betaOf γ) i k < 0 := by
    intro k hk
    rw [retarded_eq, chord_onAxis (ha i le_rfl) (ha k hk.le) (h k hk)]
    have := h k hk
    nlinarith
  have h0 := hwr 0 (by omega)
  have hj := firstPoint_lt traj γ h0 hi
  unfold kernelSum
  dsimp only
  have hz : ∀ x, npInterp (fun k => retarded traj (betaOf γ) i
      (firstPoint traj γ ((((0 : ℕ) : ℝ) - nBins) * bs) i + k))
      (fun k => longRange traj γ i (firstPoint traj γ ((((0 : ℕ) : ℝ) - nBins) * bs) i + k))
      (i - firstPoint traj γ ((((0 : ℕ) : ℝ) - nBins) * bs) i) x = 0 := fun x =>
    npInterp_zero _ (fun k => hL _) _ _
  split_ifs with h1 h2
  · rw [shortRange_onAxis hγ (ha i le_rfl) (ha 0 (by omega)) h0, shortRange_onAxis hγ (ha i le_rfl) (ha 0 (by omega)) h0 (hwr l hl), hL]
    · ring
    · exact foldl_min_lt (w := fun k => retarded traj (betaOf γ) i _) _ _ _ (hret _ hj)
  · rw [hL]
    rw [shortRange_onAxis hγ (ha i le_rfl) (ha 0 (by omega)) h0, shortRange_onAxis hγ (ha i le_rfl) (ha 0 (by omega)) h0 (hwr l hl)]
    · ring
    · exact foldl_min_lt (w := fun k => retarded traj (betaOf γ) i _) _ _ _ (hret _ hj)
  · exact hz _
  · exact hz _

theorem diff0_zero {n : ℕ} {f : ℕ → ℝ} (h : ∀ l < n, f l = 0) {l : ℕ} (hl : l < n) : diff0 n f l = 0 := by
  unfold diff0
  rw [h l hl, sub_zero]
  split_ifs with h1
  · exact h _ h1
  · rfl

theorem kernel_onAxis (c : ℝ) {traj : ℕ → Pt} {γ : ℝ} (hγ : 1 < γ) {i : ℕ} (hi : 0 < i)
    (ha : ∀ k ≤ i, OnAxis (traj k)) (h : ∀ k < i, (traj k).s < (traj i).s) {nBins : ℕ} {bs : ℝ} (hb : 0 < bs)
    {l : ℕ} (hl : l < nBins) : kernel c traj γ i nBins bs l = 0 := by
  unfold kernel
  rw [diff0_zero (fun l hl => diff0_zero (fun l hl => kernelSum_onAxis hγ hi ha h hb hl) hl) hl]
  simp

theorem getD_lt {traj : List Pt} {k : ℕ} (h : k < traj.length) : traj.getD k startPt = traj[k] := by
  simp [List.getD, List.getElem?_eq_getElem h]

theorem nearest_lt {traj : List Pt} (hne : traj ≠ []) (x : ℝ) : nearest traj x < traj.length := by
  classical
  unfold nearest
  suffices ∀ (l : List ℕ) (b : ℕ), b < traj.length → (∀ k ∈ l, k < traj.length) →
      l.foldl (fun b k => if |(traj.getD k startPt).s - x| < |(traj.getD b startPt).s - x| then k else b) b
        < traj.length by
    have := this (List.range traj.length) 0 (List.length_pos_iff.mpr hne) (fun k hk => List.mem_range.mp hk)
    convert this
  intro l
  induction l with
  | nil => intro b hb _; exact hb
  | cons a l ih =>
    intro b hb hl
    rw [List.foldl_cons]
    apply ih
    · split_ifs
      · exact hl a (by simp)
      · exact hb
    · intro k hk; exact hl k (by simp [hk])

theorem wake_zero {K1 : ℕ → ℝ} {nBins : ℕ} (h : ∀ l < nBins, K1 l = 0) (lam : ℕ → ℝ) (bs ds : ℝ) (m : ℕ) :
    wake K1 lam nBins bs ds m = 0 := by
  unfold wake
  rw [Finset.sum_eq_zero, zero_div, zero_mul]
  intro b hb
  have := Finset.mem_range.mp hb
  split_ifs
  · rw [h _ (by omega), mul_zero]
  · rfl

theorem kickOf_zero (γ : ℝ) {wk : ℕ → ℝ} (h : ∀ m, wk m = 0) (nBins : ℕ) (bs c0 z : ℝ) :
    kickOf γ wk nBins bs c0 z = 0 := by
  unfold kickOf
  dsimp only
  rw [npInterp_zero _ h]
  simp

/-- In a straight beamline the CSR calculation changes no particle: for every history of the
calculator in which all elements are straight, every bunch, every position and any settings. -/
theorem straight_no_csr {a b : ℝ} (ha : 0 < a) (hb : 0 < b) (ops : List Op) (hok : ∀ e, Occurs ops e → e.Ok)
    (hs : ∀ e, Occurs ops e → e.theta = 0) (c : ℝ) {nBins : ℕ} (hn : 1 ≤ nBins) (e : Elem) (l : ℝ) {γ : ℝ}
    (hγ : 1 < γ) (tau q : ℕ → ℝ) (n : ℕ) {kicks : ℕ → ℝ}
    (hk : (history a b ops).applyCsr c nBins e l γ tau q n = some kicks) (p : ℕ) : kicks p = 0 := by
  unfold Calc.applyCsr at hk
  cases h1 : (history a b ops).stepsOf e with
  | none => simp [h1] at hk
  | some st =>
  cases h2 : (history a b ops).refTraj with
  | none => simp [h1, h2] at hk
  | some traj =>
  obtain ⟨-, -, -, hC, -, -⟩ := history_inv ha hb ops hok
  have hax := history_onAxis a b ops hs
  rw [h2, Option.getD_some] at hC hax
  have hne : traj ≠ [] := by rintro rfl; simpa using hC.head
  simp only [h1, h2, Option.bind_eq_bind, Option.bind_some] at hk
  split_ifs at hk with h3
  rw [Option.some.injEq] at hk
  rw [← hk]
  have hbs := binSize_pos (fun p => -tau p) n hn
  have hidx := nearest_lt hne ((history a b ops).position e l)
  have hget : ∀ k < traj.length, traj.getD k startPt ∈ traj := by
    intro k hk
    rw [getD_lt hk]
    exact List.getElem_mem hk
  have hmono : ∀ k i, k < i → i < traj.length → (traj.getD k startPt).s < (traj.getD i startPt).s := by
    intro k i hki hi
    rw [getD_lt hi, getD_lt (hki.trans hi)]
    exact List.pairwise_iff_getElem.mp hC.mono k i (hki.trans hi) hi hki
  apply kickOf_zero
  apply wake_zero
  intro l hl
  unfold meanKernel
  rw [Finset.sum_eq_zero, zero_div]
  intro it hit
  have hit := Finset.mem_Ico.mp hit
  exact kernel_onAxis c hγ (by omega) (fun k hk => hax _ (hget k (by omega)))
    (fun k hk => hmono k _ hk (by omega)) hbs hl

end WakeT.CSR

namespace WakeT.CSR

open Finset

/-! ### The calculation never fails at the positions where it is used -/

theorem nearest_spec {traj : List Pt} (hne : traj ≠ []) (x : ℝ) {k : ℕ} (hk : k < traj.length) :
    |(traj.getD (nearest traj x) startPt).s - x| ≤ |(traj.getD k startPt).s - x| := by
  classical
  unfold nearest
  suffices H : ∀ (l : List ℕ) (b : ℕ),
      (∀ k ∈ b :: l, |(traj.getD (l.foldl (fun b k => if |(traj.getD k startPt).s - x| <
        |(traj.getD b startPt).s - x| then k else b) b) startPt).s - x| ≤ |(traj.getD k startPt).s - x|) by
    have := H (List.range traj.length) 0 k (by simp [hk])
    convert this
  intro l
  induction l with
  | nil => intro b k hk; simp at hk; subst hk; exact le_rfl
  | cons a l ih =>
    intro b k hk
    rw [List.foldl_cons]
    have h1 := ih (if |(traj.getD a startPt).s - x| < |(traj.getD b startPt).s - x| then a else b)
    have h2 := h1 _ (by simp : (if |(traj.getD a startPt).s - x| < |(traj.getD b startPt).s - x| then a else b) ∈ _ :: l)
    simp only [List.mem_cons] at hk
    rcases hk with rfl | rfl | hk
    · refine h2.trans ?_
      split_ifs with h <;> linarith
    · refine h2.trans ?_
      split_ifs with h
      · exact le_rfl
      · linarith
    · exact h1 k (by simp [hk])

theorem curve_mono {traj : List Pt} {L : ℝ} (h : Curve traj L) {k i : ℕ} (hki : k < i) (hi : i < traj.length) :
    (traj.getD k startPt).s < (traj.getD i startPt).s := by
  rw [getD_lt hi, getD_lt (hki.trans hi)]
  exact List.pairwise_iff_getElem.mp h.mono k i (hki.trans hi) hi hki

/-- A position that is a point of the trajectory is found exactly. -/
theorem nearest_hit {traj : List Pt} {L : ℝ} (h : Curve traj L) {k : ℕ} (hk : k < traj.length) :
    nearest traj (traj.getD k startPt).s = k := by
  have hne : traj ≠ [] := by rintro rfl; simp at hk
  have h1 := nearest_spec hne (traj.getD k startPt).s hk
  rw [sub_self, abs_zero] at h1
  have h2 := abs_eq_zero.mp (le_antisymm h1 (abs_nonneg _))
  rcases lt_trichotomy (nearest traj (traj.getD k startPt).s) k with h3 | h3 | h3
  · have := curve_mono h h3 hk; linarith
  · exact h3
  · have := curve_mono h h3 (nearest_lt hne _); linarith

/-- The current and the previous position are points of the trajectory. -/
theorem step_points {a b : ℝ} (ha : 0 < a) (hb : 0 < b) (ops : List Op) {e : Elem}
    (hok : ∀ x, Occurs (ops ++ [.add e]) x → x.Ok) {ds dt : ℝ}
    (hst : (history a b (ops ++ [.add e])).stepsOf e = some (ds, dt)) (h1 : Divides dt ds)
    (h2 : Divides ds e.length) {k : ℕ} (hk : 1 ≤ k) (hkL : k * ds ≤ e.length) :
    ∃ traj, (history a b (ops ++ [.add e])).refTraj = some traj ∧ ∃ p i, p < i ∧ i < traj.length ∧
      (traj.getD i startPt).s = ((lattice ops).map Elem.length).sum + k * ds ∧
      (traj.getD p startPt).s = ((lattice ops).map Elem.length).sum + k * ds - ds := by
  have he : e.Ok := hok e (by simp [Occurs])
  have hok' : ∀ x, Occurs ops x → x.Ok := fun x hx => hok x (List.mem_append_left _ hx)
  obtain ⟨hS, hA, hB, hC0, hE0, -⟩ := history_inv ha hb ops hok'
  obtain ⟨hS1, -, -, hC, hE, -⟩ := history_inv ha hb _ hok
  have hH : history a b (ops ++ [.add e]) = (history a b ops).add e := by
    simp [history, List.foldl_append, Calc.op]
  have hpos := add_step_pos hS (by rw [hA]; exact ha) (by rw [hB]; exact hb) he
  obtain ⟨m1, hm1, e1⟩ := h1
  obtain ⟨m2, hm2, e2⟩ := h2
  have hL := he.1
  have hst' : ((history a b ops).add e).stepsOf e = some (ds, dt) := by rw [← hH]; exact hst
  rw [hst', Option.getD_some] at hpos
  have hds : 0 < ds := by
    rw [← e1]
    have : (1 : ℝ) ≤ m1 := by exact_mod_cast hm1
    nlinarith
  -- the trajectory
  set old := (history a b ops).refTraj.getD [startPt] with hold
  have htr : (history a b (ops ++ [.add e])).refTraj = some (old ++ newPoints e (old.getLastD startPt) dt) := by
    rw [hH, add_refTraj, hst', Option.getD_some]
  have hone : old ≠ [] := by intro h; simpa [h] using hC0.head
  have hlen : 0 < old.length := List.length_pos_iff.mpr hone
  have hN : e.length / dt = ((m2 * m1 : ℕ) : ℝ) := by
    rw [div_eq_iff hpos.ne', ← e2, ← e1]
    push_cast
    ring
  have hN' : ⌈e.length / dt⌉₊ = m2 * m1 := by rw [hN, Nat.ceil_natCast]
  have hNpos : 0 < m2 * m1 := Nat.mul_pos hm2 hm1
  have hstep : e.length / ((m2 * m1 : ℕ) : ℝ) = dt := by
    rw [← hN]
    field_simp
  have hnl : (newPoints e (old.getLastD startPt) dt).length = m2 * m1 := by simp [newPoints, hN']
  have hs : ∀ (p : Pt) (l : ℝ), (trajPoint e p l).s = p.s + l := by
    intro p l; unfold trajPoint; split_ifs <;> rfl
  have hpt : ∀ x ≤ m2 * m1, ((old ++ newPoints e (old.getLastD startPt) dt).getD (old.length - 1 + x) startPt).s =
      ((lattice ops).map Elem.length).sum + x * dt := by
    intro x hx
    rcases Nat.eq_zero_or_pos x with rfl | hx0
    · have h3 : old.length - 1 + 0 < old.length := by omega
      have h4 := hC0.last
      rw [List.getLastD_eq_getLast?, List.getLast?_eq_getElem?] at h4
      rw [List.getD, List.getElem?_append_left h3]
      simp only [Nat.add_zero]
      rw [h4]
      simp
    · have h3 : old.length ≤ old.length - 1 + x := by omega
      have h4 : old.length - 1 + x - old.length = x - 1 := by omega
      have h5 : ((x - 1 : ℕ) : ℝ) + 1 = x := by exact_mod_cast Nat.sub_add_cancel hx0
      simp only [List.getD, List.getElem?_append_right h3, h4]
      unfold newPoints
      rw [List.getElem?_map, hN', List.getElem?_range (by omega), Option.map_some, Option.getD_some, hs,
        linspace_steps _ _ _ hNpos (by omega), hstep, h5, hC0.last]
  rw [htr, Option.getD_some] at hC
  have hkm : k * m1 ≤ m2 * m1 := by
    apply Nat.mul_le_mul_right
    rw [← e2] at hkL
    exact_mod_cast le_of_mul_le_mul_right hkL hds
  have hkc : ((k - 1 : ℕ) : ℝ) = k - 1 := by push_cast [hk]; ring
  refine ⟨_, htr, old.length - 1 + (k - 1) * m1, old.length - 1 + k * m1, ?_, ?_, ?_, ?_⟩
  · have : (k - 1) * m1 < k * m1 := Nat.mul_lt_mul_of_pos_right (by omega) hm1
    omega
  · rw [List.length_append, hnl]
    omega
  · rw [hpt (k * m1) hkm, ← e1]
    push_cast
    ring
  · rw [hpt ((k - 1) * m1) ((Nat.mul_le_mul_right _ (Nat.sub_le k 1)).trans hkm), ← e1]
    push_cast
    rw [hkc]
    ring

/-- At every multiple of its CSR step in the element that was added last, the calculation
returns energy changes: there are trajectory points between the current and the previous
position.  The steps fit, as they do in a calculator that has not been cleared (C67). -/
theorem apply_csr_defined {a b : ℝ} (ha : 0 < a) (hb : 0 < b) (ops : List Op) {e : Elem}
    (hok : ∀ x, Occurs (ops ++ [.add e]) x → x.Ok) (hnew : ∀ x ∈ lattice ops, x.id ≠ e.id) {ds dt : ℝ}
    (hst : (history a b (ops ++ [.add e])).stepsOf e = some (ds, dt)) (h1 : Divides dt ds)
    (h2 : Divides ds e.length) {k : ℕ} (hk : 1 ≤ k) (hkL : k * ds ≤ e.length) (c γ : ℝ) (nBins : ℕ)
    (tau q : ℕ → ℝ) (n : ℕ) :
    ((history a b (ops ++ [.add e])).applyCsr c nBins e (k * ds) γ tau q n).isSome := by
  obtain ⟨traj, htr, p, i, hpi, hi, hs1, hs2⟩ := step_points ha hb ops hok hst h1 h2 hk hkL
  obtain ⟨-, -, -, hC, -, -⟩ := history_inv ha hb _ hok
  rw [htr, Option.getD_some] at hC
  have hp := csr_position_partial ha hb ops hok hnew (k * ds)
  have hn1 := nearest_hit hC hi
  have hn2 := nearest_hit hC (hpi.trans hi)
  rw [hs1] at hn1
  rw [hs2] at hn2
  unfold Calc.applyCsr
  simp only [hst, htr, Option.bind_eq_bind, Option.bind_some, hp, hn1, hn2]
  rw [if_neg (by omega)]
  rfl

/-- A bend that is passed in two CSR steps of two trajectory steps each. -/
example : ∃ (e : Elem) (ds dt : ℝ), e.theta ≠ 0 ∧ e.Ok ∧
    (history (1 / 2) (1 / 4) ([] ++ [.add e])).stepsOf e = some (ds, dt) ∧ Divides dt ds ∧ Divides ds e.length ∧
    ((2 : ℕ) : ℝ) * ds ≤ e.length := by
  refine ⟨⟨0, 1, 1 / 10, 0, 0, some 1000, true, none, 1, true⟩, 1 / 2, 1 / 4, by norm_num,
    ⟨by norm_num, by simp⟩, ?_, ⟨2, by norm_num, by norm_num⟩, ⟨2, by norm_num, by norm_num⟩, by norm_num⟩
  simp only [history, Calc.op, Calc.new, Calc.add, Calc.stepsOf, Calc.setElementSteps, Calc.calculateTrajectory,
    indexOf, List.nil_append, List.foldl_cons, List.foldl_nil, List.findIdx?_cons, decide_true, if_true, Option.bind_some,
    List.getElem?_cons_zero]
  norm_num [computeSteps]

end WakeT.CSR
