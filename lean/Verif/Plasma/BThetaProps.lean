import Verif.Plasma.BTheta
import Verif.Plasma.PsiProps

/-! # The plasma magnetic field solves its boundary value problem (C60, C91) -/

set_option linter.unusedSectionVars false

namespace WakeT.Plasma

/-! ### Specification -/

/-- Field `a x + b / x` of the coefficients `(a, b)` at radius `x`. -/
noncomputable def fieldOf (c : ℝ × ℝ) (x : ℝ) : ℝ := c.1 * x + c.2 / x

/-- Coefficients in the region just inside of sorted particle `k`. -/
def inside (a0 : ℝ) (ab : ℕ → ℝ × ℝ) (k : ℕ) : ℝ × ℝ := if k = 0 then (a0, 0) else ab (k - 1)

/-- The boundary value problem for the azimuthal field: in the region around the axis the
field is `a0 x` (regular), in the region behind sorted particle `k` it is `a x + b / x` with
`(a, b) = ab k`.  At particle `k` the field jumps by `C`, its curl `(1/x) d(x B)/dx = 2a` (see
`curl_fieldOf`) jumps by `A` times the mean of the fields on both sides plus `B`.  Outside of
the last particle the field vanishes at infinity (`a = 0`). -/
structure Solves (n : ℕ) (p : ℕ → BPart) (a0 : ℝ) (ab : ℕ → ℝ × ℝ) : Prop where
  jump : ∀ k < n, fieldOf (ab k) (p k).r - fieldOf (inside a0 ab k) (p k).r = (p k).C
  curl : ∀ k < n, 2 * (ab k).1 - 2 * (inside a0 ab k).1 =
    (p k).A * ((fieldOf (ab k) (p k).r + fieldOf (inside a0 ab k) (p k).r) / 2) + (p k).B
  decay : (ab (n - 1)).1 = 0

theorem curl_fieldOf (c : ℝ × ℝ) {x : ℝ} (hx : x ≠ 0) :
    HasDerivAt (fun y => y * fieldOf c y) (x * (2 * c.1)) x := by
  have h0 : HasDerivAt (fun y : ℝ => c.1 * y ^ 2 + c.2) (x * (2 * c.1)) x := by
    refine (((hasDerivAt_pow 2 x).const_mul c.1).add_const c.2).congr_deriv ?_
    push_cast; ring
  refine h0.congr_of_eventuallyEq ?_
  filter_upwards [isOpen_ne.mem_nhds hx] with y hy
  have hy' : y ≠ 0 := hy
  unfold fieldOf; field_simp

/-- Assumptions on the particles: sorted, positive radii, non-negative charges (in units of
the electron charge), potential above -1. -/
structure GoodParts (n : ℕ) (p : ℕ → BPart) : Prop where
  r : ∀ k < n, 0 < (p k).r
  mono : ∀ k l, k ≤ l → l < n → (p k).r ≤ (p l).r
  q : ∀ k < n, 0 ≤ (p k).q
  psi : ∀ k < n, -1 < (p k).psi

/-! ### The recurrences -/

theorem GoodParts.A {n : ℕ} {p : ℕ → BPart} (h : GoodParts n p) {k : ℕ} (hk : k < n) :
    0 ≤ (p k).A := by
  unfold BPart.A
  have := h.r k hk; have h1 := h.q k hk; have : 0 < 1 + (p k).psi := by linarith [h.psi k hk]
  positivity

/-- The recurrence is equivalent to the jump conditions. -/
theorem step_iff (p : BPart) (hr : p.r ≠ 0) (x y : ℝ × ℝ) :
    y = p.step x ↔ fieldOf y p.r - fieldOf x p.r = p.C ∧
      2 * y.1 - 2 * x.1 = p.A * ((fieldOf y p.r + fieldOf x p.r) / 2) + p.B := by
  unfold BPart.step fieldOf
  generalize p.A = A; generalize p.B = B; generalize p.C = C; generalize hp : p.r = r
  rw [hp] at hr
  obtain ⟨x1, x2⟩ := x; obtain ⟨y1, y2⟩ := y
  simp only [Prod.mk.injEq]
  constructor
  · rintro ⟨h1, h2⟩
    subst h1; subst h2
    constructor <;> field_simp <;> ring
  · rintro ⟨h1, h2⟩
    have h1' : y1 * r + y2 / r = x1 * r + x2 / r + C := by linarith
    rw [h1'] at h2
    have e1 : y1 = (1 + 1 / 2 * A * r) * x1 + 1 / 2 * A / r * x2 + 1 / 2 * B + 1 / 4 * A * C := by
      field_simp at h2 ⊢; linarith
    refine ⟨e1, ?_⟩
    have e2 : y2 = (x1 * r + x2 / r + C - y1 * r) * r := by
      rw [← h1']; field_simp; ring
    rw [e2, e1]; field_simp; ring

theorem run_step_affine (p : ℕ → BPart) (x h : ℝ × ℝ) (c : ℝ) (j : ℕ) :
    run BPart.step p (x.1 + h.1 * c, x.2 + h.2 * c) j =
      ((run BPart.step p x j).1 + (run BPart.hom p h j).1 * c,
       (run BPart.step p x j).2 + (run BPart.hom p h j).2 * c) := by
  induction j with
  | zero => rfl
  | succ j ih =>
    rw [run, ih, run, run]
    unfold BPart.step BPart.hom
    ext <;> simp only [] <;> ring

theorem run_congr {X Y : Type} (f : X → Y → Y) (x x' : ℕ → X) (y : Y) (j : ℕ)
    (h : ∀ k < j, x k = x' k) : run f x y j = run f x' y j := by
  induction j with
  | zero => rfl
  | succ j ih => rw [run, run, ih (fun k hk => h k (by omega)), h j (by omega)]

theorem run_add {X Y : Type} (f : X → Y → Y) (x : ℕ → X) (y : Y) (i j : ℕ) :
    run f x y (i + j) = run f (fun k => x (i + k)) (run f x y i) j := by
  induction j with
  | zero => rfl
  | succ j ih => rw [← Nat.add_assoc, run, run, ih]

/-- **C60.** The coefficient `K` never falls below 1: the division that fixes the boundary
condition is safe. -/
theorem K_ge_one {n : ℕ} {p : ℕ → BPart} (h : GoodParts n p) (j : ℕ) (hj : j ≤ n) :
    1 ≤ (KU p j).1 ∧ (KU p j).2 ≤ 0 ∧
      (∀ x, 0 < x → (∀ k < j, (p k).r ≤ x) → 0 < (KU p j).1 * x ^ 2 + (KU p j).2) := by
  induction j with
  | zero =>
    refine ⟨le_rfl, le_rfl, fun x hx _ => ?_⟩
    simp [KU, run]; positivity
  | succ j ih =>
    obtain ⟨h1, h2, h3⟩ := ih (by omega)
    have hA := h.A (show j < n by omega)
    have hr := h.r j (by omega)
    have hW := h3 _ hr (fun k hk => h.mono k j (by omega) (by omega))
    have e : KU p (j + 1) = (p j).hom (KU p j) := rfl
    set K := (KU p j).1
    set U := (KU p j).2
    set A := (p j).A
    set r := (p j).r
    have eK : (KU p (j + 1)).1 = K + 1 / 2 * (A / r) * (K * r ^ 2 + U) := by
      rw [e]; simp only [BPart.hom]
      show (1 + 1 / 2 * A * r) * K + 1 / 2 * A / r * U = _
      field_simp; ring
    have eU : (KU p (j + 1)).2 = U - 1 / 2 * (A * r) * (K * r ^ 2 + U) := by
      rw [e]; simp only [BPart.hom]
      show -(1 / 2) * A * r ^ 3 * K + (1 - 1 / 2 * A * r) * U = _
      ring
    have p1 : 0 ≤ 1 / 2 * (A / r) * (K * r ^ 2 + U) := by positivity
    have p2 : 0 ≤ 1 / 2 * (A * r) * (K * r ^ 2 + U) := by positivity
    have hK : 1 ≤ (KU p (j + 1)).1 := by rw [eK]; linarith
    refine ⟨hK, by rw [eU]; linarith, fun x hx hxr => ?_⟩
    have hxr' : r ≤ x := hxr j (by omega)
    have eW : (KU p (j + 1)).1 * r ^ 2 + (KU p (j + 1)).2 = K * r ^ 2 + U := by
      rw [eK, eU]; field_simp; ring
    have : r ^ 2 ≤ x ^ 2 := by gcongr
    nlinarith

/-- The start value on axis that makes the field vanish at infinity. -/
noncomputable def a0Exact (n : ℕ) (p : ℕ → BPart) : ℝ :=
  -(run BPart.step p (0, 0) n).1 / (KU p n).1

/-- The exact coefficients. -/
noncomputable def exact (n : ℕ) (p : ℕ → BPart) (j : ℕ) : ℝ × ℝ :=
  run BPart.step p (a0Exact n p, 0) j

theorem exact_eq (n : ℕ) (p : ℕ → BPart) (j : ℕ) :
    exact n p j = ((run BPart.step p (0, 0) j).1 + (KU p j).1 * a0Exact n p,
      (run BPart.step p (0, 0) j).2 + (KU p j).2 * a0Exact n p) := by
  have := run_step_affine p (0, 0) (1, 0) (a0Exact n p) j
  simp only [zero_add, one_mul, zero_mul] at this
  exact this

theorem exact_last {n : ℕ} {p : ℕ → BPart} (h : GoodParts n p) : (exact n p n).1 = 0 := by
  rw [exact_eq]
  have := (K_ge_one h n le_rfl).1
  have : (KU p n).1 ≠ 0 := by intro h0; rw [h0] at this; linarith
  simp only [a0Exact]
  field_simp; ring

theorem exact_solves {n : ℕ} {p : ℕ → BPart} (h : GoodParts n p) (hn : 0 < n) :
    Solves n p (a0Exact n p) (fun k => exact n p (k + 1)) := by
  have key : ∀ k < n, exact n p (k + 1) =
      (p k).step (inside (a0Exact n p) (fun k => exact n p (k + 1)) k) := by
    intro k _
    unfold inside
    by_cases h0 : k = 0
    · subst h0; simp [exact, run]
    · rw [if_neg h0]
      show exact n p (k + 1) = (p k).step (exact n p (k - 1 + 1))
      rw [Nat.sub_add_cancel (by omega)]; rfl
  refine ⟨fun k hk => ((step_iff _ (h.r k hk).ne' _ _).mp (key k hk)).1,
    fun k hk => ((step_iff _ (h.r k hk).ne' _ _).mp (key k hk)).2, ?_⟩
  show (exact n p (n - 1 + 1)).1 = 0
  rw [Nat.sub_add_cancel hn]; exact exact_last h

/-- The boundary value problem has no other solution. -/
theorem solves_unique {n : ℕ} {p : ℕ → BPart} (h : GoodParts n p) (hn : 0 < n) {a0 : ℝ}
    {ab : ℕ → ℝ × ℝ} (hs : Solves n p a0 ab) :
    a0 = a0Exact n p ∧ ∀ k < n, ab k = exact n p (k + 1) := by
  have hrun : ∀ k < n, ab k = run BPart.step p (a0, 0) (k + 1) := by
    intro k
    induction k with
    | zero =>
      intro hk
      have := (step_iff _ (h.r 0 hk).ne' (inside a0 ab 0) (ab 0)).mpr ⟨hs.jump 0 hk, hs.curl 0 hk⟩
      rw [this]; rfl
    | succ k ih =>
      intro hk
      have := (step_iff _ (h.r _ hk).ne' (inside a0 ab (k + 1)) (ab (k + 1))).mpr
        ⟨hs.jump _ hk, hs.curl _ hk⟩
      rw [this, run, ← ih (by omega)]; rfl
  have hK := (K_ge_one h n le_rfl).1
  have hK0 : (KU p n).1 ≠ 0 := by intro h0; rw [h0] at hK; linarith
  have haff := run_step_affine p (0, 0) (1, 0) a0 n
  simp only [zero_add, one_mul, zero_mul] at haff
  have hlast := hrun (n - 1) (by omega)
  rw [Nat.sub_add_cancel hn, haff] at hlast
  have hz := hs.decay
  rw [hlast] at hz
  simp only at hz
  have ha : a0 = a0Exact n p := by
    unfold a0Exact
    rw [eq_div_iff hK0]
    show a0 * (run BPart.hom p (1, 0) n).1 = _
    linarith
  refine ⟨ha, fun k hk => ?_⟩
  rw [hrun k hk, ha]; rfl

/-! ### The restart loop -/

theorem stopAt_spec (pass : ℕ → Bool) (m i : ℕ) (hm : 0 < m) (hp : pass i = true) :
    i < stopAt pass m i ∧ stopAt pass m i ≤ i + m := by
  have gen : ∀ m i, i ≤ stopAt pass m i ∧ stopAt pass m i ≤ i + m := by
    intro m
    induction m with
    | zero => intro i; simp [stopAt]
    | succ m ih =>
      intro i
      unfold stopAt
      by_cases h : pass i
      · rw [if_pos h]; have := ih (i + 1); omega
      · rw [if_neg h]; omega
  obtain ⟨m, rfl⟩ : ∃ m', m = m' + 1 := ⟨m - 1, by omega⟩
  unfold stopAt
  rw [if_pos hp]
  have := gen m (i + 1); omega

/-- Invariant of the `while` loop. -/
structure AxisInv (n : ℕ) (p : ℕ → BPart) (s : BState) : Prop where
  le : s.start ≤ n
  done : ∀ i < s.start, s.TP i = exact n p (i + 1)
  first : s.start = 0 → s.im1 = (0, 0) ∧ s.a0 = 0
  later : 0 < s.start → s.a0 = a0Exact n p
  carry : 0 < s.start → s.start < n → s.im1 = exact n p s.start

theorem axisIter_inv (ok : ℝ → ℝ → ℝ → ℝ → Bool) {n : ℕ} {p : ℕ → BPart} (h : GoodParts n p)
    (s : BState) (hs : AxisInv n p s) (hlt : s.start < n) :
    AxisInv n p (axisIter ok n p s) ∧ s.start < (axisIter ok n p s).start := by
  -- what the forward sweep computes
  have hsweep : ∃ d : ℝ, s.a0 + d = a0Exact n p ∧
      d = -(run BPart.step (fun k => p (s.start + k)) s.im1 (n - s.start)).1 / (KU p n).1 ∧
      ∀ i, s.start ≤ i → i < n →
      ((run BPart.step (fun k => p (s.start + k)) s.im1 (i + 1 - s.start)).1 + (KU p (i + 1)).1 * d,
       (run BPart.step (fun k => p (s.start + k)) s.im1 (i + 1 - s.start)).2 + (KU p (i + 1)).2 * d)
        = exact n p (i + 1) := by
    rcases Nat.eq_zero_or_pos s.start with h0 | h0
    · obtain ⟨h1, h2⟩ := hs.first h0
      refine ⟨a0Exact n p, by rw [h2]; ring, ?_, ?_⟩
      · rw [h0, h1]; simp only [Nat.zero_add, Nat.sub_zero]; rfl
      · intro i _ hi
        rw [h0, h1, exact_eq]
        simp only [Nat.zero_add, Nat.sub_zero]
    · have hc := hs.carry h0 hlt
      have hrun : ∀ j, run BPart.step (fun k => p (s.start + k)) s.im1 j =
          exact n p (s.start + j) := by
        intro j
        rw [hc]; unfold exact; rw [run_add]
      refine ⟨0, by rw [hs.later h0]; ring, ?_, ?_⟩
      · rw [hrun, Nat.add_sub_cancel' hs.le, exact_last h]; simp
      · intro i hi _
        rw [hrun, Nat.add_sub_cancel' (show s.start ≤ i + 1 by omega)]
        ext <;> simp
  obtain ⟨d, hd1, hd2, hd3⟩ := hsweep
  have hstop := stopAt_spec (fun i => decide (i = s.start) || decide (i = n - 1) ||
    ok ((if s.start ≤ i ∧ i < n then
        run BPart.step (fun k => p (s.start + k)) s.im1 (i + 1 - s.start) else s.TP i)).1
      ((KU p (i + 1)).1 * d)
      ((if s.start ≤ i ∧ i < n then
        run BPart.step (fun k => p (s.start + k)) s.im1 (i + 1 - s.start) else s.TP i)).2
      ((KU p (i + 1)).2 * d)) (n - s.start) s.start (by omega) (by simp)
  unfold axisIter
  simp only [← hd2]
  generalize hst : stopAt _ (n - s.start) s.start = st at *
  have hTP : ∀ i < st, (if s.start ≤ i ∧ i < st then
      ((if s.start ≤ i ∧ i < n then
        run BPart.step (fun k => p (s.start + k)) s.im1 (i + 1 - s.start) else s.TP i).1 +
          (KU p (i + 1)).1 * d,
       (if s.start ≤ i ∧ i < n then
        run BPart.step (fun k => p (s.start + k)) s.im1 (i + 1 - s.start) else s.TP i).2 +
          (KU p (i + 1)).2 * d)
      else if s.start ≤ i ∧ i < n then
        run BPart.step (fun k => p (s.start + k)) s.im1 (i + 1 - s.start) else s.TP i) =
      exact n p (i + 1) := by
    intro i hi
    by_cases hle : s.start ≤ i
    · have c1 : s.start ≤ i ∧ i < st := ⟨hle, hi⟩
      have c2 : s.start ≤ i ∧ i < n := ⟨hle, by omega⟩
      rw [if_pos c1, if_pos c2]
      exact hd3 i hle (by omega)
    · have c1 : ¬ (s.start ≤ i ∧ i < st) := by omega
      have c2 : ¬ (s.start ≤ i ∧ i < n) := by omega
      rw [if_neg c1, if_neg c2]
      exact hs.done i (by omega)
  refine ⟨⟨by simp only []; omega, hTP, fun h0 => ?_, fun _ => hd1, fun h0 h1 => ?_⟩, hstop.1⟩
  · simp only at h0; omega
  · simp only at h0 h1 ⊢
    rw [if_pos h1]
    have := hTP (st - 1) (by omega)
    exact this.trans (by congr 1; omega)

/-- The loop ends after at most `n - start` iterations, in the exact solution. -/
theorem axisLoop_spec (ok : ℝ → ℝ → ℝ → ℝ → Bool) {n : ℕ} {p : ℕ → BPart} (h : GoodParts n p)
    (fuel : ℕ) (s : BState) (hs : AxisInv n p s) (hf : n - s.start ≤ fuel) :
    ∃ s', axisLoop ok n p fuel s = some s' ∧ AxisInv n p s' ∧ s'.start = n := by
  induction fuel generalizing s with
  | zero =>
    have := hs.le
    have hge : ¬ s.start < n := by omega
    exact ⟨s, by rw [axisLoop, if_neg hge], hs, by omega⟩
  | succ f ih =>
    rw [axisLoop]
    by_cases hlt : s.start < n
    · rw [if_pos hlt]
      obtain ⟨h1, h2⟩ := axisIter_inv ok h s hs hlt
      exact ih _ h1 (by omega)
    · rw [if_neg hlt]
      have := hs.le
      exact ⟨s, rfl, hs, by omega⟩

/-- **C60.** For every precision test `ok` (in particular the one of the code, with or
without rounding) the computation of the field coefficients ends after at most `n` passes,
and its result solves the boundary value problem. -/
theorem axis_solves (ok : ℝ → ℝ → ℝ → ℝ → Bool) {n : ℕ} (hn : 0 < n) {p : ℕ → BPart}
    (h : GoodParts n p) (fuel : ℕ) (hf : n ≤ fuel) :
    ∃ res, aiBiFromAxis ok n p fuel = some res ∧ Solves n p res.a0 res.ab := by
  have h0 : AxisInv n p ⟨0, (0, 0), fun _ => (0, 0), 0⟩ := by
    constructor <;> simp
  obtain ⟨s', h1, h2, h3⟩ := axisLoop_spec ok h fuel _ h0 (by simpa using hf)
  refine ⟨⟨s'.TP, s'.a0⟩, by unfold aiBiFromAxis; rw [h1]; rfl, ?_⟩
  have hE := exact_solves h hn
  have ha : s'.a0 = a0Exact n p := h2.later (by omega)
  have hT : ∀ i < n, s'.TP i = exact n p (i + 1) := fun i hi => h2.done i (by omega)
  have hin : ∀ k < n, inside s'.a0 s'.TP k =
      inside (a0Exact n p) (fun k => exact n p (k + 1)) k := by
    intro k hk
    unfold inside
    by_cases hk0 : k = 0
    · rw [if_pos hk0, if_pos hk0, ha]
    · rw [if_neg hk0, if_neg hk0, hT _ (by omega)]
  refine ⟨fun k hk => ?_, fun k hk => ?_, ?_⟩
  · simp only []
    rw [hT k hk, hin k hk]; exact hE.jump k hk
  · simp only []
    rw [hT k hk, hin k hk]; exact hE.curl k hk
  · simp only []
    rw [hT _ (by omega)]; exact hE.decay

/-- **C60.** The boundary value problem determines the field: any other solution has the
same coefficients.  In particular the precision test and the number of restarts do not
change the result. -/
theorem axis_unique (ok : ℝ → ℝ → ℝ → ℝ → Bool) {n : ℕ} (hn : 0 < n) {p : ℕ → BPart}
    (h : GoodParts n p) (fuel : ℕ) (hf : n ≤ fuel) (res : BResult)
    (hres : aiBiFromAxis ok n p fuel = some res) (a0 : ℝ) (ab : ℕ → ℝ × ℝ)
    (hs : Solves n p a0 ab) : res.a0 = a0 ∧ ∀ k < n, res.ab k = ab k := by
  obtain ⟨res', h1, h2⟩ := axis_solves ok hn h fuel hf
  rw [h1] at hres
  obtain rfl := Option.some.inj hres
  obtain ⟨e1, e2⟩ := solves_unique h hn h2
  obtain ⟨f1, f2⟩ := solves_unique h hn hs
  exact ⟨by rw [e1, f1], fun k hk => by rw [e2 k hk, f2 k hk]⟩

/-- **C60.** The values on the grid: at every radius the field of the region in which it
lies (`c` particles have a smaller radius). -/
theorem bTheta_grid (ok : ℝ → ℝ → ℝ → ℝ → Bool) {n : ℕ} (hn : 0 < n) {p : ℕ → BPart}
    (h : GoodParts n p) (fuel : ℕ) (hf : n ≤ fuel) (rFld : List ℝ)
    (hs : rFld.Pairwise (· ≤ ·)) (a0 : ℝ) (ab : ℕ → ℝ × ℝ) (hsol : Solves n p a0 ab) :
    calculateBTheta ok rFld n p fuel = some (rFld.map fun x =>
      fieldOf (inside a0 ab ((Finset.range n).filter fun k => (p k).r < x).card) x) := by
  obtain ⟨res, h1, _⟩ := axis_solves ok hn h fuel hf
  obtain ⟨e1, e2⟩ := axis_unique ok hn h fuel hf res h1 a0 ab hsol
  unfold calculateBTheta
  rw [h1]
  simp only [Option.map_some]
  congr 1
  apply gridLoop_spec n _ _ _ ?_ rFld hs 0 (by omega) (fun _ _ k hk => absurd hk (by omega))
  intro rj c hc hlt hge
  have hcard : ((Finset.range n).filter fun k => (p k).r < rj).card = c := by
    have : (Finset.range n).filter (fun k => (p k).r < rj) = Finset.range c := by
      ext k
      rw [Finset.mem_filter, Finset.mem_range, Finset.mem_range]
      constructor
      · rintro ⟨hk, hkr⟩
        by_contra hck
        have := h.mono c k (by omega) hk
        have := hge (by omega)
        linarith
      · intro hk; exact ⟨by omega, hlt k hk⟩
    rw [this, Finset.card_range]
  rw [hcard]
  unfold inside fieldOf
  by_cases h0 : c = 0
  · subst h0; simp [e1]
  · have hne : ¬ ((c : ℤ) - 1 = -1) := by omega
    rw [if_neg hne, if_neg h0, show ((c : ℤ) - 1).toNat = c - 1 by omega, e2 _ (by omega)]

/-! ### The algorithm that starts at the edge -/

theorem hom_homIn (p : BPart) (hr : p.r ≠ 0) (hψ : 1 + p.psi ≠ 0) (x : ℝ × ℝ) :
    p.hom (p.homIn x) = x := by
  unfold BPart.hom BPart.homIn BPart.A
  ext <;> simp only [] <;> field_simp <;> ring

theorem step_stepIn (p : BPart) (hr : p.r ≠ 0) (hψ : 1 + p.psi ≠ 0) (x : ℝ × ℝ) :
    p.step (p.stepIn x) = x := by
  unfold BPart.step BPart.stepIn
  have hA : p.A = p.q / (p.r * (1 + p.psi)) := by unfold BPart.A; ring
  rw [hA]
  generalize p.B = B; generalize p.C = C
  ext <;> simp only [] <;> field_simp <;> ring

theorem run_stepIn_affine (p : ℕ → BPart) (x h : ℝ × ℝ) (c : ℝ) (j : ℕ) :
    run BPart.stepIn p (x.1 + h.1 * c, x.2 + h.2 * c) j =
      ((run BPart.stepIn p x j).1 + (run BPart.homIn p h j).1 * c,
       (run BPart.stepIn p x j).2 + (run BPart.homIn p h j).2 * c) := by
  induction j with
  | zero => rfl
  | succ j ih =>
    rw [run, ih, run, run]
    unfold BPart.stepIn BPart.homIn
    ext <;> simp only [] <;> ring

/-- The coefficient `U` of the inward recurrence never falls below 1. -/
theorem U_ge_one {n : ℕ} {p : ℕ → BPart} (h : GoodParts n p) (j : ℕ) (hj : j ≤ n) :
    1 ≤ (KUin n p j).2 ∧ (KUin n p j).1 ≤ 0 ∧
      (∀ x, 0 < x → (∀ k < j, x ≤ (rev n p k).r) →
        0 < (KUin n p j).1 * x ^ 2 + (KUin n p j).2) := by
  induction j with
  | zero =>
    refine ⟨le_rfl, le_rfl, fun x hx _ => ?_⟩
    simp [KUin, run]
  | succ j ih =>
    obtain ⟨h1, h2, h3⟩ := ih (by omega)
    have hlt : n - 1 - j < n := by omega
    have hr := h.r _ hlt
    have hq := h.q _ hlt
    have hψ : 0 < 1 + (p (n - 1 - j)).psi := by linarith [h.psi _ hlt]
    have hW := h3 _ hr (fun k hk => h.mono (n - 1 - j) (n - 1 - k) (by omega) (by omega))
    have e : KUin n p (j + 1) = (p (n - 1 - j)).homIn (KUin n p j) := rfl
    set K := (KUin n p j).1
    set U := (KUin n p j).2
    set q := (p (n - 1 - j)).q
    set r := (p (n - 1 - j)).r
    set ψ := (p (n - 1 - j)).psi
    have eK : (KUin n p (j + 1)).1 = K - 1 / 2 * (q / ((1 + ψ) * r ^ 2)) * (K * r ^ 2 + U) := by
      rw [e]; simp only [BPart.homIn]
      show (1 - 1 / 2 * q / (1 + ψ)) * K + -(1 / 2) * q / ((1 + ψ) * r ^ 2) * U = _
      field_simp; ring
    have eU : (KUin n p (j + 1)).2 = U + 1 / 2 * (q / (1 + ψ)) * (K * r ^ 2 + U) := by
      rw [e]; simp only [BPart.homIn]
      show 1 / 2 * q / (1 + ψ) * r ^ 2 * K + (1 + 1 / 2 * q / (1 + ψ)) * U = _
      ring
    have p1 : 0 ≤ 1 / 2 * (q / ((1 + ψ) * r ^ 2)) * (K * r ^ 2 + U) := by positivity
    have p2 : 0 ≤ 1 / 2 * (q / (1 + ψ)) * (K * r ^ 2 + U) := by positivity
    have hK : (KUin n p (j + 1)).1 ≤ 0 := by rw [eK]; linarith
    refine ⟨by rw [eU]; linarith, hK, fun x hx hxr => ?_⟩
    have hxr' : x ≤ r := hxr j (by omega)
    have eW : (KUin n p (j + 1)).1 * r ^ 2 + (KUin n p (j + 1)).2 = K * r ^ 2 + U := by
      rw [eK, eU]; field_simp; ring
    have : x ^ 2 ≤ r ^ 2 := by gcongr
    nlinarith

/-- The coefficient outside of the last particle that makes the field regular on axis. -/
noncomputable def bNExact (n : ℕ) (p : ℕ → BPart) : ℝ :=
  -(run BPart.stepIn (rev n p) (0, 0) n).2 / (KUin n p n).2

/-- The exact coefficients, counted from the edge: before inward step `j`. -/
noncomputable def exactIn (n : ℕ) (p : ℕ → BPart) (j : ℕ) : ℝ × ℝ :=
  run BPart.stepIn (rev n p) (0, bNExact n p) j

theorem exactIn_eq (n : ℕ) (p : ℕ → BPart) (j : ℕ) :
    exactIn n p j = ((run BPart.stepIn (rev n p) (0, 0) j).1 + (KUin n p j).1 * bNExact n p,
      (run BPart.stepIn (rev n p) (0, 0) j).2 + (KUin n p j).2 * bNExact n p) := by
  have := run_stepIn_affine (rev n p) (0, 0) (0, 1) (bNExact n p) j
  simp only [zero_add, one_mul, zero_mul] at this
  exact this

theorem exactIn_axis {n : ℕ} {p : ℕ → BPart} (h : GoodParts n p) : (exactIn n p n).2 = 0 := by
  rw [exactIn_eq]
  have := (U_ge_one h n le_rfl).1
  have : (KUin n p n).2 ≠ 0 := by intro h0; rw [h0] at this; linarith
  simp only [bNExact]
  field_simp; ring

theorem exactIn_solves {n : ℕ} {p : ℕ → BPart} (h : GoodParts n p) (hn : 0 < n) :
    Solves n p (exactIn n p n).1 (fun k => exactIn n p (n - 1 - k)) := by
  have key : ∀ k < n, exactIn n p (n - 1 - k) =
      (p k).step (inside (exactIn n p n).1 (fun k => exactIn n p (n - 1 - k)) k) := by
    intro k hk
    have hψ : 1 + (p k).psi ≠ 0 := by have := h.psi k hk; intro h0; linarith
    have hstep : exactIn n p (n - 1 - k + 1) = (p k).stepIn (exactIn n p (n - 1 - k)) := by
      show (rev n p (n - 1 - k)).stepIn _ = _
      unfold rev
      rw [show n - 1 - (n - 1 - k) = k by omega]; rfl
    unfold inside
    by_cases h0 : k = 0
    · rw [if_pos h0]
      have : ((exactIn n p n).1, (0 : ℝ)) = exactIn n p n := by
        ext
        · rfl
        · exact (exactIn_axis h).symm
      rw [this, show exactIn n p n = exactIn n p (n - 1 - k + 1) by rw [h0]; congr 1; omega,
        hstep, step_stepIn _ (h.r k hk).ne' hψ]
    · rw [if_neg h0]
      simp only []
      rw [show n - 1 - (k - 1) = n - 1 - k + 1 by omega, hstep,
        step_stepIn _ (h.r k hk).ne' hψ]
  refine ⟨fun k hk => ((step_iff _ (h.r k hk).ne' _ _).mp (key k hk)).1,
    fun k hk => ((step_iff _ (h.r k hk).ne' _ _).mp (key k hk)).2, ?_⟩
  show (exactIn n p (n - 1 - (n - 1))).1 = 0
  rw [Nat.sub_self]; rfl

/-- Invariant of the `while` loop of the edge algorithm. -/
structure EdgeInv (n : ℕ) (p : ℕ → BPart) (s : BState) : Prop where
  le : s.start ≤ n
  done : ∀ i < s.start, s.TP i = exactIn n p i
  first : s.start = 0 → s.im1 = (0, 0)
  later : 0 < s.start → s.im1 = exactIn n p s.start

theorem edgeIter_inv (ok : ℝ → ℝ → ℝ → ℝ → Bool) {n : ℕ} {p : ℕ → BPart} (h : GoodParts n p)
    (s : BState) (hs : EdgeInv n p s) (hlt : s.start < n) :
    EdgeInv n p (edgeIter ok n p s) ∧ s.start < (edgeIter ok n p s).start := by
  have hsweep : ∃ d : ℝ,
      d = -(run BPart.stepIn (fun k => rev n p (s.start + k)) s.im1 (n - s.start)).2 /
        (KUin n p n).2 ∧
      ∀ i, s.start ≤ i → i ≤ n →
      ((run BPart.stepIn (fun k => rev n p (s.start + k)) s.im1 (i - s.start)).1 +
          (KUin n p i).1 * d,
       (run BPart.stepIn (fun k => rev n p (s.start + k)) s.im1 (i - s.start)).2 +
          (KUin n p i).2 * d) = exactIn n p i := by
    rcases Nat.eq_zero_or_pos s.start with h0 | h0
    · have h1 := hs.first h0
      refine ⟨bNExact n p, ?_, ?_⟩
      · rw [h0, h1]; simp only [Nat.zero_add, Nat.sub_zero]; rfl
      · intro i _ hi
        rw [h0, h1, exactIn_eq]
        simp only [Nat.zero_add, Nat.sub_zero]
    · have hc := hs.later h0
      have hrun : ∀ j, run BPart.stepIn (fun k => rev n p (s.start + k)) s.im1 j =
          exactIn n p (s.start + j) := by
        intro j
        rw [hc]; unfold exactIn; rw [run_add]
      refine ⟨0, ?_, ?_⟩
      · rw [hrun, Nat.add_sub_cancel' hs.le, exactIn_axis h]; simp
      · intro i hi _
        rw [hrun, Nat.add_sub_cancel' hi]
        ext <;> simp
  obtain ⟨d, hd2, hd3⟩ := hsweep
  have hstop := stopAt_spec (fun i => decide (i = s.start) ||
    ok ((if s.start ≤ i ∧ i < n then
        run BPart.stepIn (fun k => rev n p (s.start + k)) s.im1 (i - s.start) else s.TP i)).1
      ((KUin n p i).1 * d)
      ((if s.start ≤ i ∧ i < n then
        run BPart.stepIn (fun k => rev n p (s.start + k)) s.im1 (i - s.start) else s.TP i)).2
      ((KUin n p i).2 * d)) (n - s.start) s.start (by omega) (by simp)
  unfold edgeIter
  simp only [← hd2]
  generalize hst : stopAt _ (n - s.start) s.start = st at *
  refine ⟨⟨by simp only []; omega, ?_, fun h0 => ?_, fun h0 => ?_⟩, hstop.1⟩
  · intro i hi
    simp only at hi ⊢
    by_cases hle : s.start ≤ i
    · have c1 : s.start ≤ i ∧ i < st := ⟨hle, hi⟩
      have c2 : s.start ≤ i ∧ i < n := ⟨hle, by omega⟩
      rw [if_pos c1, if_pos c2]
      exact hd3 i hle (by omega)
    · have c1 : ¬ (s.start ≤ i ∧ i < st) := by omega
      have c2 : ¬ (s.start ≤ i ∧ i < n) := by omega
      rw [if_neg c1, if_neg c2]
      exact hs.done i (by omega)
  · simp only at h0; omega
  · simp only []
    by_cases hn : st < n
    · rw [if_pos hn]
      have c1 : ¬ (s.start ≤ st ∧ st < st) := by omega
      have c2 : s.start ≤ st ∧ st < n := ⟨by omega, hn⟩
      rw [if_neg c1, if_pos c2]
      exact hd3 st (by omega) (by omega)
    · rw [if_neg hn]
      have : st = n := by omega
      rw [this]
      exact hd3 n hs.le le_rfl

theorem edgeLoop_spec (ok : ℝ → ℝ → ℝ → ℝ → Bool) {n : ℕ} {p : ℕ → BPart} (h : GoodParts n p)
    (fuel : ℕ) (s : BState) (hs : EdgeInv n p s) (hf : n - s.start ≤ fuel) :
    ∃ s', edgeLoop ok n p fuel s = some s' ∧ EdgeInv n p s' ∧ s'.start = n := by
  induction fuel generalizing s with
  | zero =>
    have := hs.le
    have hge : ¬ s.start < n := by omega
    exact ⟨s, by rw [edgeLoop, if_neg hge], hs, by omega⟩
  | succ f ih =>
    rw [edgeLoop]
    by_cases hlt : s.start < n
    · rw [if_pos hlt]
      obtain ⟨h1, h2⟩ := edgeIter_inv ok h s hs hlt
      exact ih _ h1 (by omega)
    · rw [if_neg hlt]
      have := hs.le
      exact ⟨s, rfl, hs, by omega⟩

/-- **C91.** The alternative algorithm that starts at the edge ends and gives the same
coefficients and axis value as the one that starts on the axis. -/
theorem edge_eq_axis (ok ok' : ℝ → ℝ → ℝ → ℝ → Bool) {n : ℕ} (hn : 0 < n) {p : ℕ → BPart}
    (h : GoodParts n p) (fuel fuel' : ℕ) (hf : n ≤ fuel) (hf' : n ≤ fuel') :
    ∃ res res', aiBiFromAxis ok n p fuel = some res ∧ aiBiFromEdge ok' n p fuel' = some res' ∧
      res.a0 = res'.a0 ∧ ∀ k < n, res.ab k = res'.ab k := by
  obtain ⟨res, h1, h2⟩ := axis_solves ok hn h fuel hf
  have h0 : EdgeInv n p ⟨0, (0, 0), fun _ => (0, 0), 0⟩ := by
    constructor <;> simp
  obtain ⟨s', g1, g2, g3⟩ := edgeLoop_spec ok' h fuel' _ h0 (by simpa using hf')
  refine ⟨res, ⟨fun k => s'.TP (n - 1 - k), s'.im1.1⟩, h1,
    by unfold aiBiFromEdge; rw [g1]; rfl, ?_⟩
  obtain ⟨u1, u2⟩ := axis_unique ok hn h fuel hf res h1 _ _ (exactIn_solves h hn)
  constructor
  · rw [u1]; simp only []
    rw [g2.later (by omega), g3]
  · intro k hk
    rw [u2 k hk]; simp only []
    rw [g2.done _ (by omega)]

/-- Two particles at the same radius and one further out, moving. -/
noncomputable def demoB (k : ℕ) : BPart :=
  { r := if k = 2 then 2 else 1, pr := 1 / 2, q := 1 / 3, gamma := 2, psi := -1 / 2, drPsi := 1,
    dxiPsi := 1, bTheta0 := 1, nablaA2 := 0 }

theorem demoB_good : GoodParts 3 demoB where
  r := by intro k _; unfold demoB; simp only []; split_ifs <;> norm_num
  mono := by
    intro k l hkl hl
    unfold demoB
    interval_cases l <;> interval_cases k <;> norm_num
  q := by intro k _; norm_num [demoB]
  psi := by intro k _; norm_num [demoB]

end WakeT.Plasma
