import Verif.Plasma.PushProps
import Verif.Base.Converge
import Mathlib.Analysis.Calculus.Deriv.Prod
import Mathlib.Data.Real.Sign
import Mathlib.Analysis.SpecialFunctions.Trigonometric.Deriv
import Mathlib.Analysis.SpecialFunctions.SmoothTransition
import Mathlib.MeasureTheory.Integral.IntervalIntegral.FundThmCalculus

/-! # Order of the two plasma pushers

The plasma particles of the quasi-static model move, with the distance `t` behind the head of the window as time, in fields
computed from the positions and momenta of all of them.  Both pushers follow this motion with the order of their method, also
through the axis. -/

set_option linter.unusedSectionVars false

namespace WakeT.Plasma

open Set

/-- Specification: `N` plasma particles move in the fields `F t`, which are smooth (`n` times) near the motion.  Particles may
go through the axis. -/
structure PlasmaMotion (n N : ℕ) (F : ℝ → (ℕ → RP) → ℕ → PFields) (T : ℝ) (y : ℝ → ℕ → RP) : Prop where
  T0 : 0 < T
  start : ∀ i, 0 ≤ (y 0 i).r
  /-- The fields know particles only as rings. -/
  rings : ∀ t, Symmetric (F t)
  /-- There are no other particles. -/
  only : ∀ t x x', (∀ j < N, x j = x' j) → ∀ i < N, F t x i = F t x' i
  moves_r : ∀ t ∈ Icc 0 T, ∀ i < N, HasDerivWithinAt (fun s => (y s i).r) (slope (F t) (y t) i).r (Icc 0 T) t
  moves_pr : ∀ t ∈ Icc 0 T, ∀ i < N, HasDerivWithinAt (fun s => (y s i).pr) (slope (F t) (y t) i).pr (Icc 0 T) t
  smooth : ∃ δ > 0, ∃ Ψ : ℝ × (Fin N → ℝ × ℝ) → Fin N → ℝ × ℝ, ContDiff ℝ n Ψ ∧
    ∀ t ∈ Icc 0 T, ∀ x : ℕ → RP, (∀ i < N, |(x i).r - (y t i).r| ≤ δ ∧ |(x i).pr - (y t i).pr| ≤ δ) →
      ∀ i : Fin N, Ψ (t, fun j => ((x j).r, (x j).pr)) i = ((slope (F t) x i).r, (slope (F t) x i).pr)

/-- The particles after `n` calls of `evolve_plasma_ab5` (ab5.py 10-72) from slice to slice (solver.py 251-284), in the fields
`F t` at the distance `t` from the first slice. -/
noncomputable def runAb5 (h : ℝ) (F : ℝ → (ℕ → RP) → ℕ → PFields) (x : ℕ → RP) (n : ℕ) : ℕ → AbPart :=
  Nat.rec (fun i => AbPart.init (x i)) (fun k q => evolveAb5 h (F (k * h)) q) n

/-- The particles after `n` calls of `evolve_plasma_rk4` (rk4.py 10-85, solver.py 330-350). -/
noncomputable def runRk4 (h : ℝ) (F : ℝ → (ℕ → RP) → ℕ → PFields) (x : ℕ → RP) (n : ℕ) : ℕ → RP :=
  Nat.rec x (fun k q => evolveRk4 h (F (k * h) q) (F (k * h + h / 2)) (F (k * h + h)) q) n

/-! ### States as vectors -/

private noncomputable def vec (N : ℕ) (x : ℕ → RP) : Fin N → ℝ × ℝ := fun i => ((x i).r, (x i).pr)

private noncomputable def unvec {N : ℕ} (p : Fin N → ℝ × ℝ) : ℕ → RP :=
  fun i => if h : i < N then ⟨(p ⟨i, h⟩).1, (p ⟨i, h⟩).2⟩ else ⟨0, 0⟩

private theorem unvec_vec {N : ℕ} (x : ℕ → RP) {j : ℕ} (hj : j < N) : unvec (vec N x) j = x j := by
  unfold unvec vec; rw [dif_pos hj]

private theorem vec_unvec {N : ℕ} (p : Fin N → ℝ × ℝ) : vec N (unvec p) = p := by
  funext i; unfold unvec vec; simp only [dif_pos i.2]

private noncomputable def rate (N : ℕ) (F : ℝ → (ℕ → RP) → ℕ → PFields) (t : ℝ) (p : Fin N → ℝ × ℝ) : Fin N → ℝ × ℝ :=
  vec N (slope (F t) (unvec p))

variable {n N : ℕ} {F : ℝ → (ℕ → RP) → ℕ → PFields} {T : ℝ} {y : ℝ → ℕ → RP}

private theorem slope_unvec (hy : PlasmaMotion n N F T y) (t : ℝ) (x : ℕ → RP) {i : ℕ} (hi : i < N) :
    slope (F t) (unvec (vec N x)) i = slope (F t) x i := by
  unfold slope
  rw [hy.only t _ x (fun j hj => unvec_vec x hj) i hi, unvec_vec x hi]

private theorem rate_vec (hy : PlasmaMotion n N F T y) (t : ℝ) (x : ℕ → RP) : rate N F t (vec N x) = vec N (slope (F t) x) := by
  funext i
  unfold rate vec
  have := slope_unvec hy t x i.2
  unfold vec at this
  rw [this]

private theorem motion_smooth (hy : PlasmaMotion n N F T y) : ∃ δ, Order.SmoothNear n (rate N F) T δ fun t => vec N (y t) := by
  obtain ⟨δ, hδ, Ψ, hΨ, h⟩ := hy.smooth
  refine ⟨δ, hy.T0, hδ, ⟨Ψ, hΨ, fun t ht p hp => ?_⟩, fun t ht => ?_⟩
  · have := h t ht (unvec p) fun i hi => by
      have h1 := (norm_le_pi_norm (p - vec N (y t)) ⟨i, hi⟩).trans hp
      rw [Pi.sub_apply, Prod.norm_def, max_le_iff] at h1
      have e : unvec p i = ⟨(p ⟨i, hi⟩).1, (p ⟨i, hi⟩).2⟩ := by unfold unvec; rw [dif_pos hi]
      rw [e]
      exact h1
    have e : (fun j : Fin N => ((unvec p j).r, (unvec p j).pr)) = p := vec_unvec p
    rw [e] at this
    funext i
    exact (this i).symm
  · rw [rate_vec hy]
    refine hasDerivWithinAt_pi.2 fun i => ?_
    exact (hy.moves_r t ht i i.2).prodMk (hy.moves_pr t ht i i.2)

/-! ### Adams-Bashforth -/

private theorem through_run (h : ℝ) (F : ℝ → (ℕ → RP) → ℕ → PFields) (x : ℕ → RP) (i n : ℕ) :
    let run : ℕ → ℕ → AbPart := fun n => Nat.rec (fun i => AbPart.init (x i)) (fun k q => throughAb5 h (F (k * h)) q) n
    run n i = ab5Run h (fun k => F (k * h) (fun j => (run k j).x) i) (x i) n := by
  intro run
  induction n with
  | zero => rfl
  | succ n ih =>
    show ab5Push h (F (n * h) (fun j => (run n j).x) i) (run n i) = ab5Push h _ _
    rw [ih]

private theorem isRun_through (hy : PlasmaMotion n N F T y) (h : ℝ) (x : ℕ → RP) :
    Order.IsRun (rate N F) h fun k =>
      vec N fun i => ((Nat.rec (fun i => AbPart.init (x i)) (fun k q => throughAb5 h (F (k * h)) q) k : ℕ → AbPart) i).x := by
  intro m
  set run : ℕ → ℕ → AbPart := fun n => Nat.rec (fun i => AbPart.init (x i)) (fun k q => throughAb5 h (F (k * h)) q) n with hrun
  funext i
  have e : ∀ k, run k i = ab5Run h (fun k => F (k * h) (fun j => (run k j).x) i) (x i) k := fun k => through_run h F x i k
  obtain ⟨-, -, -, -, hr, hpr⟩ := ab5_history h (fun k => F (k * h) (fun j => (run k j).x) i) (x i) m
  simp only [← e] at hr hpr
  have hp : ∀ j, Order.past (rate N F) h (fun k => vec N fun i => (run k i).x) m j i =
      (if j ≤ m then (derivs (F ((m - j : ℕ) * h) (fun l => (run (m - j) l).x) i) (run (m - j) i).x.pr).r else 0,
       if j ≤ m then (derivs (F ((m - j : ℕ) * h) (fun l => (run (m - j) l).x) i) (run (m - j) i).x.pr).pr else 0) := by
    intro j
    unfold Order.past
    by_cases hj : j ≤ m
    · simp only [if_pos hj]
      rw [rate_vec hy]
      unfold vec slope
      rfl
    · simp only [if_neg hj]; rfl
  set P := Order.past (rate N F) h (fun k => vec N fun i => (run k i).x) m with hP
  show ((run (m + 1) i).x.r, (run (m + 1) i).x.pr) = (vec N (fun i => (run m i).x) + h • Order.ab5 (P 0) (P 1) (P 2) (P 3) (P 4)) i
  rw [hr, hpr]
  simp only [Pi.add_apply, Pi.smul_apply, Order.ab5, Pi.sub_apply, hp]
  unfold textbookAb5 vec
  simp only [Prod.mk_add_mk, Prod.smul_mk, Prod.mk_sub_mk, smul_eq_mul]
  refine Prod.ext ?_ ?_
  · simp only [Nat.sub_zero]; ring
  · simp only [Nat.sub_zero]; ring

private theorem sgn_close {s a b ε : ℝ} (hs : s = 1 ∨ s = -1) (h : |a - b| ≤ ε) : |s * a - s * b| ≤ ε := by
  rw [← mul_sub, abs_mul]
  rcases hs with rfl | rfl <;> simpa using h

private theorem vec_close {x x' : ℕ → RP} {ε : ℝ} (h : ‖vec N x - vec N x'‖ ≤ ε) {i : ℕ} (hi : i < N) :
    |(x i).r - (x' i).r| ≤ ε ∧ |(x i).pr - (x' i).pr| ≤ ε := by
  have h1 := (norm_le_pi_norm (vec N x - vec N x') ⟨i, hi⟩).trans h
  rw [Pi.sub_apply, Prod.norm_def, max_le_iff] at h1
  exact h1

/-- **C192** (AB5).  Plasma that is at rest up to some distance behind the head is followed with an error of fifth order in the
step, up to the side of the axis; in particular the radii are. -/
theorem ab5_order_partial (hy : PlasmaMotion 5 N F T y) {t0 : ℝ} (ht0 : 0 < t0)
    (hrest : ∀ t ∈ Icc 0 T, t ≤ t0 → ∀ i < N, y t i = y 0 i) :
    ∃ C h0 : ℝ, 0 ≤ C ∧ 0 < h0 ∧ ∀ h : ℝ, 0 < h → h ≤ h0 → ∀ n : ℕ, n * h ≤ T → ∀ i < N,
      |(runAb5 h F (y 0) n i).x.r - (|(y (n * h) i).r|)| ≤ C * h ^ 5 ∧
      ∃ s, (s = 1 ∨ s = -1) ∧ |(runAb5 h F (y 0) n i).x.r - s * (y (n * h) i).r| ≤ C * h ^ 5 ∧
        |(runAb5 h F (y 0) n i).x.pr - s * (y (n * h) i).pr| ≤ C * h ^ 5 := by
  obtain ⟨δ, hs⟩ := motion_smooth hy
  obtain ⟨C, h0, hC, hh0, key⟩ := Order.ab5_converges hs ht0 fun t ht h => by
    funext i; unfold vec; rw [hrest t ht h i i.2]
  refine ⟨C, h0, hC, hh0, fun h hh hle n hn i hi => ?_⟩
  have hk := vec_close (key h _ hh hle (isRun_through hy h (y 0)) rfl n hn) hi
  obtain ⟨t, ht, hrun⟩ := ab5_mirror_run h (fun k => F (k * h)) (fun k => hy.rings _) (fun i => AbPart.init (y 0 i)) hy.start n
  obtain ⟨e1, e2⟩ := hrun i
  refine ⟨?_, t i, ht i, ?_, ?_⟩
  · unfold runAb5
    rw [e2]
    exact (abs_abs_sub_abs_le_abs_sub _ _).trans hk.1
  · unfold runAb5
    rw [e1]
    exact sgn_close (ht i) hk.1
  · unfold runAb5
    rw [e1]
    exact sgn_close (ht i) hk.2

/-! ### Runge-Kutta -/

private theorem vec_plus (x : ℕ → RP) (c : ℝ) (k : ℕ → RP) : vec N (fun j => (x j).plus c (k j)) = vec N x + c • vec N k := by
  funext i; rfl

private theorem vec_through (hy : PlasmaMotion n N F T y) (h t : ℝ) (x : ℕ → RP) :
    vec N (throughRk4 h (slope (F t) x) (F (t + h / 2)) (F (t + h)) x) = Order.rk4 (rate N F) t h (vec N x) := by
  unfold Order.rk4
  simp only [rate_vec hy, ← vec_plus]
  funext i
  unfold throughRk4 vec
  simp only [Pi.add_apply, Pi.smul_apply, Prod.mk_add_mk, Prod.smul_mk, smul_eq_mul]
  refine Prod.ext ?_ ?_
  · simp only [RP.plus]; ring
  · simp only [RP.plus]; ring

/-- **C192** (RK4).  Plasma is followed with an error of fourth order in the step. -/
theorem rk4_order (hy : PlasmaMotion 4 N F T y) :
    ∃ C h0 : ℝ, 0 ≤ C ∧ 0 < h0 ∧ ∀ h : ℝ, 0 < h → h ≤ h0 → ∀ n : ℕ, n * h ≤ T → ∀ i < N,
      |(runRk4 h F (y 0) n i).r - (|(y (n * h) i).r|)| ≤ C * h ^ 4 ∧
      ∃ s, (s = 1 ∨ s = -1) ∧ |(runRk4 h F (y 0) n i).r - s * (y (n * h) i).r| ≤ C * h ^ 4 ∧
        |(runRk4 h F (y 0) n i).pr - s * (y (n * h) i).pr| ≤ C * h ^ 4 := by
  obtain ⟨δ, hs⟩ := motion_smooth hy
  obtain ⟨C, h0, hC, hh0, key⟩ := Order.rk4_converges hs
  refine ⟨C, h0, hC, hh0, fun h hh hle n hn i hi => ?_⟩
  set thr : ℕ → ℕ → RP := fun n => Nat.rec (y 0) (fun k q => throughRk4 h (slope (F (k * h)) q) (F (k * h + h / 2)) (F (k * h + h)) q) n with hthr
  have hk := vec_close (key h (fun k => vec N (thr k)) hh hle (fun k => vec_through hy h (k * h) (thr k)) rfl n hn) hi
  have hrun : ∀ n, ∃ t : ℕ → ℝ, (∀ i, t i = 1 ∨ t i = -1) ∧ ∀ i, runRk4 h F (y 0) n i = (thr n i).sgn (t i) ∧ 0 ≤ (runRk4 h F (y 0) n i).r := by
    intro n
    induction n with
    | zero => exact ⟨fun _ => 1, fun _ => Or.inl rfl, fun i => ⟨(RP.sgn_one _).symm, hy.start i⟩⟩
    | succ n ih =>
      obtain ⟨s, hs, hi⟩ := ih
      have e : runRk4 h F (y 0) n = fun i => (thr n i).sgn (s i) := funext fun i => (hi i).1
      have := rk4_mirror h (F (n * h)) (F (n * h + h / 2)) (F (n * h + h)) (hy.rings _) (hy.rings _) (hy.rings _) s hs (thr n)
      rw [← e] at this
      exact this
  obtain ⟨t, ht, hr⟩ := hrun n
  obtain ⟨e1, e2⟩ := hr i
  have c1 : |(runRk4 h F (y 0) n i).r - t i * (y (n * h) i).r| ≤ C * h ^ 4 := by rw [e1]; exact sgn_close (ht i) hk.1
  have c2 : |(runRk4 h F (y 0) n i).pr - t i * (y (n * h) i).pr| ≤ C * h ^ 4 := by rw [e1]; exact sgn_close (ht i) hk.2
  refine ⟨?_, t i, ht i, c1, c2⟩
  have e3 : |(y (n * h) i).r| = |t i * (y (n * h) i).r| := by
    rw [abs_mul]; rcases ht i with h1 | h1 <;> rw [h1] <;> simp
  rw [e3]
  have h4 := abs_abs_sub_abs_le_abs_sub (runRk4 h F (y 0) n i).r (t i * (y (n * h) i).r)
  rw [abs_of_nonneg e2] at h4
  exact h4.trans c1

/-! ### A particle that is pushed outwards -/

/-- Fields that push outwards with a strength `w t`. -/
private noncomputable def outward (w : ℝ → ℝ) (t : ℝ) (x : ℕ → RP) (i : ℕ) : PFields := ⟨1, 0, 0, 0, -(Real.sign (x i).r * w t), 0⟩

private noncomputable def pushed (w : ℝ → ℝ) (R t : ℝ) (_ : ℕ) : RP :=
  ⟨R + ∫ s in (0 : ℝ)..t, ∫ u in (0 : ℝ)..s, w u, ∫ u in (0 : ℝ)..t, w u⟩

private theorem outward_rings (w : ℝ → ℝ) (t : ℝ) : Symmetric (outward w t) := by
  intro s hs x i
  unfold outward PFields.sgn RP.sgn
  rcases hs i with h | h
  · simp [h]
  · simp [h, Real.sign_neg]

private theorem slope_outward {w : ℝ → ℝ} {t : ℝ} {x : ℕ → RP} {i : ℕ} (h : 0 < (x i).r) : slope (outward w t) x i = ⟨(x i).pr, w t⟩ := by
  unfold slope outward derivs
  simp [Real.sign_of_pos h]

private theorem pushed_motion {w : ℝ → ℝ} {R : ℝ} (hw : ContDiff ℝ 5 w) (hpos : ∀ t, 0 ≤ w t) (hR : 2 ≤ R) (hT : 0 < T) :
    PlasmaMotion 5 1 (outward w) T (pushed w R) := by
  have hP : ∀ t, HasDerivAt (fun t => ∫ u in (0 : ℝ)..t, w u) (w t) t := fun t =>
    intervalIntegral.integral_hasDerivAt_right (hw.continuous.intervalIntegrable _ _) (hw.continuous.stronglyMeasurableAtFilter _ _) hw.continuous.continuousAt
  have hPc : Continuous fun t => ∫ u in (0 : ℝ)..t, w u := continuous_iff_continuousAt.2 fun t => (hP t).continuousAt
  have hQ : ∀ t, HasDerivAt (fun t => ∫ s in (0 : ℝ)..t, ∫ u in (0 : ℝ)..s, w u) (∫ u in (0 : ℝ)..t, w u) t := fun t =>
    intervalIntegral.integral_hasDerivAt_right (hPc.intervalIntegrable _ _) (hPc.stronglyMeasurableAtFilter _ _) hPc.continuousAt
  have hP0 : ∀ t, 0 ≤ t → 0 ≤ ∫ u in (0 : ℝ)..t, w u := fun t ht => intervalIntegral.integral_nonneg ht fun u _ => hpos u
  have hQ0 : ∀ t, 0 ≤ t → 0 ≤ ∫ s in (0 : ℝ)..t, ∫ u in (0 : ℝ)..s, w u := fun t ht => intervalIntegral.integral_nonneg ht fun u hu => hP0 u hu.1
  have hr : ∀ t, 0 ≤ t → ∀ i, 2 ≤ (pushed w R t i).r := fun t ht i => by
    have := hQ0 t ht
    show 2 ≤ R + _
    linarith
  refine ⟨hT, fun i => by linarith [hr 0 le_rfl i], outward_rings w, fun t x x' hx i hi => ?_, fun t ht i _ => ?_, fun t ht i _ => ?_,
    1, one_pos, fun p i => ((p.2 i).2, w p.1), ?_, fun t ht x hx i => ?_⟩
  · unfold outward; rw [hx i hi]
  · rw [slope_outward (by linarith [hr t ht.1 i])]
    exact ((hQ t).const_add R).hasDerivWithinAt
  · rw [slope_outward (by linarith [hr t ht.1 i])]
    exact (hP t).hasDerivWithinAt
  · refine contDiff_pi.2 fun i => ContDiff.prodMk ?_ (hw.comp contDiff_fst)
    exact contDiff_snd.comp ((contDiff_apply ℝ (ℝ × ℝ) i).comp contDiff_snd)
  · rw [slope_outward]
    have h1 := (abs_le.1 (hx i i.2).1).1
    linarith [hr t ht.1 i]

/-- A particle at rest for `t ≤ 1` and pushed outwards then. -/
example : ∃ (F : ℝ → (ℕ → RP) → ℕ → PFields) (y : ℝ → ℕ → RP), PlasmaMotion 5 1 F 3 y ∧ (∀ t ∈ Icc (0 : ℝ) 3, t ≤ 1 → ∀ i < 1, y t i = y 0 i) ∧
    0 < (y 3 0).pr := by
  set w : ℝ → ℝ := fun t => Real.smoothTransition (t - 1) with hw
  have hc : ContDiff ℝ 5 w := Real.smoothTransition.contDiff.comp (contDiff_id.sub contDiff_const)
  refine ⟨outward w, pushed w 2, pushed_motion hc (fun t => Real.smoothTransition.nonneg _) le_rfl (by norm_num), fun t ht h1 i _ => ?_, ?_⟩
  · have z : ∀ s ≤ (1 : ℝ), 0 ≤ s → ∫ u in (0 : ℝ)..s, w u = 0 := fun s hs hs0 => by
      rw [intervalIntegral.integral_congr (g := fun _ => 0) fun u hu => ?_]
      · simp
      · rw [uIcc_of_le hs0] at hu
        exact Real.smoothTransition.zero_of_nonpos (by linarith [hu.2])
    have z2 : ∫ s in (0 : ℝ)..t, ∫ u in (0 : ℝ)..s, w u = 0 := by
      rw [intervalIntegral.integral_congr (g := fun _ => 0) fun u hu => ?_]
      · simp
      · rw [uIcc_of_le ht.1] at hu
        exact z u (hu.2.trans h1) hu.1
    unfold pushed
    rw [z t h1 ht.1, z2]
    simp
  · show 0 < ∫ u in (0 : ℝ)..3, w u
    have hi : ∀ a b, IntervalIntegrable w MeasureTheory.volume a b := fun a b => hc.continuous.intervalIntegrable a b
    rw [← intervalIntegral.integral_add_adjacent_intervals (hi 0 2) (hi 2 3)]
    have h1 : 0 ≤ ∫ u in (0 : ℝ)..2, w u := intervalIntegral.integral_nonneg (by norm_num) fun u _ => Real.smoothTransition.nonneg _
    have h2 : ∫ u in (2 : ℝ)..3, w u = 1 := by
      rw [intervalIntegral.integral_congr (g := fun _ => 1) fun u hu => ?_]
      · simp; norm_num
      · rw [uIcc_of_le (by norm_num)] at hu
        exact Real.smoothTransition.one_of_one_le (by linarith [hu.1])
    linarith

/-- A particle that oscillates through the axis, in fields that are proportional to the radius. -/
example : ∃ (F : ℝ → (ℕ → RP) → ℕ → PFields) (y : ℝ → ℕ → RP), PlasmaMotion 4 1 F 4 y ∧ 0 < (y 0 0).r ∧ (y Real.pi 0).r < 0 := by
  refine ⟨fun _ x i => ⟨1, 0, 0, 0, (x i).r, 0⟩, fun t _ => ⟨Real.cos t, -Real.sin t⟩, ⟨by norm_num, fun i => by simp, fun t s hs x i => ?_,
    fun t x x' hx i hi => by rw [hx i hi], fun t _ i _ => ?_, fun t _ i _ => ?_, 1, one_pos, fun p i => ((p.2 i).2, -(p.2 i).1), ?_, fun t _ x _ i => ?_⟩,
    by simp, by simp⟩
  · unfold PFields.sgn RP.sgn; simp
  · simpa [slope, derivs] using (Real.hasDerivAt_cos t).hasDerivWithinAt
  · simpa [slope, derivs] using (Real.hasDerivAt_sin t).fun_neg.hasDerivWithinAt
  · refine contDiff_pi.2 fun i => ContDiff.prodMk ?_ ?_
    · exact contDiff_snd.comp ((contDiff_apply ℝ (ℝ × ℝ) i).comp contDiff_snd)
    · exact (contDiff_fst.comp ((contDiff_apply ℝ (ℝ × ℝ) i).comp contDiff_snd)).neg
  · simp [slope, derivs]

/-- **C192** (AB5), not without rest: the history of the pusher begins with zeros.  A particle initially at rest in constant fields
is wrong in the momentum by half a step after the fourth push, whatever the step. -/
theorem ab5_start_violated : ∃ (F : ℝ → (ℕ → RP) → ℕ → PFields) (y : ℝ → ℕ → RP), PlasmaMotion 5 1 F 1 y ∧ (∀ i, (y 0 i).pr = 0) ∧
    ∀ h : ℝ, 0 < h → ∀ n : ℕ, 4 ≤ n → n * h ≤ 1 → (runAb5 h F (y 0) n 0).x.pr - (y (n * h) 0).pr = h / 2 := by
  refine ⟨outward fun _ => 1, pushed (fun _ => 1) 1000, pushed_motion contDiff_const (fun _ => zero_le_one) (by norm_num) one_pos,
    fun i => by simp [pushed], fun h hh n hn hnT => ?_⟩
  set F := outward fun _ => 1 with hF
  set x0 := pushed (fun _ => 1) 1000 0 with hx0
  have e0 : x0 0 = ⟨1000, 0⟩ := by simp [hx0, pushed]
  -- the state after `n` pushes
  have inv : ∀ n : ℕ, n * h ≤ 1 → ∀ p, p = runAb5 h F x0 n 0 → |p.x.r - 1000| ≤ 169 * (n * h) ∧ |p.x.pr| ≤ 13 * (n * h) ∧
      |p.d2.r| ≤ 13 ∧ |p.d3.r| ≤ 13 ∧ |p.d4.r| ≤ 13 ∧ |p.d5.r| ≤ 13 ∧
      p.d2.pr = (if 1 ≤ n then 1 else 0) ∧ p.d3.pr = (if 2 ≤ n then 1 else 0) ∧ p.d4.pr = (if 3 ≤ n then 1 else 0) ∧
      p.d5.pr = (if 4 ≤ n then 1 else 0) ∧
      p.x.pr = h / 720 * (if 4 ≤ n then 720 * n + 360 else if n = 3 then 2771 else if n = 2 then 1028 else if n = 1 then 1901 else 0) := by
    intro n
    induction n with
    | zero =>
      rintro - p rfl
      have : runAb5 h F x0 0 0 = AbPart.init ⟨1000, 0⟩ := by rw [← e0]; rfl
      rw [this]
      norm_num [AbPart.init]
    | succ n ih =>
      intro hn p hp
      push_cast at hn
      have hn0 : 0 ≤ (n : ℝ) * h := by positivity
      obtain ⟨a1, a2, a3, a4, a5, a6, b2, b3, b4, b5, b1⟩ := ih (by linarith) _ rfl
      set q := runAb5 h F x0 n with hq
      have hr : 0 < (q 0).x.r := by linarith [(abs_le.1 a1).1]
      have hd : derivs (F (n * h) (fun j => (q j).x) 0) (q 0).x.pr = ⟨(q 0).x.pr, 1⟩ :=
        slope_outward (w := fun _ => 1) (t := n * h) (x := fun j => (q j).x) hr
      have ha : |(q 0).x.pr| ≤ 13 := by linarith
      have hb : ∀ a1 a2 a3 a4 a5 B : ℝ, |a1| ≤ B → |a2| ≤ B → |a3| ≤ B → |a4| ≤ B → |a5| ≤ B →
          |h * (1901 * a1 - 2774 * a2 + 2616 * a3 - 1274 * a4 + 251 * a5) * (1 / 720)| ≤ h * (13 * B) := by
        intro a1 a2 a3 a4 a5 B h1 h2 h3 h4 h5
        rw [mul_assoc, abs_mul, abs_of_pos hh]
        refine mul_le_mul_of_nonneg_left ?_ hh.le
        rw [abs_le] at h1 h2 h3 h4 h5 ⊢
        constructor <;> linarith [h1.1, h1.2, h2.1, h2.2, h3.1, h3.2, h4.1, h4.2, h5.1, h5.2]
      have hp' : p = ab5Push h (F (n * h) (fun j => (q j).x) 0) (q 0) := by
        have c1 := hb _ _ _ _ _ 13 ha a3 a4 a5 a6
        have hnn : ¬ (ab5Push h (F (n * h) (fun j => (q j).x) 0) (q 0)).x.r < 0 := by
          unfold ab5Push applyAb5
          rw [hd]
          simp only [not_lt]
          linarith [(abs_le.1 a1).1, (abs_le.1 c1).1]
        rw [hp]
        exact if_neg hnn
      unfold ab5Push applyAb5 at hp'
      rw [hd] at hp'
      subst hp'
      have one : ∀ c : Prop, ∀ [Decidable c], |(if c then 1 else 0 : ℝ)| ≤ 1 := fun c _ => by split_ifs <;> norm_num
      have c1 := hb _ _ _ _ _ 13 ha a3 a4 a5 a6
      have c2 := hb 1 _ _ _ _ 1 (by norm_num) (b2 ▸ one _) (b3 ▸ one _) (b4 ▸ one _) (b5 ▸ one _)
      refine ⟨?_, ?_, ha, a3, a4, a5, by simp, ?_, ?_, ?_, ?_⟩
      · push_cast
        rw [abs_le] at a1 c1 ⊢
        constructor <;> linarith
      · push_cast
        rw [abs_le] at a2 c2 ⊢
        constructor <;> linarith
      · simp only [b2]; congr 1; simp
      · simp only [b3]; congr 1; simp
      · simp only [b4]; congr 1; simp
      · simp only [b1, b2, b3, b4, b5]
        rcases n with _ | _ | _ | _ | n
        · norm_num; ring
        · norm_num; ring
        · norm_num; ring
        · norm_num; ring
        · rw [if_pos (by omega), if_pos (by omega), if_pos (by omega), if_pos (by omega), if_pos (by omega), if_pos (by omega)]
          push_cast
          ring
  have h1 := (inv n hnT _ rfl).2.2.2.2.2.2.2.2.2.2
  rw [h1, if_pos hn]
  have e : (pushed (fun _ => 1) 1000 (n * h) 0).pr = n * h := by simp [pushed]
  rw [e]
  push_cast
  ring

end WakeT.Plasma
