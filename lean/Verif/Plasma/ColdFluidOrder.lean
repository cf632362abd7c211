import Verif.Plasma.ColdFluidProps
import Verif.Push.Converge
import Mathlib.Analysis.SpecialFunctions.Exp
import Mathlib.Analysis.Calculus.ContDiff.Deriv
import Mathlib.Analysis.Calculus.Deriv.Inv
import Mathlib.Analysis.SpecialFunctions.Sqrt

/-! # Accuracy of the cold fluid model (C147) -/

set_option linter.unusedSectionVars false

namespace WakeT.ColdFluid

open Set

/-! ### Specification -/

/-- The exact wake of a driver with laser amplitude `A` and beam density `N`, as functions of the
distance `t` behind the head of the box, up to the distance `T`: the plasma is undisturbed at the
head, the potential `Ψ` obeys the equation of the one-dimensional nonlinear wake, `V` is its
derivative (the accelerating field), and `1 + Ψ` stays above `δ`. -/
structure ExactWake (A N : ℝ → ℝ) (T δ : ℝ) (Ψ V : ℝ → ℝ) : Prop where
  head : Ψ 0 = 0 ∧ V 0 = 0
  slope : ∀ t ∈ Icc 0 T, HasDerivWithinAt Ψ (V t) (Icc 0 T) t
  wave : ∀ t ∈ Icc 0 T, HasDerivWithinAt V (((1 + A t ^ 2) / (1 + Ψ t) ^ 2 - 1) / 2 - N t) (Icc 0 T) t
  above : ∀ t ∈ Icc 0 T, δ ≤ 1 + Ψ t

/-! ### The right hand side -/

theorem accel_bound {a n y Ma Mn d : ℝ} (hd : 0 < d) (ha : |a| ≤ Ma) (hn : |n| ≤ Mn) (hy : d ≤ 1 + y) :
    |accel a n y| ≤ (1 + Ma ^ 2) / d ^ 2 + 1 + Mn := by
  have h1 : a ^ 2 ≤ Ma ^ 2 := by
    rw [← sq_abs a]; exact pow_le_pow_left₀ (abs_nonneg _) ha 2
  have h2 : d ^ 2 ≤ (1 + y) ^ 2 := pow_le_pow_left₀ hd.le hy 2
  have h3 : (1 + a ^ 2) / (1 + y) ^ 2 ≤ (1 + Ma ^ 2) / d ^ 2 :=
    div_le_div₀ (by positivity) (by linarith) (by positivity) h2
  have h4 : 0 ≤ (1 + a ^ 2) / (1 + y) ^ 2 := by positivity
  obtain ⟨h5, h6⟩ := abs_le.mp hn
  unfold accel
  rw [abs_le]
  constructor <;> linarith

theorem accel_lip {a n y z Ma d : ℝ} (hd : 0 < d) (ha : |a| ≤ Ma) (hy : d ≤ 1 + y) (hz : d ≤ 1 + z) :
    |accel a n y - accel a n z| ≤ (1 + Ma ^ 2) / d ^ 3 * |y - z| := by
  have h1 : a ^ 2 ≤ Ma ^ 2 := by
    rw [← sq_abs a]; exact pow_le_pow_left₀ (abs_nonneg _) ha 2
  have p : 0 < 1 + y := by linarith
  have q : 0 < 1 + z := by linarith
  have e : accel a n y - accel a n z =
      (1 + a ^ 2) / 2 * (1 / ((1 + y) * (1 + z) ^ 2) + 1 / ((1 + y) ^ 2 * (1 + z))) * (z - y) := by
    unfold accel; field_simp; ring
  have b1 : 1 / ((1 + y) * (1 + z) ^ 2) ≤ 1 / d ^ 3 := by
    apply one_div_le_one_div_of_le (by positivity)
    calc d ^ 3 = d * d ^ 2 := by ring
      _ ≤ _ := mul_le_mul hy (pow_le_pow_left₀ hd.le hz 2) (by positivity) p.le
  have b2 : 1 / ((1 + y) ^ 2 * (1 + z)) ≤ 1 / d ^ 3 := by
    apply one_div_le_one_div_of_le (by positivity)
    calc d ^ 3 = d ^ 2 * d := by ring
      _ ≤ _ := mul_le_mul (pow_le_pow_left₀ hd.le hy 2) hz hd.le (by positivity)
  have b0 : 0 ≤ 1 / ((1 + y) * (1 + z) ^ 2) + 1 / ((1 + y) ^ 2 * (1 + z)) := by positivity
  rw [e, abs_mul, abs_of_nonneg (mul_nonneg (by positivity) b0), abs_sub_comm z y]
  apply mul_le_mul_of_nonneg_right _ (abs_nonneg _)
  calc (1 + a ^ 2) / 2 * _ ≤ (1 + Ma ^ 2) / 2 * (2 * (1 / d ^ 3)) :=
        mul_le_mul (by linarith) (by linarith) b0 (by positivity)
    _ = _ := by ring

theorem accel_laser {a b n y Ma d : ℝ} (hd : 0 < d) (ha : |a| ≤ Ma) (hb : |b| ≤ Ma) (hy : d ≤ 1 + y) :
    |accel a n y - accel b n y| ≤ Ma / d ^ 2 * |a - b| := by
  have p : 0 < 1 + y := by linarith
  have e : accel a n y - accel b n y = (a + b) / 2 / (1 + y) ^ 2 * (a - b) := by
    unfold accel; field_simp; ring
  have h1 : |a + b| ≤ 2 * Ma := (abs_add_le a b).trans (by linarith)
  rw [e, abs_mul, abs_div, abs_div, abs_of_pos (by positivity : (0 : ℝ) < (1 + y) ^ 2), abs_two]
  apply mul_le_mul_of_nonneg_right _ (abs_nonneg _)
  have hM : 0 ≤ Ma := (abs_nonneg _).trans ha
  exact div_le_div₀ hM (by linarith) (by positivity) (pow_le_pow_left₀ hd.le hy 2)

theorem accel_beam (a n n' y : ℝ) : |accel a n y - accel a n' y| = |n - n'| := by
  unfold accel
  rw [show ((1 + a ^ 2) / (1 + y) ^ 2 - 1) / 2 - n - (((1 + a ^ 2) / (1 + y) ^ 2 - 1) / 2 - n') = -(n - n') by ring, abs_neg]

/-! ### Functions that are bounded and Lipschitz continuous -/

/-- `f` is bounded by `M` on `[0, T]` and changes at most at the rate `M`. -/
structure Mild (T M : ℝ) (f : ℝ → ℝ) : Prop where
  bound : ∀ t ∈ Icc 0 T, |f t| ≤ M
  lip : ∀ s ∈ Icc 0 T, ∀ t ∈ Icc 0 T, |f s - f t| ≤ M * |s - t|

variable {T : ℝ}

theorem Mild.mono {M M' : ℝ} {f : ℝ → ℝ} (h : Mild T M f) (hM : M ≤ M') : Mild T M' f :=
  ⟨fun t ht => (h.bound t ht).trans hM,
   fun s hs t ht => (h.lip s hs t ht).trans (mul_le_mul_of_nonneg_right hM (abs_nonneg _))⟩

theorem Mild.add {M M' : ℝ} {f g : ℝ → ℝ} (h : Mild T M f) (h' : Mild T M' g) : Mild T (M + M') fun t => f t + g t :=
  ⟨fun t ht => (abs_add_le _ _).trans (add_le_add (h.bound t ht) (h'.bound t ht)), fun s hs t ht => by
    rw [show f s + g s - (f t + g t) = (f s - f t) + (g s - g t) by ring, add_mul]
    exact (abs_add_le _ _).trans (add_le_add (h.lip s hs t ht) (h'.lip s hs t ht))⟩

theorem Mild.neg {M : ℝ} {f : ℝ → ℝ} (h : Mild T M f) : Mild T M fun t => -f t :=
  ⟨fun t ht => by rw [abs_neg]; exact h.bound t ht, fun s hs t ht => by
    rw [show -f s - -f t = -(f s - f t) by ring, abs_neg]; exact h.lip s hs t ht⟩

theorem Mild.const (c : ℝ) : Mild T |c| fun _ => c :=
  ⟨fun _ _ => le_rfl, fun s _ t _ => by rw [sub_self, abs_zero]; positivity⟩

theorem Mild.mul {M M' : ℝ} {f g : ℝ → ℝ} (h : Mild T M f) (h' : Mild T M' g) (hM : 0 ≤ M) (hM' : 0 ≤ M') :
    Mild T (2 * (M * M')) fun t => f t * g t :=
  ⟨fun t ht => by
    rw [abs_mul]
    have := mul_le_mul (h.bound t ht) (h'.bound t ht) (abs_nonneg _) hM
    have := mul_nonneg hM hM'
    linarith, fun s hs t ht => by
    rw [show f s * g s - f t * g t = f s * (g s - g t) + (f s - f t) * g t by ring]
    refine (abs_add_le _ _).trans ?_
    rw [abs_mul, abs_mul]
    have h1 := mul_le_mul (h.bound s hs) (h'.lip s hs t ht) (abs_nonneg _) hM
    have h2 := mul_le_mul (h.lip s hs t ht) (h'.bound t ht) (abs_nonneg _) (mul_nonneg hM (abs_nonneg (s - t)))
    linarith⟩

theorem Mild.inv {M δ : ℝ} {f : ℝ → ℝ} (h : Mild T M f) (hδ : 0 < δ) (hf : ∀ t ∈ Icc 0 T, δ ≤ f t) :
    Mild T (1 / δ + M / δ ^ 2) fun t => 1 / f t :=
  ⟨fun t ht => by
    have h1 := hf t ht
    have hM : 0 ≤ M := (abs_nonneg _).trans (h.bound t ht)
    rw [abs_of_pos (one_div_pos.mpr (hδ.trans_le h1))]
    have := one_div_le_one_div_of_le hδ h1
    have : 0 ≤ M / δ ^ 2 := by positivity
    linarith, fun s hs t ht => by
    have h1 := hf s hs
    have h2 := hf t ht
    have p1 : 0 < f s := hδ.trans_le h1
    have p2 : 0 < f t := hδ.trans_le h2
    have hM : 0 ≤ M := (abs_nonneg _).trans (h.bound t ht)
    rw [show 1 / f s - 1 / f t = (f t - f s) / (f s * f t) by field_simp, abs_div, abs_of_pos (mul_pos p1 p2), abs_sub_comm]
    calc |f s - f t| / (f s * f t) ≤ M * |s - t| / δ ^ 2 := by
          apply div_le_div₀ (by positivity) (h.lip s hs t ht) (by positivity)
          calc δ ^ 2 = δ * δ := by ring
            _ ≤ _ := mul_le_mul h1 h2 hδ.le p1.le
      _ = M / δ ^ 2 * |s - t| := by ring
      _ ≤ _ := by
        apply mul_le_mul_of_nonneg_right _ (abs_nonneg _)
        have : 0 ≤ 1 / δ := by positivity
        linarith⟩

/-- A function with a bounded derivative. -/
theorem Mild.of_deriv {M : ℝ} {f f' : ℝ → ℝ} (hT : 0 ≤ T) (hM : 0 ≤ M)
    (hf : ∀ t ∈ Icc 0 T, HasDerivWithinAt f (f' t) (Icc 0 T) t) (hb : ∀ t ∈ Icc 0 T, |f' t| ≤ M) :
    Mild T (|f 0| + M * T + M) f := by
  have key : ∀ s ∈ Icc 0 T, ∀ t ∈ Icc 0 T, |f s - f t| ≤ M * |s - t| := fun s hs t ht => by
    have := Convex.norm_image_sub_le_of_norm_hasDerivWithin_le hf (C := M) (fun t ht => hb t ht) (convex_Icc 0 T) ht hs
    simpa only [Real.norm_eq_abs] using this
  refine ⟨fun t ht => ?_, fun s hs t ht => (key s hs t ht).trans ?_⟩
  · have h1 := key t ht 0 ⟨le_rfl, hT⟩
    rw [sub_zero, abs_of_nonneg ht.1] at h1
    have h2 : |f t| ≤ |f 0| + |f t - f 0| := by
      have := abs_add_le (f 0) (f t - f 0); rwa [add_sub_cancel] at this
    have := mul_le_mul_of_nonneg_left ht.2 hM
    linarith
  · apply mul_le_mul_of_nonneg_right _ (abs_nonneg _)
    have := abs_nonneg (f 0)
    have := mul_nonneg hM hT
    linarith

theorem mild_contDiff {f : ℝ → ℝ} (hf : ContDiff ℝ 1 f) (hT : 0 ≤ T) : ∃ M, 0 ≤ M ∧ Mild T M f := by
  have hc : Continuous (deriv f) := hf.continuous_deriv le_rfl
  obtain ⟨M, hM⟩ := isCompact_Icc.exists_bound_of_continuousOn (s := Icc 0 T) hc.continuousOn
  have hM0 : 0 ≤ M := (norm_nonneg _).trans (hM 0 ⟨le_rfl, hT⟩)
  have hd : Differentiable ℝ f := hf.differentiable one_ne_zero
  refine ⟨_, ?_, Mild.of_deriv hT hM0 (fun t _ => (hd t).hasDerivAt.hasDerivWithinAt) fun t ht => hM t ht⟩
  positivity

/-! ### One step -/

/-- The change of a function whose derivative is close to `F' a + (s - a) c`. -/
theorem change_near2 {F F' : ℝ → ℝ} {a b c C : ℝ} (ha : 0 ≤ a) (hab : a ≤ b) (hb : b ≤ T)
    (hF : ∀ t ∈ Icc 0 T, HasDerivWithinAt F (F' t) (Icc 0 T) t)
    (hC : ∀ t, a ≤ t → t ≤ b → |F' t - (F' a + (t - a) * c)| ≤ C) :
    |F b - (F a + (b - a) * F' a + (b - a) ^ 2 / 2 * c)| ≤ (b - a) * C := by
  have h := Push.change_near (f := fun t => F t - (t - a) ^ 2 / 2 * c) (f' := fun t => F' t - (t - a) * c)
    (d := F' a) ha hab hb (fun t ht => by
      have h1 : HasDerivWithinAt (fun t : ℝ => (t - a) ^ 2 / 2 * c) ((t - a) * c) (Icc 0 T) t := by
        have := ((((hasDerivWithinAt_id t (Icc 0 T)).sub_const a).pow 2).div_const 2).mul_const c
        refine this.congr_deriv ?_
        simp
      exact (hF t ht).sub h1) (C := C) (fun t h1 h2 => by
      rw [show F' t - (t - a) * c - F' a = F' t - (F' a + (t - a) * c) by ring]
      exact hC t h1 h2)
  rw [sub_self] at h
  rw [show F b - (F a + (b - a) * F' a + (b - a) ^ 2 / 2 * c) =
    F b - (b - a) ^ 2 / 2 * c - (F a - 0 ^ 2 / 2 * c + (b - a) * F' a) by ring]
  exact h

/-- What is used of the driver and its wake: `f` is the second derivative of the potential, `W` its
derivative. -/
structure Facts (A N Ψ V f W : ℝ → ℝ) (T d G L P w ν : ℝ) : Prop where
  d0 : 0 < d
  G0 : 0 ≤ G
  L0 : 0 ≤ L
  P0 : 0 ≤ P
  w0 : 0 ≤ w
  ν0 : 0 ≤ ν
  above : ∀ t ∈ Icc 0 T, 2 * d ≤ 1 + Ψ t
  slope : ∀ t ∈ Icc 0 T, HasDerivWithinAt Ψ (V t) (Icc 0 T) t
  wave : ∀ t ∈ Icc 0 T, HasDerivWithinAt V (f t) (Icc 0 T) t
  third : ∀ t ∈ Icc 0 T, HasDerivWithinAt f (W t) (Icc 0 T) t
  f_bound : ∀ t ∈ Icc 0 T, |f t| ≤ G
  f_lip : ∀ s ∈ Icc 0 T, ∀ t ∈ Icc 0 T, |f s - f t| ≤ w * |s - t|
  W_lip : ∀ s ∈ Icc 0 T, ∀ t ∈ Icc 0 T, |W s - W t| ≤ w * |s - t|
  stage : ∀ t h s z, 0 ≤ t → 0 ≤ h → h ≤ 1 → t + h ≤ T → 0 ≤ s → s ≤ 1 → d ≤ 1 + z →
    |accel (A t + s * (A (t + h) - A t)) (N t) z| ≤ G ∧
    |accel (A t + s * (A (t + h) - A t)) (N t) z - f (t + s * h)| ≤
      L * |z - Ψ (t + s * h)| + P * (h ^ 2 + ν * h)

section Step
variable {A N Ψ V f W : ℝ → ℝ} {d G L P w ν : ℝ}

theorem Facts.psi_step (F : Facts A N Ψ V f W T d G L P w ν) {t h : ℝ} (ht : 0 ≤ t) (hh : 0 ≤ h) (hT : t + h ≤ T) :
    |Ψ (t + h) - (Ψ t + h * V t)| ≤ h ^ 2 * G ∧
    |Ψ (t + h) - (Ψ t + h * V t + h ^ 2 / 2 * f t)| ≤ h ^ 3 * w ∧
    |V (t + h) - (V t + h * f t)| ≤ h ^ 2 * w ∧
    |V (t + h) - (V t + h * f t + h ^ 2 / 2 * W t)| ≤ h ^ 3 * w ∧
    |f (t + h) - (f t + h * W t)| ≤ h ^ 2 * w := by
  have hin : ∀ s, t ≤ s → s ≤ t + h → s ∈ Icc 0 T := fun s h1 h2 => ⟨by linarith, by linarith⟩
  have a0 : t ≤ t + h := by linarith
  have e : t + h - t = h := by ring
  have hs : ∀ s, t ≤ s → s ≤ t + h → |s - t| ≤ h := fun s h1 h2 => by
    rw [abs_of_nonneg (by linarith)]; linarith
  have V1 : ∀ s, t ≤ s → s ≤ t + h → |V s - V t| ≤ h * G := fun s h1 h2 => by
    have := Push.change_near ht h1 (h2.trans hT) F.wave (d := 0) (C := G) (fun r h3 h4 => by
      rw [sub_zero]; exact F.f_bound r (hin r h3 (h4.trans h2)))
    rw [mul_zero, add_zero] at this
    exact this.trans (mul_le_mul_of_nonneg_right (by linarith) F.G0)
  have V2 : ∀ s, t ≤ s → s ≤ t + h → |V s - (V t + (s - t) * f t)| ≤ h * (w * h) := fun s h1 h2 => by
    have := Push.change_near ht h1 (h2.trans hT) F.wave (d := f t) (C := w * h) (fun r h3 h4 =>
      (F.f_lip r (hin r h3 (h4.trans h2)) t (hin t le_rfl a0)).trans
        (mul_le_mul_of_nonneg_left (hs r h3 (h4.trans h2)) F.w0))
    exact this.trans (mul_le_mul_of_nonneg_right (by linarith) (mul_nonneg F.w0 hh))
  have f2 : ∀ s, t ≤ s → s ≤ t + h → |f s - (f t + (s - t) * W t)| ≤ h * (w * h) := fun s h1 h2 => by
    have := Push.change_near ht h1 (h2.trans hT) F.third (d := W t) (C := w * h) (fun r h3 h4 =>
      (F.W_lip r (hin r h3 (h4.trans h2)) t (hin t le_rfl a0)).trans
        (mul_le_mul_of_nonneg_left (hs r h3 (h4.trans h2)) F.w0))
    exact this.trans (mul_le_mul_of_nonneg_right (by linarith) (mul_nonneg F.w0 hh))
  have r1 := Push.change_near ht a0 hT F.slope (d := V t) (C := h * G) V1
  have r2 := change_near2 ht a0 hT F.slope (c := f t) (C := h * (w * h)) V2
  have r3 := V2 (t + h) a0 le_rfl
  have r4 := change_near2 ht a0 hT F.wave (c := W t) (C := h * (w * h)) f2
  have r5 := f2 (t + h) a0 le_rfl
  rw [e] at r1 r2 r3 r4 r5
  refine ⟨r1.trans (le_of_eq (by ring)), r2.trans (le_of_eq (by ring)), r3.trans (le_of_eq (by ring)),
    r4.trans (le_of_eq (by ring)), r5.trans (le_of_eq (by ring))⟩

set_option maxHeartbeats 1000000 in
/-- The error after one step. -/
theorem Facts.step (F : Facts A N Ψ V f W T d G L P w ν) {t h y v E : ℝ} (ht : 0 ≤ t) (hh : 0 ≤ h) (h1 : h ≤ 1)
    (hT : t + h ≤ T) (hE : |y - Ψ t| + |v - V t| ≤ E) (hd : 2 * E + 2 * G * h ^ 2 ≤ d) :
    let g := fun s z => accel (A t + s * (A (t + h) - A t)) (N t) z
    let r := rk4 h g y v
    |r.1 - Ψ (t + h)| + |r.2 - V (t + h)| ≤ (1 + (1 + 3 * L) * h) * E + (2 * (P + 2 * L * G) + 4 * w) * (h * (h ^ 2 + ν * h)) ∧
    |(r.1 - Ψ (t + h)) - (y - Ψ t)| ≤ (1 + 3 * L) * h * E + (2 * (P + 2 * L * G) + 4 * w) * (h * (h ^ 2 + ν * h)) := by
  intro g r
  set η := h ^ 2 + ν * h with hη
  have hη0 : 0 ≤ η := add_nonneg (sq_nonneg h) (mul_nonneg F.ν0 hh)
  have hη2 : h ^ 2 ≤ η := by rw [hη]; linarith [mul_nonneg F.ν0 hh]
  have hey : |y - Ψ t| ≤ E := by linarith [abs_nonneg (v - V t)]
  have hev : |v - V t| ≤ E := by linarith [abs_nonneg (y - Ψ t)]
  have hE0 : 0 ≤ E := (abs_nonneg _).trans hey
  have hhalf : 0 ≤ h / 2 := by linarith
  obtain ⟨m1, m2, m3, _, m5⟩ := F.psi_step (h := h / 2) ht hhalf (by linarith)
  obtain ⟨e1, e2, e3, e4, e5⟩ := F.psi_step ht hh hT
  have hG := F.G0
  have hGh : 0 ≤ G * h ^ 2 := mul_nonneg hG (sq_nonneg h)
  have mem : ∀ s, 0 ≤ s → s ≤ h → t + s ∈ Icc 0 T := fun s a b => ⟨by linarith, by linarith⟩
  -- a stage point close to the exact solution is in the domain
  have dom : ∀ z s, 0 ≤ s → s ≤ h → |z - Ψ (t + s)| ≤ 2 * E + 2 * G * h ^ 2 → d ≤ 1 + z := by
    intro z s a b hz
    have := F.above (t + s) (mem s a b)
    have := (abs_le.mp hz).1
    linarith
  have hEh : E * h ≤ E := by
    have := mul_le_mul_of_nonneg_left h1 hE0; linarith
  -- first stage
  have z1 : d ≤ 1 + y := dom y 0 le_rfl hh (by rw [add_zero]; linarith)
  obtain ⟨b1, c1⟩ := F.stage t h 0 y ht hh h1 hT le_rfl zero_le_one z1
  rw [zero_mul h, add_zero t] at c1
  -- second stage
  have q2 : |y + h / 2 * v - Ψ (t + h / 2)| ≤ 2 * E + G * h ^ 2 := by
    rw [show y + h / 2 * v - Ψ (t + h / 2) = (y - Ψ t) + h / 2 * (v - V t) - (Ψ (t + h / 2) - (Ψ t + h / 2 * V t)) by ring]
    refine (abs_sub _ _).trans ?_
    have a1 : |(y - Ψ t) + h / 2 * (v - V t)| ≤ E + h / 2 * E := by
      refine (abs_add_le _ _).trans (add_le_add hey ?_)
      rw [abs_mul, abs_of_nonneg hhalf]; exact mul_le_mul_of_nonneg_left hev hhalf
    have : (h / 2) ^ 2 * G ≤ G * h ^ 2 := by
      have : (h / 2) ^ 2 * G = G * h ^ 2 / 4 := by ring
      linarith
    linarith
  have z2 := dom _ (h / 2) hhalf (by linarith) (q2.trans (by linarith))
  obtain ⟨b2, c2⟩ := F.stage t h (1 / 2) _ ht hh h1 hT (by norm_num) (by norm_num) z2
  rw [show t + 1 / 2 * h = t + h / 2 by ring] at c2
  set k1 := g 0 y with hk1
  set k2 := g (1 / 2) (y + h / 2 * v) with hk2
  change |k1| ≤ G at b1
  change |k1 - f t| ≤ _ at c1
  change |k2| ≤ G at b2
  change |k2 - f (t + h / 2)| ≤ _ at c2
  -- third stage
  have q3 : |y + h / 2 * (v + h / 2 * k1) - Ψ (t + h / 2)| ≤ 2 * E + 2 * G * h ^ 2 := by
    rw [show y + h / 2 * (v + h / 2 * k1) - Ψ (t + h / 2) = (y + h / 2 * v - Ψ (t + h / 2)) + h ^ 2 / 4 * k1 by ring]
    refine (abs_add_le _ _).trans ?_
    rw [abs_mul, abs_of_nonneg (by positivity : 0 ≤ h ^ 2 / 4)]
    have := mul_le_mul_of_nonneg_left b1 (by positivity : 0 ≤ h ^ 2 / 4)
    have : h ^ 2 / 4 * G = G * h ^ 2 / 4 := by ring
    linarith
  have z3 := dom _ (h / 2) hhalf (by linarith) q3
  obtain ⟨b3, c3⟩ := F.stage t h (1 / 2) _ ht hh h1 hT (by norm_num) (by norm_num) z3
  rw [show t + 1 / 2 * h = t + h / 2 by ring] at c3
  set k3 := g (1 / 2) (y + h / 2 * (v + h / 2 * k1)) with hk3
  change |k3| ≤ G at b3
  change |k3 - f (t + h / 2)| ≤ _ at c3
  -- fourth stage
  have q4 : |y + h * (v + h / 2 * k2) - Ψ (t + h)| ≤ 2 * E + 2 * G * h ^ 2 := by
    rw [show y + h * (v + h / 2 * k2) - Ψ (t + h) = ((y - Ψ t) + h * (v - V t) - (Ψ (t + h) - (Ψ t + h * V t))) + h ^ 2 / 2 * k2 by ring]
    refine (abs_add_le _ _).trans ?_
    rw [abs_mul, abs_of_nonneg (by positivity : 0 ≤ h ^ 2 / 2)]
    have a0 := mul_le_mul_of_nonneg_left b2 (by positivity : 0 ≤ h ^ 2 / 2)
    have a1 : |(y - Ψ t) + h * (v - V t)| ≤ E + h * E := by
      refine (abs_add_le _ _).trans (add_le_add hey ?_)
      rw [abs_mul, abs_of_nonneg hh]; exact mul_le_mul_of_nonneg_left hev hh
    have a2 := abs_sub ((y - Ψ t) + h * (v - V t)) (Ψ (t + h) - (Ψ t + h * V t))
    linarith
  have z4 := dom _ h hh le_rfl q4
  obtain ⟨_, c4⟩ := F.stage t h 1 _ ht hh h1 hT zero_le_one le_rfl z4
  rw [show t + 1 * h = t + h by ring] at c4
  set k4 := g 1 (y + h * (v + h / 2 * k2)) with hk4
  change |k4 - f (t + h)| ≤ _ at c4
  have hr1 : r.1 = y + h * v + h ^ 2 / 6 * (k1 + k2 + k3) := by
    simp only [r, rk4, ← hk1, ← hk2, ← hk3]; ring
  have hr2 : r.2 = v + h / 6 * (k1 + 2 * k2 + 2 * k3 + k4) := by
    simp only [r, rk4, ← hk1, ← hk2, ← hk3, ← hk4]
  have hL := F.L0
  have hP := F.P0
  have hw := F.w0
  set B := 2 * L * E + (P + 2 * L * G) * η with hB
  have hB0 : 0 ≤ B := by positivity
  have all : ∀ k x z : ℝ, |k - x| ≤ L * |z| + P * η → |z| ≤ 2 * E + 2 * G * h ^ 2 → |k - x| ≤ B := by
    intro k x z h3 h4
    have a1 := mul_le_mul_of_nonneg_left h4 hL
    have a2 := mul_le_mul_of_nonneg_left hη2 (by positivity : 0 ≤ 2 * L * G)
    rw [hB]
    linarith
  have c1' := all _ _ _ c1 (by linarith)
  have c2' := all _ _ _ c2 (by linarith)
  have c3' := all _ _ _ c3 q3
  have c4' := all _ _ _ c4 q4
  have hw3 : h ^ 3 * w ≤ w * (h * η) := by
    calc h ^ 3 * w = w * h * h ^ 2 := by ring
      _ ≤ w * h * η := mul_le_mul_of_nonneg_left hη2 (mul_nonneg hw hh)
      _ = _ := by ring
  have hhB : h ^ 2 * B ≤ h * B := by
    calc h ^ 2 * B = h * h * B := by ring
      _ ≤ h * 1 * B := mul_le_mul_of_nonneg_right (mul_le_mul_of_nonneg_left h1 hh) hB0
      _ = _ := by ring
  have p1 : |(r.1 - Ψ (t + h)) - (y - Ψ t)| ≤ h * E + h * B / 2 + 7 / 6 * (w * (h * η)) := by
    have e : (r.1 - Ψ (t + h)) - (y - Ψ t) = h * (v - V t) + h ^ 2 / 6 * ((k1 - f t) + (k2 - f (t + h / 2)) + (k3 - f (t + h / 2)) +
        2 * (f (t + h / 2) - f t)) - (Ψ (t + h) - (Ψ t + h * V t + h ^ 2 / 2 * f t)) := by rw [hr1]; ring
    have hm : |f (t + h / 2) - f t| ≤ w * (h / 2) := by
      have := F.f_lip (t + h / 2) (mem _ hhalf (by linarith)) t ⟨ht, by linarith⟩
      rwa [add_sub_cancel_left, abs_of_nonneg hhalf] at this
    have a1 : |h * (v - V t)| ≤ h * E := by
      rw [abs_mul, abs_of_nonneg hh]; exact mul_le_mul_of_nonneg_left hev hh
    have a2 : |(k1 - f t) + (k2 - f (t + h / 2)) + (k3 - f (t + h / 2)) + 2 * (f (t + h / 2) - f t)| ≤ 3 * B + w * h := by
      refine (abs_add_le _ _).trans ?_
      rw [abs_mul, abs_two]
      have := abs_add_le ((k1 - f t) + (k2 - f (t + h / 2))) (k3 - f (t + h / 2))
      have := abs_add_le (k1 - f t) (k2 - f (t + h / 2))
      linarith
    have a3 : |h ^ 2 / 6 * ((k1 - f t) + (k2 - f (t + h / 2)) + (k3 - f (t + h / 2)) + 2 * (f (t + h / 2) - f t))| ≤
        h ^ 2 / 6 * (3 * B + w * h) := by
      rw [abs_mul, abs_of_nonneg (by positivity : 0 ≤ h ^ 2 / 6)]
      exact mul_le_mul_of_nonneg_left a2 (by positivity)
    rw [e]
    refine (abs_sub _ _).trans ?_
    have := abs_add_le (h * (v - V t)) (h ^ 2 / 6 * ((k1 - f t) + (k2 - f (t + h / 2)) + (k3 - f (t + h / 2)) + 2 * (f (t + h / 2) - f t)))
    have a4 : h ^ 2 / 6 * (3 * B + w * h) = h ^ 2 * B / 2 + h ^ 3 * w / 6 := by ring
    linarith
  have p2 : |(r.2 - V (t + h)) - (v - V t)| ≤ h * B + 4 / 3 * (w * (h * η)) := by
    have e : (r.2 - V (t + h)) - (v - V t) = h / 6 * ((k1 - f t) + 2 * (k2 - f (t + h / 2)) + 2 * (k3 - f (t + h / 2)) + (k4 - f (t + h))) +
        h / 6 * (4 * (f (t + h / 2) - (f t + h / 2 * W t)) + (f (t + h) - (f t + h * W t))) -
        (V (t + h) - (V t + h * f t + h ^ 2 / 2 * W t)) := by rw [hr2]; ring
    have h6 : 0 ≤ h / 6 := by linarith
    have a1 : |(k1 - f t) + 2 * (k2 - f (t + h / 2)) + 2 * (k3 - f (t + h / 2)) + (k4 - f (t + h))| ≤ 6 * B := by
      refine (abs_add_le _ _).trans ?_
      have i1 := abs_add_le ((k1 - f t) + 2 * (k2 - f (t + h / 2))) (2 * (k3 - f (t + h / 2)))
      have i2 := abs_add_le (k1 - f t) (2 * (k2 - f (t + h / 2)))
      rw [abs_mul, abs_two] at i1 i2
      linarith
    have a2 : |4 * (f (t + h / 2) - (f t + h / 2 * W t)) + (f (t + h) - (f t + h * W t))| ≤ 2 * (h ^ 2 * w) := by
      refine (abs_add_le _ _).trans ?_
      rw [abs_mul, show |(4 : ℝ)| = 4 by norm_num]
      have : (h / 2) ^ 2 * w = h ^ 2 * w / 4 := by ring
      linarith
    have a3 := mul_le_mul_of_nonneg_left a1 h6
    have a4 := mul_le_mul_of_nonneg_left a2 h6
    rw [e]
    refine (abs_sub _ _).trans ?_
    have i1 := abs_add_le (h / 6 * ((k1 - f t) + 2 * (k2 - f (t + h / 2)) + 2 * (k3 - f (t + h / 2)) + (k4 - f (t + h))))
        (h / 6 * (4 * (f (t + h / 2) - (f t + h / 2 * W t)) + (f (t + h) - (f t + h * W t))))
    rw [abs_mul, abs_mul, abs_of_nonneg h6] at i1
    have a5 : h / 6 * (2 * (h ^ 2 * w)) = h ^ 3 * w / 3 := by ring
    linarith
  have hBe : h * B = 2 * L * h * E + (P + 2 * L * G) * (h * η) := by rw [hB]; ring
  have i0 : 0 ≤ (P + 2 * L * G) * (h * η) := by positivity
  have i1 : 0 ≤ w * (h * η) := by positivity
  have i2 : 0 ≤ L * h * E := by positivity
  constructor
  · have j1 : |r.1 - Ψ (t + h)| ≤ |y - Ψ t| + |(r.1 - Ψ (t + h)) - (y - Ψ t)| := by
      have := abs_add_le (y - Ψ t) ((r.1 - Ψ (t + h)) - (y - Ψ t)); rwa [add_sub_cancel] at this
    have j2 : |r.2 - V (t + h)| ≤ |v - V t| + |(r.2 - V (t + h)) - (v - V t)| := by
      have := abs_add_le (v - V t) ((r.2 - V (t + h)) - (v - V t)); rwa [add_sub_cancel] at this
    linarith
  · linarith

/-- The third derivative of the potential is bounded and Lipschitz continuous. -/
theorem jerk {δ MV Ma Mn' q : ℝ} (hT : 0 ≤ T) (hδ : 0 < δ) {A' N' : ℝ → ℝ} (dA : ∀ t, HasDerivAt A (A' t) t)
    (dN : ∀ t, HasDerivAt N (N' t) t) (mA : Mild T Ma A) (mA' : Mild T q A') (mN' : Mild T Mn' N') (mV : Mild T MV V)
    (sol : ExactWake A N T δ Ψ V) :
    ∃ W M, 0 ≤ M ∧ Mild T M W ∧ ∀ t ∈ Icc 0 T, HasDerivWithinAt (fun t => accel (A t) (N t) (Ψ t)) (W t) (Icc 0 T) t := by
  have h0 : (0 : ℝ) ∈ Icc 0 T := ⟨le_rfl, hT⟩
  have hMa : 0 ≤ Ma := (abs_nonneg _).trans (mA.bound 0 h0)
  have hq : 0 ≤ q := (abs_nonneg _).trans (mA'.bound 0 h0)
  have hMV : 0 ≤ MV := (abs_nonneg _).trans (mV.bound 0 h0)
  obtain ⟨MI, hMI, mI⟩ : ∃ M, 0 ≤ M ∧ Mild T M fun t => 1 / (1 + Ψ t) := by
    have h := ((Mild.const (T := T) 1).add (Mild.of_deriv hT hMV sol.slope mV.bound)).inv hδ sol.above
    exact ⟨_, (abs_nonneg _).trans (h.bound 0 h0), h⟩
  have mI2 := mI.mul mI hMI hMI
  have mI3 := mI2.mul mI (by positivity) hMI
  have m1 := (mA.mul mA' hMa hq).mul mI2 (by positivity) (by positivity)
  have mA2 := (Mild.const (T := T) 1).add (mA.mul mA hMa hMa)
  have m2 := (mA2.mul mV (by positivity) hMV).mul mI3 (by positivity) (by positivity)
  have mW := (m1.add m2.neg).add mN'.neg
  refine ⟨_, _, (abs_nonneg _).trans (mW.bound 0 h0), mW, fun t ht => ?_⟩
  have hp : 1 + Ψ t ≠ 0 := by have := sol.above t ht; linarith
  have e1 : HasDerivWithinAt (fun t => 1 + A t ^ 2) (2 * A t * A' t) (Icc 0 T) t := by
    refine ((((dA t).pow 2).const_add 1).hasDerivWithinAt).congr_deriv ?_
    simp
  have e2 : HasDerivWithinAt (fun t => (1 + Ψ t) ^ 2) (2 * (1 + Ψ t) * V t) (Icc 0 T) t := by
    refine (((sol.slope t ht).const_add 1).pow 2).congr_deriv ?_
    simp
  have e3 := (((e1.div e2 (pow_ne_zero 2 hp)).sub_const 1).div_const 2).sub (dN t).hasDerivWithinAt
  refine e3.congr_deriv ?_
  field_simp
  ring

/-- The right hand side at a stage of the Runge-Kutta method and the exact one. -/
theorem stage_near {d Ma Mn q : ℝ} {A' N' : ℝ → ℝ} (hd : 0 < d) (hq : 0 ≤ q) (hMa : 0 ≤ Ma) (hν0 : 0 ≤ ν)
    (dA : ∀ t, HasDerivAt A (A' t) t)
    (dN : ∀ t, HasDerivAt N (N' t) t) (mA : Mild T Ma A) (mN : Mild T Mn N) (mA' : Mild T q A') (ab : ∀ t ∈ Icc 0 T, d ≤ 1 + Ψ t)
    (hν : ∀ t ∈ Icc 0 T, |N' t| ≤ ν) {t h s z : ℝ} (ht : 0 ≤ t) (hh : 0 ≤ h) (htT : t + h ≤ T) (hs0 : 0 ≤ s) (hs1 : s ≤ 1)
    (hz : d ≤ 1 + z) :
    |accel (A t + s * (A (t + h) - A t)) (N t) z| ≤ (1 + Ma ^ 2) / d ^ 2 + 1 + Mn ∧
    |accel (A t + s * (A (t + h) - A t)) (N t) z - accel (A (t + s * h)) (N (t + s * h)) (Ψ (t + s * h))| ≤
      (1 + Ma ^ 2) / d ^ 3 * |z - Ψ (t + s * h)| + (Ma / d ^ 2 * (2 * q) + 1) * (h ^ 2 + ν * h) := by
  have tm : t ∈ Icc 0 T := ⟨ht, by linarith⟩
  have tm1 : t + h ∈ Icc 0 T := ⟨by linarith, htT⟩
  have hsh : s * h ≤ h := by have := mul_le_mul_of_nonneg_right hs1 hh; linarith
  have hsh0 : 0 ≤ s * h := mul_nonneg hs0 hh
  have tms : t + s * h ∈ Icc 0 T := ⟨by linarith, by linarith⟩
  have ha : |A t + s * (A (t + h) - A t)| ≤ Ma := by
    rw [show A t + s * (A (t + h) - A t) = (1 - s) * A t + s * A (t + h) by ring]
    refine (abs_add_le _ _).trans ?_
    rw [abs_mul, abs_mul, abs_of_nonneg hs0, abs_of_nonneg (by linarith : 0 ≤ 1 - s)]
    have := mul_le_mul_of_nonneg_left (mA.bound t tm) (by linarith : 0 ≤ 1 - s)
    have := mul_le_mul_of_nonneg_left (mA.bound _ tm1) hs0
    linarith
  refine ⟨accel_bound hd ha (mN.bound t tm) hz, ?_⟩
  have chord : ∀ u, 0 ≤ u → u ≤ h → |A (t + u) - (A t + u * A' t)| ≤ q * h ^ 2 := by
    intro u hu hu1
    have := Push.change_near (f := A) (f' := A') (T := T) (a := t) (b := t + u) (d := A' t) (C := q * h) ht (by linarith) (by linarith)
      (fun r _ => (dA r).hasDerivWithinAt) (fun r h2 h3 => by
        refine (mA'.lip r ⟨by linarith, by linarith⟩ t tm).trans (mul_le_mul_of_nonneg_left ?_ hq)
        rw [abs_of_nonneg (by linarith)]; linarith)
    rw [add_sub_cancel_left] at this
    refine this.trans ?_
    calc u * (q * h) ≤ h * (q * h) := mul_le_mul_of_nonneg_right hu1 (mul_nonneg hq hh)
      _ = _ := by ring
  have hint : |A t + s * (A (t + h) - A t) - A (t + s * h)| ≤ 2 * q * h ^ 2 := by
    rw [show A t + s * (A (t + h) - A t) - A (t + s * h) = s * (A (t + h) - (A t + h * A' t)) -
      (A (t + s * h) - (A t + s * h * A' t)) by ring]
    refine (abs_sub _ _).trans ?_
    rw [abs_mul, abs_of_nonneg hs0]
    have c1 := chord h hh le_rfl
    have c2 := chord (s * h) hsh0 hsh
    have := mul_le_mul hs1 c1 (abs_nonneg _) zero_le_one
    linarith
  have hbeam : |N t - N (t + s * h)| ≤ ν * h := by
    have := Push.change_near (f := N) (f' := N') (T := T) (a := t) (b := t + s * h) (d := 0) (C := ν) ht (by linarith) tms.2
      (fun r _ => (dN r).hasDerivWithinAt) (fun r h2 h3 => by
        rw [sub_zero]; exact hν r ⟨by linarith, by linarith [tms.2]⟩)
    rw [mul_zero, add_zero, add_sub_cancel_left, abs_sub_comm] at this
    refine this.trans ?_
    rw [mul_comm ν h]
    exact mul_le_mul_of_nonneg_right hsh hν0
  have t1 := accel_lip (n := N t) hd ha hz (ab _ tms)
  have t2 := accel_laser (n := N t) hd ha (mA.bound _ tms) (ab _ tms)
  have t3 := accel_beam (A (t + s * h)) (N t) (N (t + s * h)) (Ψ (t + s * h))
  have t4 := mul_le_mul_of_nonneg_left hint (by positivity : 0 ≤ Ma / d ^ 2)
  have t5 : 0 ≤ Ma / d ^ 2 * (2 * q) * (ν * h) :=
    mul_nonneg (by positivity) (mul_nonneg hν0 hh)
  have t6 : Ma / d ^ 2 * (2 * q * h ^ 2) = Ma / d ^ 2 * (2 * q) * h ^ 2 := by ring
  have tri := abs_sub_le (accel (A t + s * (A (t + h) - A t)) (N t) z) (accel (A t + s * (A (t + h) - A t)) (N t) (Ψ (t + s * h)))
    (accel (A (t + s * h)) (N (t + s * h)) (Ψ (t + s * h)))
  have tri2 := abs_sub_le (accel (A t + s * (A (t + h) - A t)) (N t) (Ψ (t + s * h))) (accel (A (t + s * h)) (N t) (Ψ (t + s * h)))
    (accel (A (t + s * h)) (N (t + s * h)) (Ψ (t + s * h)))
  have t8 := sq_nonneg h
  rw [add_mul, one_mul, mul_add]
  linarith

/-- The facts follow from twice differentiable drivers. -/
theorem facts_exist {δ : ℝ} (hT : 0 ≤ T) (hδ : 0 < δ) (hA : ContDiff ℝ 2 A) (hN : ContDiff ℝ 2 N)
    (sol : ExactWake A N T δ Ψ V) (hν : ∀ t ∈ Icc 0 T, |deriv N t| ≤ ν) :
    ∃ W G L P w, Facts A N Ψ V (fun t => accel (A t) (N t) (Ψ t)) W T (δ / 2) G L P w ν := by
  have h0 : (0 : ℝ) ∈ Icc 0 T := ⟨le_rfl, hT⟩
  have dA : ∀ t, HasDerivAt A (deriv A t) t := fun t => (hA.differentiable (by norm_num) t).hasDerivAt
  have dN : ∀ t, HasDerivAt N (deriv N t) t := fun t => (hN.differentiable (by norm_num) t).hasDerivAt
  have cA : ContDiff ℝ 1 (deriv A) := ((contDiff_succ_iff_deriv (n := 1)).mp hA).2.2
  have cN : ContDiff ℝ 1 (deriv N) := ((contDiff_succ_iff_deriv (n := 1)).mp hN).2.2
  obtain ⟨Ma, hMa, mA⟩ := mild_contDiff (hA.of_le (by norm_num)) hT
  obtain ⟨Mn, hMn, mN⟩ := mild_contDiff (hN.of_le (by norm_num)) hT
  obtain ⟨q, hq, mA'⟩ := mild_contDiff cA hT
  obtain ⟨Mn', hMn', mN'⟩ := mild_contDiff cN hT
  have hν0 : 0 ≤ ν := (abs_nonneg _).trans (hν 0 h0)
  have hd : 0 < δ / 2 := by linarith
  have ab : ∀ t ∈ Icc 0 T, δ / 2 ≤ 1 + Ψ t := fun t ht => by have := sol.above t ht; linarith
  have hG0 : 0 ≤ (1 + Ma ^ 2) / (δ / 2) ^ 2 + 1 + Mn := by positivity
  have fG : ∀ t ∈ Icc 0 T, |accel (A t) (N t) (Ψ t)| ≤ (1 + Ma ^ 2) / (δ / 2) ^ 2 + 1 + Mn := fun t ht =>
    accel_bound hd (mA.bound t ht) (mN.bound t ht) (ab t ht)
  have mV := Mild.of_deriv hT hG0 sol.wave fG
  obtain ⟨W, MW, hMW, mW, third⟩ := jerk hT hδ dA dN mA mA' mN' mV sol
  have mf := Mild.of_deriv hT hMW third mW.bound
  obtain ⟨Mf, hMf, mf⟩ : ∃ M, 0 ≤ M ∧ Mild T M fun t => accel (A t) (N t) (Ψ t) :=
    ⟨_, (abs_nonneg _).trans (mf.bound 0 h0), mf⟩
  exact ⟨W, _, _, _, Mf + MW, ⟨hd, hG0, by positivity, by positivity, by positivity, hν0,
    fun t ht => by have := sol.above t ht; linarith, sol.slope, sol.wave, third, fG,
    (mf.mono (by linarith)).lip, (mW.mono (by linarith)).lip,
    fun t h s z ht hh _ htT hs0 hs1 hz => stage_near hd hq hMa hν0 dA dN mA mN mA' ab hν ht hh htT hs0 hs1 hz⟩⟩

end Step

/-! ### C147 -/

/-- Distance of slice `k` behind the head of the box. -/
noncomputable def behind (m : Cold) (k : ℕ) : ℝ := ((m.nXi : ℝ) - 1 - k) * m.dz

/-- The drivers of column `j` of the grid are samples of `A` and `N`. -/
structure Sampled (m : Cold) (j : ℕ) (A N : ℝ → ℝ) : Prop where
  laser : ∀ k < m.nXi, m.aEnv k j = A (behind m k)
  beam : ∀ k < m.nXi, (if m.beamWakefields then m.beam k j else 0) = N (behind m k)

/-- The three formulas of `np.gradient` for values close to those of a function with the expansion
`h v + h² f / 2` about the first of three points. -/
theorem three_points {y0 y1 y2 v f h ε : ℝ} (hh : 0 < h) (h1 : |y1 - (y0 + h * v + h ^ 2 / 2 * f)| ≤ h * ε)
    (h2 : |y2 - (y0 + 2 * h * v + 2 * h ^ 2 * f)| ≤ 2 * h * ε) :
    |(4 * y1 - 3 * y0 - y2) / (2 * h) - v| ≤ 3 * ε ∧ |(y2 - y0) / (2 * h) - (v + h * f)| ≤ 3 * ε ∧
      |(3 * y2 - 4 * y1 + y0) / (2 * h) - (v + 2 * h * f)| ≤ 5 * ε := by
  set a := y1 - (y0 + h * v + h ^ 2 / 2 * f) with ha
  set b := y2 - (y0 + 2 * h * v + 2 * h ^ 2 * f) with hb
  have e1 : (4 * y1 - 3 * y0 - y2) / (2 * h) - v = (4 * a - b) / (2 * h) := by
    rw [ha, hb]; field_simp; ring
  have e2 : (y2 - y0) / (2 * h) - (v + h * f) = b / (2 * h) := by
    rw [hb]; field_simp; ring
  have e3 : (3 * y2 - 4 * y1 + y0) / (2 * h) - (v + 2 * h * f) = (3 * b - 4 * a) / (2 * h) := by
    rw [ha, hb]; field_simp; ring
  have hε : 0 ≤ h * ε := (abs_nonneg _).trans h1
  obtain ⟨a1, a2⟩ := abs_le.mp h1
  obtain ⟨b1, b2⟩ := abs_le.mp h2
  have h20 : 0 < 2 * h := by linarith
  rw [e1, e2, e3, abs_div, abs_div, abs_div, abs_of_pos h20, div_le_iff₀ h20, div_le_iff₀ h20, div_le_iff₀ h20]
  refine ⟨abs_le.mpr ⟨?_, ?_⟩, abs_le.mpr ⟨?_, ?_⟩, abs_le.mpr ⟨?_, ?_⟩⟩ <;> linarith

section Order
variable {A N Ψ V f W : ℝ → ℝ} {d G L P w ν : ℝ}

/-- The error of the potential and of its derivative at all slices. -/
theorem Facts.error (F : Facts A N Ψ V f W T d G L P w ν) (h0 : Ψ 0 = 0 ∧ V 0 = 0) (m : Cold) (j : ℕ) (hj : j < m.nR)
    (hr : 0 < m.dr) (hz : 0 < m.dz) (hz1 : m.dz ≤ 1) (hT : ((m.nXi : ℝ) - 1) * m.dz ≤ T) (hs : Sampled m j A N)
    (R K E : ℝ) (hK : K = 1 + 3 * L) (hR : R = 2 * (P + 2 * L * G) + 4 * w)
    (hE : E = R * T * Real.exp (K * T) * (m.dz ^ 2 + ν * m.dz)) (hd : 2 * E + 2 * G * m.dz ^ 2 ≤ d) (k : ℕ) (hk : k < m.nXi) :
    |(m.u k j).1 - Ψ (behind m k)| + |(m.u k j).2 - V (behind m k)| ≤ E ∧
    (k + 1 < m.nXi → |((m.u k j).1 - Ψ (behind m k)) - ((m.u (k + 1) j).1 - Ψ (behind m (k + 1)))| ≤
      m.dz * (K * E + R * (m.dz ^ 2 + ν * m.dz))) := by
  obtain ⟨u0, us⟩ := fluid_rk4 m hz hr j hj
  set h := m.dz with hh
  set η := h ^ 2 + ν * h with hη
  have hη0 : 0 ≤ η := add_nonneg (sq_nonneg h) (mul_nonneg F.ν0 hz.le)
  have hL := F.L0
  have hP := F.P0
  have hG := F.G0
  have hw := F.w0
  have hR0 : 0 ≤ R := by rw [hR]; positivity
  have hK0 : 0 ≤ K := by rw [hK]; positivity
  have hrange : ∀ k < m.nXi, 0 ≤ behind m k ∧ behind m k ≤ T := by
    intro k hk
    have h1 : (k : ℝ) + 1 ≤ m.nXi := by exact_mod_cast hk
    have h2 : (0 : ℝ) ≤ k := Nat.cast_nonneg k
    unfold behind
    rw [← hh]
    refine ⟨mul_nonneg (by linarith) hz.le, le_trans ?_ hT⟩
    exact mul_le_mul_of_nonneg_right (by linarith) hz.le
  have hnext : ∀ k, behind m (k + 1) + h = behind m k := by
    intro k; unfold behind; rw [← hh]; push_cast; ring
  -- the bound that grows with the distance
  have bound_le : ∀ t, 0 ≤ t → t ≤ T → R * t * Real.exp (K * t) * η ≤ E := by
    intro t ht htT
    rw [hE]
    apply mul_le_mul_of_nonneg_right _ hη0
    apply mul_le_mul (mul_le_mul_of_nonneg_left htT hR0) _ (Real.exp_pos _).le (mul_nonneg hR0 (ht.trans htT))
    exact Real.exp_le_exp.mpr (mul_le_mul_of_nonneg_left htT hK0)
  have key : ∀ k < m.nXi, k + 1 < m.nXi →
      |(m.u (k + 1) j).1 - Ψ (behind m (k + 1))| + |(m.u (k + 1) j).2 - V (behind m (k + 1))| ≤
        R * behind m (k + 1) * Real.exp (K * behind m (k + 1)) * η →
      |(m.u k j).1 - Ψ (behind m k)| + |(m.u k j).2 - V (behind m k)| ≤ R * behind m k * Real.exp (K * behind m k) * η ∧
      |((m.u k j).1 - Ψ (behind m k)) - ((m.u (k + 1) j).1 - Ψ (behind m (k + 1)))| ≤ h * (K * E + R * η) := by
    intro k hk hk1 hprev
    obtain ⟨t0, tT⟩ := hrange (k + 1) hk1
    have htT := (hrange k hk).2
    have hbl := bound_le _ t0 tT
    obtain ⟨s1, s2⟩ := F.step (h := h) t0 hz.le hz1 (by rw [hnext]; exact htT) hprev (by linarith)
    have hu : m.u k j = rk4 h (fun s z => accel (A (behind m (k + 1)) + s * (A (behind m (k + 1) + h) - A (behind m (k + 1))))
        (N (behind m (k + 1))) z) (m.u (k + 1) j).1 (m.u (k + 1) j).2 := by
      rw [us k hk1, hs.laser k hk, hs.laser (k + 1) hk1, hs.beam (k + 1) hk1, hnext]
    rw [← hu, hnext] at s1 s2
    rw [← hK, ← hR, ← hη] at s1 s2
    set t := behind m (k + 1) with ht
    set B := R * t * Real.exp (K * t) * η with hB
    have hexp : (1 + K * h) * Real.exp (K * t) ≤ Real.exp (K * (t + h)) := by
      rw [mul_add, Real.exp_add, mul_comm (Real.exp _)]
      exact mul_le_mul_of_nonneg_right (by have := Real.add_one_le_exp (K * h); linarith) (Real.exp_pos _).le
    have hone : 1 ≤ Real.exp (K * (t + h)) := Real.one_le_exp (mul_nonneg hK0 (by linarith))
    constructor
    · refine s1.trans ?_
      rw [← hnext k, ← ht]
      have a1 := mul_le_mul_of_nonneg_left hexp (mul_nonneg (mul_nonneg hR0 t0) hη0)
      have a2 := mul_le_mul_of_nonneg_left hone (mul_nonneg (mul_nonneg hR0 hz.le) hη0)
      have e1 : (1 + K * h) * B = R * t * η * ((1 + K * h) * Real.exp (K * t)) := by rw [hB]; ring
      have e2 : R * (h * η) = R * h * η * 1 := by ring
      have e3 : R * (t + h) * Real.exp (K * (t + h)) * η = R * t * η * Real.exp (K * (t + h)) + R * h * η * Real.exp (K * (t + h)) := by
        ring
      rw [e1, e2, e3]
      linarith
    · refine s2.trans ?_
      have := mul_le_mul_of_nonneg_left hbl (mul_nonneg hK0 hz.le)
      have e : h * (K * E + R * η) = K * h * E + R * (h * η) := by ring
      rw [e]
      linarith
  have all : ∀ i k, i + k + 1 = m.nXi →
      |(m.u k j).1 - Ψ (behind m k)| + |(m.u k j).2 - V (behind m k)| ≤ R * behind m k * Real.exp (K * behind m k) * η := by
    intro i
    induction i with
    | zero =>
      intro k hk
      have e : k = m.nXi - 1 := by omega
      have eb : behind m k = 0 := by
        unfold behind
        have : (m.nXi : ℝ) = k + 1 := by rw [← hk]; push_cast; ring
        rw [this]; ring
      rw [eb, e, u0, h0.1, h0.2]
      simp
    | succ i ih =>
      intro k hk
      exact (key k (by omega) (by omega) (ih (k + 1) (by omega))).1
  have hall : ∀ k < m.nXi, |(m.u k j).1 - Ψ (behind m k)| + |(m.u k j).2 - V (behind m k)| ≤
      R * behind m k * Real.exp (K * behind m k) * η := fun k hk => all (m.nXi - 1 - k) k (by omega)
  obtain ⟨b1, b2⟩ := hrange k hk
  exact ⟨(hall k hk).trans (bound_le _ b1 b2), fun hk1 => (key k hk hk1 (hall (k + 1) hk1)).2⟩

/-- The accelerating field, from the errors of the potential. -/
theorem Facts.field (F : Facts A N Ψ V f W T d G L P w ν) (m : Cold) (j : ℕ) (hz : 0 < m.dz)
    (hT : ((m.nXi : ℝ) - 1) * m.dz ≤ T) (h3 : 3 ≤ m.nXi) (D : ℝ)
    (hD : ∀ k, k + 1 < m.nXi → |((m.u k j).1 - Ψ (behind m k)) - ((m.u (k + 1) j).1 - Ψ (behind m (k + 1)))| ≤
      m.dz * (D * (m.dz ^ 2 + ν * m.dz))) (k : ℕ) (hk : k < m.nXi) :
    |m.Ez k j - V (behind m k)| ≤ (5 * (D + 4 * w) + 4 * w) * (m.dz ^ 2 + ν * m.dz) := by
  set h := m.dz with hh
  set η := h ^ 2 + ν * h with hη
  have hη2 : h ^ 2 ≤ η := by rw [hη]; linarith [mul_nonneg F.ν0 hz.le]
  have hw := F.w0
  have hnext : ∀ k, behind m (k + 1) + h = behind m k := by
    intro k; unfold behind; rw [← hh]; push_cast; ring
  have hrange : ∀ k < m.nXi, 0 ≤ behind m k ∧ behind m k ≤ T := by
    intro k hk
    have h1 : (k : ℝ) + 1 ≤ m.nXi := by exact_mod_cast hk
    have h2 : (0 : ℝ) ≤ k := Nat.cast_nonneg k
    unfold behind
    rw [← hh]
    refine ⟨mul_nonneg (by linarith) hz.le, le_trans ?_ hT⟩
    exact mul_le_mul_of_nonneg_right (by linarith) hz.le
  have hw2 : h ^ 2 * w ≤ w * η := by
    rw [mul_comm]; exact mul_le_mul_of_nonneg_left hη2 hw
  have hw3 : h ^ 3 * w ≤ h * (w * η) := by
    calc h ^ 3 * w = h * (h ^ 2 * w) := by ring
      _ ≤ _ := mul_le_mul_of_nonneg_left hw2 hz.le
  -- three neighbouring slices `l + 2, l + 1, l`
  have three : ∀ l, l + 2 < m.nXi → let b := behind m (l + 2)
      |(4 * (m.u (l + 1) j).1 - 3 * (m.u (l + 2) j).1 - (m.u l j).1) / (2 * h) - V b| ≤ 3 * ((D + 4 * w) * η) ∧
      |((m.u l j).1 - (m.u (l + 2) j).1) / (2 * h) - (V b + h * f b)| ≤ 3 * ((D + 4 * w) * η) ∧
      |(3 * (m.u l j).1 - 4 * (m.u (l + 1) j).1 + (m.u (l + 2) j).1) / (2 * h) - (V b + 2 * h * f b)| ≤ 5 * ((D + 4 * w) * η) ∧
      |V (behind m (l + 1)) - (V b + h * f b)| ≤ w * η ∧ |V (behind m l) - (V b + 2 * h * f b)| ≤ 4 * (w * η) := by
    intro l hl b
    have i1 : b + h = behind m (l + 1) := hnext (l + 1)
    have i2 : b + 2 * h = behind m l := by rw [← hnext l, ← hnext (l + 1)]; ring
    obtain ⟨hb0, -⟩ := hrange (l + 2) hl
    obtain ⟨-, p1, p2, -, -⟩ := F.psi_step (h := h) hb0 hz.le (by rw [i1]; exact (hrange _ (by omega)).2)
    obtain ⟨-, q1, q2, -, -⟩ := F.psi_step (h := 2 * h) hb0 (by linarith) (by rw [i2]; exact (hrange _ (by omega)).2)
    rw [i1] at p1 p2
    rw [i2] at q1 q2
    have d1 := hD (l + 1) (by omega)
    have d2 := hD l (by omega)
    change |V (behind m (l + 1)) - (V b + h * f b)| ≤ _ at p2
    change |V (behind m l) - (V b + 2 * h * f b)| ≤ _ at q2
    have s1 : |(m.u (l + 1) j).1 - ((m.u (l + 2) j).1 + h * V b + h ^ 2 / 2 * f b)| ≤ h * ((D + 4 * w) * η) := by
      have a1 : |Ψ (behind m (l + 1)) - (Ψ b + h * V b + h ^ 2 / 2 * f b)| ≤ h ^ 3 * w := p1
      have a2 : |((m.u (l + 1) j).1 - Ψ (behind m (l + 1))) - ((m.u (l + 2) j).1 - Ψ b)| ≤ h * (D * η) := d1
      have e : (m.u (l + 1) j).1 - ((m.u (l + 2) j).1 + h * V b + h ^ 2 / 2 * f b) =
          (((m.u (l + 1) j).1 - Ψ (behind m (l + 1))) - ((m.u (l + 2) j).1 - Ψ b)) +
          (Ψ (behind m (l + 1)) - (Ψ b + h * V b + h ^ 2 / 2 * f b)) := by ring
      rw [e]
      refine (abs_add_le _ _).trans ?_
      have e2 : h * ((D + 4 * w) * η) = h * (D * η) + 4 * (h * (w * η)) := by ring
      have e3 : 0 ≤ h ^ 3 * w := by positivity
      rw [e2]
      linarith
    have s2 : |(m.u l j).1 - ((m.u (l + 2) j).1 + 2 * h * V b + 2 * h ^ 2 * f b)| ≤ 2 * h * ((D + 4 * w) * η) := by
      have a1 : |Ψ (behind m l) - (Ψ b + 2 * h * V b + (2 * h) ^ 2 / 2 * f b)| ≤ (2 * h) ^ 3 * w := q1
      have a2 : |((m.u (l + 1) j).1 - Ψ (behind m (l + 1))) - ((m.u (l + 2) j).1 - Ψ b)| ≤ h * (D * η) := d1
      have e : (m.u l j).1 - ((m.u (l + 2) j).1 + 2 * h * V b + 2 * h ^ 2 * f b) =
          ((((m.u l j).1 - Ψ (behind m l)) - ((m.u (l + 1) j).1 - Ψ (behind m (l + 1)))) +
          (((m.u (l + 1) j).1 - Ψ (behind m (l + 1))) - ((m.u (l + 2) j).1 - Ψ b))) +
          (Ψ (behind m l) - (Ψ b + 2 * h * V b + (2 * h) ^ 2 / 2 * f b)) := by ring
      rw [e]
      refine (abs_add_le _ _).trans ?_
      have a3 := (abs_add_le (((m.u l j).1 - Ψ (behind m l)) - ((m.u (l + 1) j).1 - Ψ (behind m (l + 1))))
          (((m.u (l + 1) j).1 - Ψ (behind m (l + 1))) - ((m.u (l + 2) j).1 - Ψ b))).trans (add_le_add d2 a2)
      have e2 : 2 * h * ((D + 4 * w) * η) = 2 * (h * (D * η)) + 8 * (h * (w * η)) := by ring
      have e3 : (2 * h) ^ 3 * w = 8 * (h ^ 3 * w) := by ring
      rw [e2]
      linarith
    obtain ⟨t1, t2, t3⟩ := three_points hz s1 s2
    refine ⟨t1, t2, t3, p2.trans hw2, q2.trans ?_⟩
    have : (2 * h) ^ 2 * w = 4 * (h ^ 2 * w) := by ring
    linarith
  have hX : 0 ≤ w * η := mul_nonneg hw ((sq_nonneg h).trans hη2)
  have final : ∀ a b c x : ℝ, |a - c| ≤ x → x ≤ 5 * ((D + 4 * w) * η) → |b - c| ≤ 4 * (w * η) →
      |a - b| ≤ (5 * (D + 4 * w) + 4 * w) * η := by
    intro a b c x h1 h2 h4
    have := abs_sub_le a c b
    rw [abs_sub_comm c b] at this
    have e : (5 * (D + 4 * w) + 4 * w) * η = 5 * ((D + 4 * w) * η) + 4 * (w * η) := by ring
    rw [e]
    linarith
  unfold Cold.Ez Base.gradient
  rw [← hh]
  by_cases k0 : k = 0
  · subst k0
    obtain ⟨-, -, t3, -, t5⟩ := three 0 (by omega)
    rw [if_pos rfl]
    refine final _ _ _ _ ?_ le_rfl t5
    rw [show -((-3 * (m.u 0 j).1 + 4 * (m.u 1 j).1 - (m.u 2 j).1) / (2 * h)) =
      (3 * (m.u 0 j).1 - 4 * (m.u (0 + 1) j).1 + (m.u (0 + 2) j).1) / (2 * h) by rw [zero_add, zero_add]; ring]
    exact t3
  · rw [if_neg k0]
    have hDw : 0 ≤ (D + 4 * w) * η := by
      obtain ⟨t1, -⟩ := three 0 (by omega)
      have := (abs_nonneg _).trans t1
      linarith
    by_cases k1 : k + 1 = m.nXi
    · rw [if_pos k1]
      obtain ⟨l, rfl⟩ : ∃ l, k = l + 2 := ⟨k - 2, by omega⟩
      obtain ⟨t1, -⟩ := three l (by omega)
      refine final _ _ (V (behind m (l + 2))) (3 * ((D + 4 * w) * η)) ?_ (by linarith)
        (by rw [sub_self, abs_zero]; linarith)
      rw [show l + 2 - 1 = l + 1 by omega, show l + 2 - 2 = l by omega,
        show -((3 * (m.u (l + 2) j).1 - 4 * (m.u (l + 1) j).1 + (m.u l j).1) / (2 * h)) =
        (4 * (m.u (l + 1) j).1 - 3 * (m.u (l + 2) j).1 - (m.u l j).1) / (2 * h) by ring]
      exact t1
    · rw [if_neg k1]
      obtain ⟨l, rfl⟩ : ∃ l, k = l + 1 := ⟨k - 1, by omega⟩
      obtain ⟨-, t2, -, t4, -⟩ := three l (by omega)
      refine final _ _ _ (3 * ((D + 4 * w) * η)) ?_ (by linarith) (t4.trans (by linarith))
      rw [show l + 1 - 1 = l by omega, show l + 1 + 1 = l + 2 by omega,
        show -(((m.u (l + 2) j).1 - (m.u l j).1) / (2 * h)) = ((m.u l j).1 - (m.u (l + 2) j).1) / (2 * h) by ring]
      exact t2

end Order

/-- **C147.** Let `Ψ` be the exact wake potential of a driver with laser amplitude `A` and beam
density `N` (twice continuously differentiable), with accelerating field `V`, up to the distance
`T` behind the head of the box.  There are a constant and a largest slice length such that for
every grid with shorter slices, in every radial cell in which the laser and the beam density on the
grid are samples of `A` and `N`, and at every slice, the potential and the accelerating field of the cold
fluid model differ from the exact ones by at most `C (dz² + ν dz)`, where `ν` is the largest slope of
the beam density: the model is accurate to second order in the length of the slices for a laser, and
to first order for a beam. -/
theorem fluid_order {A N Ψ V : ℝ → ℝ} {δ ν : ℝ} (hT : 0 ≤ T) (hδ : 0 < δ) (hA : ContDiff ℝ 2 A) (hN : ContDiff ℝ 2 N)
    (sol : ExactWake A N T δ Ψ V) (hν : ∀ t ∈ Icc 0 T, |deriv N t| ≤ ν) :
    ∃ C h0, 0 < h0 ∧ ∀ (m : Cold) (j : ℕ), j < m.nR → 0 < m.dr → 0 < m.dz → m.dz ≤ h0 → 3 ≤ m.nXi →
      ((m.nXi : ℝ) - 1) * m.dz ≤ T → Sampled m j A N → ∀ k < m.nXi,
        |(m.u k j).1 - Ψ (behind m k)| ≤ C * (m.dz ^ 2 + ν * m.dz) ∧
        |m.Ez k j - V (behind m k)| ≤ C * (m.dz ^ 2 + ν * m.dz) := by
  obtain ⟨W, G, L, P, w, F⟩ := facts_exist hT hδ hA hN sol hν
  have hL := F.L0
  have hP := F.P0
  have hG := F.G0
  have hw := F.w0
  have hν0 := F.ν0
  set K := 1 + 3 * L with hK
  set R := 2 * (P + 2 * L * G) + 4 * w with hR
  set C1 := R * T * Real.exp (K * T) with hC1
  have hK0 : 0 ≤ K := by rw [hK]; positivity
  have hR0 : 0 ≤ R := by rw [hR]; positivity
  have hC10 : 0 ≤ C1 := by rw [hC1]; positivity
  set Q := C1 * (1 + ν) + G + 1 with hQ
  have hQ0 : 0 < Q := by rw [hQ]; positivity
  set D := K * C1 + R with hD
  have hD0 : 0 ≤ D := by rw [hD]; positivity
  refine ⟨C1 + (5 * (D + 4 * w) + 4 * w), min 1 (δ / (4 * Q)), lt_min one_pos (by positivity), ?_⟩
  intro m j hj hr hz hh0 h3 hTm hs k hk
  have hz1 : m.dz ≤ 1 := hh0.trans (min_le_left _ _)
  have hz2 : m.dz ≤ δ / (4 * Q) := hh0.trans (min_le_right _ _)
  set h := m.dz with hh
  set η := h ^ 2 + ν * h with hη
  have hη0 : 0 ≤ η := add_nonneg (sq_nonneg h) (mul_nonneg hν0 hz.le)
  have hsq : h ^ 2 ≤ h := by
    rw [sq]; have := mul_le_mul_of_nonneg_left hz1 hz.le; linarith
  have hη1 : η ≤ (1 + ν) * h := by rw [hη]; linarith
  have hdom : 2 * (C1 * η) + 2 * G * h ^ 2 ≤ δ / 2 := by
    have a1 := mul_le_mul_of_nonneg_left hη1 hC10
    have a2 := mul_le_mul_of_nonneg_left hsq hG
    have a3 : h * (4 * Q) ≤ δ := by rwa [le_div_iff₀ (by positivity)] at hz2
    have a4 : h * (4 * Q) = 4 * (C1 * ((1 + ν) * h)) + 4 * (G * h) + 4 * h := by rw [hQ]; ring
    linarith
  have err := F.error sol.head m j hj hr hz hz1 hTm hs R K (C1 * η) rfl rfl rfl hdom
  have hD' : ∀ k, k + 1 < m.nXi → |((m.u k j).1 - Ψ (behind m k)) - ((m.u (k + 1) j).1 - Ψ (behind m (k + 1)))| ≤
      h * (D * η) := by
    intro k hk
    refine ((err k (by omega)).2 hk).trans (le_of_eq ?_)
    rw [hD]; ring
  have hX : 0 ≤ 5 * (D + 4 * w) + 4 * w := by positivity
  have hXη := mul_nonneg hX hη0
  have hC1η := mul_nonneg hC10 hη0
  refine ⟨?_, (F.field m j hz hTm h3 D hD' k hk).trans ?_⟩
  · have := (err k hk).1
    have := abs_nonneg ((m.u k j).2 - V (behind m k))
    rw [add_mul]
    linarith
  · rw [add_mul C1]
    linarith

/-- The hypotheses hold for a laser pulse of amplitude `t √(24 + 2 t² + 48 t⁴ + t⁶ + 24 t⁸)`, whose wake is
`Ψ = t⁴`, in a box of any number of slices: the error of the accelerating field `4 t³` is of second order. -/
example : ∃ C h0 : ℝ, 0 < h0 ∧ ∀ n : ℕ, 3 ≤ n → 1 / ((n : ℝ) - 1) ≤ h0 →
    let m : Cold := ⟨n, 2, 0, 1 / ((n : ℝ) - 1), 1, true, some fun k _ =>
      (((n : ℝ) - 1 - k) * (1 / ((n : ℝ) - 1))) * Real.sqrt (24 + 2 * (((n : ℝ) - 1 - k) * (1 / ((n : ℝ) - 1))) ^ 2 +
        48 * (((n : ℝ) - 1 - k) * (1 / ((n : ℝ) - 1))) ^ 4 + (((n : ℝ) - 1 - k) * (1 / ((n : ℝ) - 1))) ^ 6 +
        24 * (((n : ℝ) - 1 - k) * (1 / ((n : ℝ) - 1))) ^ 8), fun _ _ => 0⟩
    ∀ k < n, |m.Ez k 1 - 4 * (((n : ℝ) - 1 - k) * m.dz) ^ 3| ≤ C * m.dz ^ 2 := by
  have hp : ∀ t : ℝ, 0 < 24 + 2 * t ^ 2 + 48 * t ^ 4 + t ^ 6 + 24 * t ^ 8 := fun t => by positivity
  have sol : ExactWake (fun t => t * Real.sqrt (24 + 2 * t ^ 2 + 48 * t ^ 4 + t ^ 6 + 24 * t ^ 8)) (fun _ => 0) 1 1
      (fun t => t ^ 4) (fun t => 4 * t ^ 3) := by
    refine ⟨by norm_num, fun t _ => ?_, fun t _ => ?_, fun t _ => ?_⟩
    · simpa using (hasDerivAt_pow 4 t).hasDerivWithinAt
    · refine (((hasDerivAt_pow 3 t).const_mul 4).hasDerivWithinAt).congr_deriv ?_
      rw [mul_pow, Real.sq_sqrt (hp t).le]
      have : (1 + t ^ 4) ≠ 0 := by positivity
      field_simp
      norm_num
      ring
    · have : 0 ≤ t ^ 4 := by positivity
      linarith
  have hA : ContDiff ℝ 2 (fun t : ℝ => t * Real.sqrt (24 + 2 * t ^ 2 + 48 * t ^ 4 + t ^ 6 + 24 * t ^ 8)) := by
    apply contDiff_id.mul
    apply ContDiff.sqrt
    · fun_prop
    · exact fun t => (hp t).ne'
  obtain ⟨C, h0, h00, H⟩ := fluid_order zero_le_one one_pos hA contDiff_const sol (ν := 0)
    (fun t _ => by simp)
  refine ⟨C, h0, h00, fun n hn hh => ?_⟩
  have hn1 : (0 : ℝ) < (n : ℝ) - 1 := by
    have : (3 : ℝ) ≤ n := by exact_mod_cast hn
    linarith
  intro m k hk
  have := (H m 1 (by simp [m]) (by simp [m]) (by simpa [m] using hn1) hh hn ?_ ⟨?_, ?_⟩ k hk).2
  · simpa [behind, m] using this
  · simp only [m]; rw [mul_one_div_cancel hn1.ne']
  · intro k hk
    simp [Cold.aEnv, m, behind]
  · intro k hk
    simp [m]

end WakeT.ColdFluid
