import Verif.Push.Order
import Mathlib.Analysis.ODE.ExistUnique

/-! # The equations of motion have exactly one solution (C145) -/

set_option linter.unusedSectionVars false

namespace WakeT.Push

open Set NNReal

variable {k : Const} {fields : List PField} {T M L : ℝ} {p0 : Ph}

/-- The number in `[a - R, a + R]` that is next to `x`. -/
noncomputable def clamp (a R x : ℝ) : ℝ := max (a - R) (min (a + R) x)

theorem clamp_near {a R : ℝ} (hR : 0 ≤ R) (x : ℝ) : |clamp a R x - a| ≤ R := by
  unfold clamp
  rw [abs_le]
  constructor
  · linarith [le_max_left (a - R) (min (a + R) x)]
  · have : max (a - R) (min (a + R) x) ≤ a + R := max_le (by linarith) (min_le_left _ _)
    linarith

theorem clamp_eq {a R x : ℝ} (h : |x - a| ≤ R) : clamp a R x = x := by
  rw [abs_le] at h
  unfold clamp
  rw [min_eq_right (by linarith), max_eq_right (by linarith)]

theorem clamp_lip (a R x y : ℝ) : |clamp a R x - clamp a R y| ≤ |x - y| := by
  unfold clamp
  have h1 := abs_max_sub_max_le_abs (min (a + R) x) (min (a + R) y) (a - R)
  have h2 := abs_min_sub_min_le_max (a + R) x (a + R) y
  rw [sub_self, abs_zero, max_eq_right (abs_nonneg _)] at h2
  rw [max_comm (a - R), max_comm (a - R)]
  exact h1.trans h2

/-- A point with the same momentum and the next position in the reach of `p0`. -/
noncomputable def clip (p0 : Ph) (R : ℝ) (p : Ph) : Ph :=
  { p with x := clamp p0.x R p.x, y := clamp p0.y R p.y, xi := clamp p0.xi (2 * R) p.xi }

theorem clip_inReach {R : ℝ} (hR : 0 ≤ R) (p : Ph) : InReach p0 R (clip p0 R p) :=
  ⟨clamp_near hR _, clamp_near hR _, clamp_near (by linarith) _⟩

theorem clip_eq {R : ℝ} {p : Ph} (h : InReach p0 R p) : clip p0 R p = p := by
  obtain ⟨h1, h2, h3⟩ := h
  unfold clip
  rw [clamp_eq h1, clamp_eq h2, clamp_eq h3]

theorem clip_near {R ε : ℝ} {p q : Ph} (h : Near ε p q) : Near ε (clip p0 R p) (clip p0 R q) :=
  ⟨(clamp_lip _ _ _ _).trans h.x, (clamp_lip _ _ _ _).trans h.y, (clamp_lip _ _ _ _).trans h.xi, h.px, h.py, h.pz⟩

/-- In bounded and Lipschitz fields there is an exact trajectory from any point. -/
theorem trajectory_exists (hc : 0 < k.c) (hT : 0 ≤ T) (hs : Smooth fields T p0 (k.c * T) M L) : ∃ z, z 0 = p0 ∧ Trajectory k fields T z := by
  have hA := rateBound_nonneg (M := M) hc hs.M0
  have hΛ := rateLip_nonneg (M := M) (L := L) hc hs.M0 hs.L0
  have hR : 0 ≤ k.c * T := by positivity
  have hpl : IsPicardLindelof (fun t v => toV (motion k fields t (clip p0 (k.c * T) (ofV v)))) (tmin := 0) (tmax := T) ⟨0, le_rfl, hT⟩ (toV p0)
      ⟨rateBound k M * T, by positivity⟩ 0 ⟨rateBound k M, hA⟩ ⟨rateLip k M L, hΛ⟩ := by
    refine ⟨fun t ht => ?_, fun v _ => ?_, fun t ht v _ => ?_, ?_⟩
    · refine LipschitzOnWith.of_dist_le_mul fun v _ w _ => ?_
      have h1 : Near ‖v - w‖ (ofV v) (ofV w) := near_iff.2 (by rw [toV_ofV, toV_ofV])
      have h2 := motion_near hc hs (t := t) (s := t) (τ := 0) ht.1 ht.2 ht.1 ht.2 (by simp) (clip_inReach hR _) (clip_inReach hR _)
        (clip_near (p0 := p0) (R := k.c * T) h1)
      rw [zero_add] at h2
      rw [dist_eq_norm, dist_eq_norm]
      exact near_iff.1 h2
    · have h1 : LipschitzOnWith ⟨rateLip k M L, hΛ⟩ (fun t => toV (motion k fields t (clip p0 (k.c * T) (ofV v)))) (Icc 0 T) := by
        refine LipschitzOnWith.of_dist_le_mul fun t ht s hs' => ?_
        have h2 := motion_near hc hs (t := t) (s := s) (τ := |t - s|) ht.1 ht.2 hs'.1 hs'.2 le_rfl (clip_inReach hR _) (clip_inReach hR _)
          (Near.refl le_rfl (clip p0 (k.c * T) (ofV v)))
        rw [add_zero] at h2
        rw [dist_eq_norm, dist_eq_norm]
        exact near_iff.1 h2
      exact h1.continuousOn
    · have h1 := near_iff.1 (motion_bound hc hs ht.1 ht.2 (clip_inReach hR (ofV v)))
      have h2 : toV Ph.zero = 0 := by
        funext i
        fin_cases i <;> rfl
      rw [h2, sub_zero] at h1
      exact h1
    · show rateBound k M * max (T - 0) (0 - 0) ≤ rateBound k M * T - 0
      rw [sub_zero, sub_zero, sub_zero, max_eq_left hT]
  obtain ⟨α, h0, hα⟩ := hpl.exists_eq_forall_mem_Icc_hasDerivWithinAt₀
  have hα : ∀ t ∈ Icc 0 T, ∀ i, HasDerivWithinAt (fun t => α t i) (toV (motion k fields t (clip p0 (k.c * T) (ofV (α t)))) i) (Icc 0 T) t :=
    fun t ht => hasDerivWithinAt_pi.1 (hα t ht)
  have h0 : α 0 = toV p0 := h0
  have hin : ∀ t ∈ Icc 0 T, InReach p0 (k.c * T) (ofV (α t)) := by
    intro t ht
    have g : ∀ s, (clip p0 (k.c * T) (ofV (α s))).gamma = (ofV (α s)).gamma := fun s => rfl
    have h1 := change_near le_rfl ht.1 ht.2 (fun t ht => hα t ht 0) (d := 0) (C := k.c) (fun s _ _ => by
      rw [sub_zero]; exact (abs_velocity hc.le (clip p0 (k.c * T) (ofV (α s)))).1)
    have h2 := change_near le_rfl ht.1 ht.2 (fun t ht => hα t ht 1) (d := 0) (C := k.c) (fun s _ _ => by
      rw [sub_zero]; exact (abs_velocity hc.le (clip p0 (k.c * T) (ofV (α s)))).2.1)
    have h3 := change_near le_rfl ht.1 ht.2 (fun t ht => hα t ht 2) (d := 0) (C := 2 * k.c) (fun s _ _ => by
      rw [sub_zero]
      refine (abs_sub _ _).trans ?_
      have := (abs_velocity hc.le (clip p0 (k.c * T) (ofV (α s)))).2.2
      rw [abs_of_pos hc]
      linarith)
    rw [mul_zero, add_zero, sub_zero, h0] at h1 h2 h3
    have h4 : k.c * t ≤ k.c * T := mul_le_mul_of_nonneg_left ht.2 hc.le
    exact ⟨h1.trans (by linarith), h2.trans (by linarith), h3.trans (by linarith)⟩
  have hz : ∀ t ∈ Icc 0 T, ∀ i, HasDerivWithinAt (fun t => α t i) (toV (motion k fields t (ofV (α t))) i) (Icc 0 T) t := by
    intro t ht i
    have h1 := hα t ht i
    rwa [clip_eq (hin t ht)] at h1
  exact ⟨fun t => ofV (α t), by show ofV (α 0) = p0; rw [h0]; rfl, fun t ht => hz t ht 0, fun t ht => hz t ht 1, fun t ht => hz t ht 2, fun t ht => hz t ht 3,
    fun t ht => hz t ht 4, fun t ht => hz t ht 5⟩

/-- It is the only one. -/
theorem trajectory_unique (hc : 0 < k.c) (hs : Smooth fields T p0 (k.c * T) M L) {z w : ℝ → Ph} (hz : Trajectory k fields T z)
    (hw : Trajectory k fields T w) (hz0 : z 0 = p0) (hw0 : w 0 = p0) : ∀ t ∈ Icc 0 T, z t = w t := by
  have hΛ := rateLip_nonneg (M := M) (L := L) hc hs.M0 hs.L0
  have right : ∀ {y : ℝ → Ph}, Trajectory k fields T y → ∀ t ∈ Ico 0 T, HasDerivWithinAt (fun t => toV (y t)) (vmotion k fields (t, toV (y t))) (Ici t) t := by
    intro y hy t ht
    have h1 := (hy.vec t ⟨ht.1, ht.2.le⟩).mono (Icc_subset_Icc ht.1 le_rfl : Icc t T ⊆ Icc 0 T)
    exact h1.mono_of_mem_nhdsWithin (Icc_mem_nhdsGE ht.2)
  have inside : ∀ {y : ℝ → Ph}, Trajectory k fields T y → y 0 = p0 → ∀ t ∈ Ico 0 T, toV (y t) ∈ vreach k p0 T := by
    intro y hy h0 t ht
    have h1 := hy.inReach hc ht.1 ht.2.le
    rwa [h0] at h1
  have h := ODE_solution_unique_of_mem_Icc_right (v := fun t v => vmotion k fields (t, v)) (s := fun _ => vreach k p0 T) (K := ⟨rateLip k M L, hΛ⟩)
    (f := fun t => toV (z t)) (g := fun t => toV (w t)) (a := 0) (b := T) (fun t ht => ?_) (fun t ht => (hz.vec t ht).continuousWithinAt)
    (right hz) (inside hz hz0) (fun t ht => (hw.vec t ht).continuousWithinAt) (right hw) (inside hw hw0) (by rw [hz0, hw0])
  · intro t ht
    have h1 := h ht
    dsimp only at h1
    rw [← ofV_toV (z t), h1, ofV_toV]
  · refine LipschitzOnWith.of_dist_le_mul fun v hv u hu => ?_
    rw [dist_eq_norm, dist_eq_norm]
    exact vmotion_lip hc hs t ⟨ht.1, ht.2.le⟩ v hv u hu

end WakeT.Push
