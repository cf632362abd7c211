import Verif.Laser.Subgrid
import Mathlib.Analysis.Complex.ExponentialBounds
import Verif.Base.Tactics

/-! # Pulses from openPMD files (C175)

`OpenPMDPulse` in `wake_t/physics_models/laser/laser_pulse.py`: which point of the profile in the file ends up at which point of the grid. -/

set_option linter.unusedSectionVars false

namespace WakeT.Laser

/-! ### Model -/

/-- What the packages `lasy` and `scipy` do (laser_pulse.py 661-669, 684-692, 699).  `grid rMin rMax tMin tMax nR nT` is `a_env[0]` of the `Laser` with these limits and numbers of points
(first index along `r`, second along `t`), `rAxis` the largest radius in the file, `filter` the Gaussian filter. -/
structure Lasy where
  grid : ℝ → ℝ → ℝ → ℝ → ℕ → ℕ → ℕ → ℕ → ℂ
  rAxis : ℝ
  filter : GridC → GridC

/-- The options `smooth_edges` and `apply_gaussian_filter` (laser_pulse.py 671-672). -/
structure FileOpts where
  smooth : Bool
  filter : Bool

/-- `np.min` of an array whose values are `f 0, …, f (n-1)` (laser_pulse.py 678, 682). -/
noncomputable def npMin (n : ℕ) (f : ℕ → ℝ) : ℝ := ((List.range n).map f).min?.getD 0

/-- `np.max` of such an array (laser_pulse.py 679, 683, 703). -/
noncomputable def npMax (n : ℕ) (f : ℕ → ℝ) : ℝ := ((List.range n).map f).max?.getD 0

/-- The factor of the smoothed edges (laser_pulse.py 704). -/
noncomputable def edgeFactor (rSmooth r : ℝ) : ℝ := Real.exp (-2 * (r / (rSmooth * 0.85)) ^ 8)

/-- `OpenPMDPulse._envelope_function` (laser_pulse.py 675-706) on the grid `m` (the arguments in 160-166).  The position `z_pos` is not used. -/
noncomputable def fileEnv (l : Lasy) (o : FileOpts) (c : ℝ) (m : Mesh) : GridC :=
  let t : ℕ → ℝ := fun i => -m.zs i / c                                           -- 677
  let tMin := npMin m.nz t                                                        -- 678
  let tMax := npMax m.nz t - tMin                                                 -- 679-680
  let a : ℕ → ℕ → ℂ := l.grid (npMin m.nr m.rs) (npMax m.nr m.rs) 0 tMax m.nr m.nz  -- 681-692
  let a : GridC := fun i j => a j (m.nz - 1 - i)                                  -- 695
  let a := if o.filter then l.filter a else a                                     -- 698-699
  if o.smooth then                                                                -- 702-704
    let rSmooth := min l.rAxis (npMax m.nr m.rs)
    fun i j => a i j * edgeFactor rSmooth (m.rs j)
  else a

/-! ### Specification -/

/-- The package evaluates the profile `f r t` at equally spaced points that include the limits. -/
def Lasy.Samples (l : Lasy) (f : ℝ → ℝ → ℂ) : Prop :=
  ∀ rMin rMax tMin tMax nR nT j k, l.grid rMin rMax tMin tMax nR nT j k = f (linspace rMin rMax nR j) (linspace tMin tMax nT k)

/-- The grid moved along the axis. -/
def Mesh.moved (d : ℝ) (m : Mesh) : Mesh := { m with zMin := m.zMin + d, zMax := m.zMax + d }

/-! ### Theorems -/

theorem npMin_eq {n : ℕ} {f : ℕ → ℝ} {i : ℕ} (hi : i < n) (h : ∀ k < n, f i ≤ f k) : npMin n f = f i := by
  unfold npMin
  rw [(List.min?_eq_some_iff (a := f i)).mpr]
  · rfl
  · refine ⟨List.mem_map.mpr ⟨i, List.mem_range.mpr hi, rfl⟩, ?_⟩
    intro b hb
    obtain ⟨k, hk, rfl⟩ := List.mem_map.mp hb
    exact h k (List.mem_range.mp hk)

theorem npMax_eq {n : ℕ} {f : ℕ → ℝ} {i : ℕ} (hi : i < n) (h : ∀ k < n, f k ≤ f i) : npMax n f = f i := by
  unfold npMax
  rw [(List.max?_eq_some_iff (a := f i)).mpr]
  · rfl
  · refine ⟨List.mem_map.mpr ⟨i, List.mem_range.mpr hi, rfl⟩, ?_⟩
    intro b hb
    obtain ⟨k, hk, rfl⟩ := List.mem_map.mp hb
    exact h k (List.mem_range.mp hk)

/-- The grid on which the package is asked for the profile: the radii of the grid, and times from zero to the length of the box. -/
theorem file_limits {m : Mesh} (h : m.Ok) {c : ℝ} (hc : 0 < c) :
    npMin m.nr m.rs = m.dr / 2 ∧ npMax m.nr m.rs = m.rMax - m.dr / 2 ∧
    npMax m.nz (fun i => -m.zs i / c) - npMin m.nz (fun i => -m.zs i / c) = (m.zMax - m.zMin) / c := by
  have hz := h.dz_pos
  have hr := h.dr_pos
  have hnz := h.nz
  have hnr := h.nr
  have hcast : ((m.nr - 1 : ℕ) : ℝ) = m.nr - 1 := by rw [Nat.cast_sub (by omega)]; norm_num
  have hcastz : ((m.nz - 1 : ℕ) : ℝ) = m.nz - 1 := by rw [Nat.cast_sub (by omega)]; norm_num
  have hle : ∀ {n k : ℕ}, k < n → ((k : ℕ) : ℝ) ≤ ((n - 1 : ℕ) : ℝ) := fun {n k} hk => by exact_mod_cast (by omega : k ≤ n - 1)
  refine ⟨?_, ?_, ?_⟩
  · rw [npMin_eq (i := 0) (by omega), h.rs_eq]
    · simp
    · intro k _
      rw [h.rs_eq, h.rs_eq]
      have : (0 : ℝ) ≤ k * m.dr := by positivity
      simpa using this
  · rw [npMax_eq (i := m.nr - 1) (by omega), h.rs_eq, hcast]
    · linarith [h.rMax_eq]
    · intro k hk
      rw [h.rs_eq, h.rs_eq]
      have := mul_le_mul_of_nonneg_right (hle hk) hr.le
      linarith
  · rw [npMax_eq (i := 0) (by omega), npMin_eq (i := m.nz - 1) (by omega), h.zs_eq, h.zs_eq, hcastz]
    · have e : m.zMax = m.zMin + (m.nz - 1) * m.dz := h.zMax_eq
      rw [e]
      field_simp
      push_cast
      ring
    · intro k hk
      rw [h.zs_eq, h.zs_eq]
      have := mul_le_mul_of_nonneg_right (hle hk) hz.le
      exact div_le_div_of_nonneg_right (by linarith) hc.le
    · intro k _
      rw [h.zs_eq, h.zs_eq]
      have : (0 : ℝ) ≤ k * m.dz := by positivity
      exact div_le_div_of_nonneg_right (by simpa using this) hc.le

/-- The values before filter and smoothing. -/
theorem file_sampled {m : Mesh} (h : m.Ok) {c : ℝ} (hc : 0 < c) {l : Lasy} {f : ℝ → ℝ → ℂ} (hl : l.Samples f) {i : ℕ} (hi : i < m.nz) (j : ℕ) :
    fileEnv l ⟨false, false⟩ c m i j = f (m.rs j) ((m.zMax - m.zs i) / c) := by
  obtain ⟨h1, h2, h3⟩ := file_limits h hc
  unfold fileEnv
  dsimp only
  rw [if_neg (by simp), if_neg (by simp), h1, h2, h3, hl]
  have hz : linspace 0 ((m.zMax - m.zMin) / c) m.nz (m.nz - 1 - i) = (m.zMax - m.zs i) / c := by
    unfold linspace
    have hnz := h.nz
    have hn : ((m.nz : ℝ) - 1) ≠ 0 := by
      have : (2 : ℝ) ≤ m.nz := by exact_mod_cast hnz
      intro h0; linarith
    have hcast : ((m.nz - 1 - i : ℕ) : ℝ) = m.nz - 1 - i := by
      rw [Nat.cast_sub (by omega), Nat.cast_sub (by omega)]; norm_num
    rw [hcast]
    show _ = (m.zMax - (m.zMin + i * ((m.zMax - m.zMin) / (m.nz - 1)))) / c
    field_simp
    ring
  rw [hz]
  rfl

/-- **C175.** A pulse from a file has at every point of the grid the value of the profile at the radius of this point and at the time at which this point passes the front of the box; its beginning is
therefore at the front of the box.  Smoothing the edges multiplies it with a factor that depends on the radius only. -/
theorem file_pulse {m : Mesh} (h : m.Ok) {c : ℝ} (hc : 0 < c) {l : Lasy} {f : ℝ → ℝ → ℂ} (hl : l.Samples f) {i : ℕ} (hi : i < m.nz) (j : ℕ) :
    fileEnv l ⟨false, false⟩ c m i j = f (m.rs j) ((m.zMax - m.zs i) / c) ∧
    fileEnv l ⟨false, false⟩ c m (m.nz - 1) j = f (m.rs j) 0 ∧
    fileEnv l ⟨true, false⟩ c m i j = f (m.rs j) ((m.zMax - m.zs i) / c) * edgeFactor (min l.rAxis (m.rMax - m.dr / 2)) (m.rs j) := by
  have h1 := file_sampled h hc hl hi j
  refine ⟨h1, ?_, ?_⟩
  · have hnz := h.nz
    have h2 := file_sampled h hc hl (i := m.nz - 1) (by omega) j
    rw [h2]
    congr 1
    have hcast : ((m.nz - 1 : ℕ) : ℝ) = m.nz - 1 := by rw [Nat.cast_sub (by omega)]; norm_num
    rw [h.zs_eq, hcast, ← h.zMax_eq]
    simp
  · have h3 : fileEnv l ⟨true, false⟩ c m i j = fileEnv l ⟨false, false⟩ c m i j * edgeFactor (min l.rAxis (npMax m.nr m.rs)) (m.rs j) := rfl
    rw [h3, h1, (file_limits h hc).2.1]

/-- **C175.** The pulse does not depend on where the box is, whatever the file and the options. -/
theorem file_moved {m : Mesh} (h : m.Ok) {c : ℝ} (hc : 0 < c) (l : Lasy) (o : FileOpts) (d : ℝ) : fileEnv l o c (m.moved d) = fileEnv l o c m := by
  have h' : (m.moved d).Ok := ⟨by show m.zMin + d < m.zMax + d; linarith [h.z], h.r, h.nz, h.nr⟩
  obtain ⟨_, _, h3⟩ := file_limits h hc
  obtain ⟨_, _, h3'⟩ := file_limits h' hc
  have e : (m.moved d).zMax - (m.moved d).zMin = m.zMax - m.zMin := by
    show m.zMax + d - (m.zMin + d) = _; ring
  rw [e] at h3'
  unfold fileEnv
  dsimp only
  rw [h3, h3']
  rfl

/-- **C175.** Smoothing the edges never increases the amplitude, removes less than three percent of it within half of the smoothing radius, and leaves less than a thousandth of it
beyond this radius; on the grid the radius is the smaller one of those of file and grid. -/
theorem file_smooth {R r : ℝ} (hR : 0 < R) :
    0 < edgeFactor R r ∧ edgeFactor R r ≤ 1 ∧ (|r| ≤ R / 2 → 97 / 100 < edgeFactor R r) ∧ (R ≤ |r| → edgeFactor R r < 1 / 1000) := by
  have h8 : (r / (R * 0.85)) ^ 8 = (|r| / (R * 0.85)) ^ 8 := by
    rw [div_pow, div_pow, Even.pow_abs (by decide)]
  have h0 : 0 ≤ (|r| / (R * 0.85)) ^ 8 := by positivity
  unfold edgeFactor
  rw [h8]
  refine ⟨Real.exp_pos _, Real.exp_le_one_iff.mpr (by linarith), fun hr => ?_, fun hr => ?_⟩
  · have h1 : |r| / (R * 0.85) ≤ 10 / 17 := by
      rw [div_le_iff₀ (by positivity)]; linarith
    have h2 : (|r| / (R * 0.85)) ^ 8 ≤ (10 / 17 : ℝ) ^ 8 := pow_le_pow_left₀ (by positivity) h1 8
    have h3 := Real.add_one_le_exp (-2 * (|r| / (R * 0.85)) ^ 8)
    have h4 : (10 / 17 : ℝ) ^ 8 < 0.015 := by norm_num
    linarith
  · have h1 : 20 / 17 ≤ |r| / (R * 0.85) := by
      rw [le_div_iff₀ (by positivity)]; linarith
    have h2 : (20 / 17 : ℝ) ^ 8 ≤ (|r| / (R * 0.85)) ^ 8 := pow_le_pow_left₀ (by norm_num) h1 8
    have h4 : (3.6 : ℝ) < (20 / 17 : ℝ) ^ 8 := by norm_num
    have h5 : Real.exp (-2 * (|r| / (R * 0.85)) ^ 8) < Real.exp (-7) := Real.exp_lt_exp.mpr (by linarith)
    have h6 : (1000 : ℝ) < Real.exp 7 := by
      have h7 : (2.7 : ℝ) < Real.exp 1 := by linarith [Real.exp_one_gt_d9]
      have h8 : Real.exp 7 = Real.exp 1 ^ 7 := by rw [← Real.exp_nat_mul]; norm_num
      rw [h8]
      calc (1000 : ℝ) < 2.7 ^ 7 := by norm_num
        _ ≤ Real.exp 1 ^ 7 := pow_le_pow_left₀ (by norm_num) h7.le 7
    have h9 : Real.exp (-7) < 1 / 1000 := by
      rw [Real.exp_neg, ← one_div]
      exact one_div_lt_one_div_of_lt (by norm_num) h6
    linarith

/-- A profile that rises linearly in time, read from a file of radius 2 onto the grid of the other examples: the package, the values at front and back. -/
noncomputable def demoLasy : Lasy :=
  ⟨fun rMin rMax tMin tMax nR nT j k => ((linspace tMin tMax nT k : ℝ) : ℂ) * (linspace rMin rMax nR j : ℝ), 2, id⟩

theorem demoLasy_samples : demoLasy.Samples fun r t => ((t : ℝ) : ℂ) * (r : ℝ) := fun _ _ _ _ _ _ _ _ => rfl

example : fileEnv demoLasy ⟨false, false⟩ 2 ⟨-3, 1, 4, 5, 4⟩ 0 1 = 3 := by
  have h : (⟨-3, 1, 4, 5, 4⟩ : Mesh).Ok := ⟨by norm_num, by norm_num, by norm_num, by norm_num⟩
  rw [(file_pulse h (by norm_num : (0 : ℝ) < 2) demoLasy_samples (i := 0) (by norm_num) 1).1, h.rs_eq, h.zs_eq]
  norm_num [Mesh.dr, Mesh.dz]

end WakeT.Laser
