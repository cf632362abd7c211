import Verif.Plasma.ColdFluid

/-! # Properties of the cold fluid wakefield (C66, C92, C93) -/

set_option linter.unusedSectionVars false

namespace WakeT.ColdFluid

open WakeT.Interp

variable (m : Cold)

theorem box_isGrid (hz : 0 < m.dz) (hr : 0 < m.dr) : m.box.IsGrid m.nXi m.nR :=
  ⟨hz, hr, rfl, rfl, by show m.dr / 2 + ((m.nR : ℝ) - 1) * m.dr = _; simp only [Cold.box]; ring⟩

/-- The gathering at a radial node, at the fraction `t` between two slices. -/
theorem gather_between (hz : 0 < m.dz) (hr : 0 < m.dr) (k j : ℕ) (t : ℝ)
    (ht : t = 0 ∨ (t = 1 / 2 ∧ k + 1 < m.nXi)) (hk : k < m.nXi) (hj : j < m.nR) :
    gatherField1 m.box m.aRz (m.rFld j) 0 (m.xiMin + (k + t) * m.dz) =
      some ((1 - t) * m.aEnv k j + t * m.aEnv (k + 1) j) := by
  have hr0 : 0 ≤ m.rFld j := by unfold Cold.rFld; positivity
  have hsq : √(m.rFld j ^ 2 + 0 ^ 2) = m.rFld j := by
    rw [zero_pow two_ne_zero, add_zero, Real.sqrt_sq hr0]
  have ht0 : 0 ≤ t := by rcases ht with h | ⟨h, _⟩ <;> rw [h]; norm_num
  have ht1 : t < 1 := by rcases ht with h | ⟨h, _⟩ <;> rw [h] <;> norm_num
  have hkn : (k : ℝ) + 1 ≤ m.nXi := by exact_mod_cast hk
  have hjn : (j : ℝ) + 1 ≤ m.nR := by exact_mod_cast hj
  have hkt : (k : ℝ) + t ≤ (m.nXi : ℝ) - 1 := by
    rcases ht with h | ⟨h, h'⟩
    · rw [h]; linarith
    · have : (k : ℝ) + 1 + 1 ≤ m.nXi := by exact_mod_cast h'
      rw [h]; linarith
  have hhas : m.box.Has (m.rFld j) (m.xiMin + (k + t) * m.dz) := by
    refine ⟨?_, ?_, ?_⟩
    · show m.xiMin ≤ _
      have : 0 ≤ ((k : ℝ) + t) * m.dz := by positivity
      linarith
    · show _ ≤ m.xiMin + ((m.nXi : ℝ) - 1) * m.dz
      have := mul_le_mul_of_nonneg_right hkt hz.le
      linarith
    · show m.rFld j ≤ m.dr / 2 + ((m.nR : ℝ) - 1) * m.dr
      unfold Cold.rFld
      have := mul_le_mul_of_nonneg_right (show (j : ℝ) ≤ (m.nR : ℝ) - 1 by linarith) hr.le
      linarith
  unfold gatherField1
  rw [hsq, if_pos hhas]
  obtain ⟨x, y, i, j', hx, hy, hi2, hin, hix, hxi, hie, hcase⟩ :=
    cellInterp_eq (box_isGrid m hz hr) 1 (show OnGrid m.aRz m.nXi m.nR from ⟨rfl, rfl⟩) hr0 hhas
  have hxv : x = k + t + 2 := by
    have h1 : (k + t) * m.dz = (x - 2) * m.dz := by
      have : m.xiMin + (k + t) * m.dz = m.xiMin + (x - 2) * m.dz := hx
      linarith
    have := mul_right_cancel₀ hz.ne' h1
    linarith
  have hyv : y = j + 2 := by
    have h1 : (j : ℝ) * m.dr = (y - 2) * m.dr := by
      have : m.dr / 2 + j * m.dr = m.dr / 2 + (y - 2) * m.dr := hy
      linarith
    have := mul_right_cancel₀ hr.ne' h1
    linarith
  have hiv : i = k + 2 := by
    have h1 : (i : ℝ) < ((k + 3 : ℤ) : ℝ) := by push_cast; linarith
    have h2 : (((k : ℤ) + 2 : ℤ) : ℝ) < ((i + 1 : ℤ) : ℝ) := by push_cast; linarith
    have h1' : i < k + 3 := by exact_mod_cast h1
    have h2' : (k : ℤ) + 2 < i + 1 := by exact_mod_cast h2
    omega
  have hval : ∀ (l : ℕ), l < m.nXi → m.aRz.val ((l : ℤ) + 2) ((j : ℤ) + 2) = m.aEnv l j := by
    intro l hl
    unfold Cold.aRz
    simp only []
    rw [if_pos (by omega)]
    congr 1
    · omega
    · omega
  rcases hcase with ⟨_, _, hjy, hyj, _, hc⟩ | ⟨_, _, h2, _⟩
  · have hjv : j' = j + 2 := by
      have h1 : (j' : ℝ) < ((j + 3 : ℤ) : ℝ) := by push_cast; linarith
      have h2 : (((j : ℤ) + 2 : ℤ) : ℝ) < ((j' + 1 : ℤ) : ℝ) := by push_cast; linarith
      have h1' : j' < j + 3 := by exact_mod_cast h1
      have h2' : (j : ℤ) + 2 < j' + 1 := by exact_mod_cast h2
      omega
    rw [hc, hiv, hjv, hxv, hyv, hval k hk]
    congr 1
    rcases ht with h | ⟨h, h'⟩
    · rw [h]; push_cast; ring
    · have hv1 := hval (k + 1) h'
      rw [show ((k + 1 : ℕ) : ℤ) + 2 = (k : ℤ) + 2 + 1 by push_cast; ring] at hv1
      rw [hv1, h]; push_cast; ring
  · exact absurd h2 (by rw [hyv, not_lt]; have : (0 : ℝ) ≤ j := Nat.cast_nonneg j; linarith)

/-- No read of the loop is out of bounds. -/
theorem gather_ok (hz : 0 < m.dz) (hr : 0 < m.dr) (k j : ℕ) (hk : k + 1 < m.nXi) (hj : j < m.nR) :
    let z := m.zFld (k + 1)
    gatherField1 m.box m.aRz (m.rFld j) 0 z = some (m.aEnv (k + 1) j) ∧
    gatherField1 m.box m.aRz (m.rFld j) 0 (z - m.dz / 2) =
      some ((m.aEnv k j + m.aEnv (k + 1) j) / 2) ∧
    gatherField1 m.box m.aRz (m.rFld j) 0 (z - m.dz) = some (m.aEnv k j) := by
  intro z
  refine ⟨?_, ?_, ?_⟩
  · have := gather_between m hz hr (k + 1) j 0 (Or.inl rfl) hk hj
    rw [show z = m.xiMin + (((k + 1 : ℕ) : ℝ) + 0) * m.dz by simp only [z, Cold.zFld]; ring, this]
    congr 1; ring
  · have := gather_between m hz hr k j (1 / 2) (Or.inr ⟨rfl, hk⟩) (by omega) hj
    rw [show z - m.dz / 2 = m.xiMin + ((k : ℝ) + 1 / 2) * m.dz by
      simp only [z, Cold.zFld]; push_cast; ring, this]
    congr 1; ring
  · have := gather_between m hz hr k j 0 (Or.inl rfl) (by omega) hj
    rw [show z - m.dz = m.xiMin + ((k : ℝ) + 0) * m.dz by
      simp only [z, Cold.zFld]; push_cast; ring, this]
    congr 1; ring

theorem a0_values (hz : 0 < m.dz) (hr : 0 < m.dr) (k j : ℕ) (hk : k + 1 < m.nXi)
    (hj : j < m.nR) :
    m.a0 j (m.zFld (k + 1)) = m.aEnv (k + 1) j ∧
    m.a0 j (m.zFld (k + 1) - m.dz / 2) = (m.aEnv k j + m.aEnv (k + 1) j) / 2 ∧
    m.a0 j (m.zFld (k + 1) - m.dz) = m.aEnv k j := by
  obtain ⟨h1, h2, h3⟩ := gather_ok m hz hr k j hk hj
  unfold Cold.a0
  cases hl : m.laser with
  | none => simp [Cold.aEnv, hl]
  | some a => simp only [h1, h2, h3, Option.getD_some, and_self]

/-! ### The solver as a Runge-Kutta method -/

/-- Specification: second derivative of the wake potential with respect to the distance behind
the head of the box, for laser amplitude `a` and beam density `n`. -/
noncomputable def accel (a n psi : ℝ) : ℝ := ((1 + a ^ 2) / (1 + psi) ^ 2 - 1) / 2 - n

/-- Specification: one classical Runge-Kutta step of length `h` for `y'' = g s y`, where `s` is
the fraction of the step. -/
noncomputable def rk4 (h : ℝ) (g : ℝ → ℝ → ℝ) (y v : ℝ) : ℝ × ℝ :=
  let k1 := (v, g 0 y)
  let k2 := (v + h / 2 * k1.2, g (1 / 2) (y + h / 2 * k1.1))
  let k3 := (v + h / 2 * k2.2, g (1 / 2) (y + h / 2 * k2.1))
  let k4 := (v + h * k3.2, g 1 (y + h * k3.1))
  (y + h / 6 * (k1.1 + 2 * k2.1 + 2 * k3.1 + k4.1),
    v + h / 6 * (k1.2 + 2 * k2.2 + 2 * k3.2 + k4.2))

/-- **C66** (the solver): at every radius the wake potential is obtained slice by slice, from
zero at the head, by the classical Runge-Kutta method with the laser interpolated linearly
between slices and the beam density of the slice ahead. -/
theorem fluid_rk4 (hz : 0 < m.dz) (hr : 0 < m.dr) (j : ℕ) (hj : j < m.nR) :
    m.u (m.nXi - 1) j = (0, 0) ∧ ∀ k, k + 1 < m.nXi →
      m.u k j = rk4 m.dz (fun s psi => accel (m.aEnv (k + 1) j + s * (m.aEnv k j - m.aEnv (k + 1) j))
        (if m.beamWakefields then m.beam (k + 1) j else 0) psi)
        (m.u (k + 1) j).1 (m.u (k + 1) j).2 := by
  refine ⟨?_, ?_⟩
  · unfold Cold.u; rw [Nat.sub_self]; rfl
  · intro k hk
    obtain ⟨h1, h2, h3⟩ := a0_values m hz hr k j hk hj
    have e : m.u k j = m.step (k + 1) j (m.u (k + 1) j) := by
      unfold Cold.u
      have : m.nXi - 1 - k = (m.nXi - 1 - (k + 1)) + 1 := by omega
      rw [this]
      show m.step (m.nXi - 1 - (m.nXi - 1 - (k + 1))) j _ = _
      congr 1; omega
    rw [e]
    generalize m.u (k + 1) j = u
    unfold Cold.step
    simp only [h1, h2, h3]
    have ho : ∀ (v : ℝ × ℝ) (a n : ℝ), m.ode v a n =
        (v.2, accel a (if m.beamWakefields then n else 0) v.1) := by
      intro v a n
      unfold Cold.ode accel
      by_cases hb : m.beamWakefields
      · simp only [hb, if_true]
        congr 1
        rw [sub_div, div_div, mul_comm ((1 + v.1) ^ 2) 2]; ring
      · simp only [hb, Bool.false_eq_true, if_false]
        congr 1
        rw [sub_div, div_div, mul_comm ((1 + v.1) ^ 2) 2]; ring
    simp only [ho]
    unfold rk4
    simp only []
    have s0 : m.aEnv (k + 1) j + 0 * (m.aEnv k j - m.aEnv (k + 1) j) = m.aEnv (k + 1) j := by ring
    have s1 : m.aEnv (k + 1) j + 1 / 2 * (m.aEnv k j - m.aEnv (k + 1) j) =
        (m.aEnv k j + m.aEnv (k + 1) j) / 2 := by ring
    have s2 : m.aEnv (k + 1) j + 1 * (m.aEnv k j - m.aEnv (k + 1) j) = m.aEnv k j := by ring
    rw [s0, s1, s2]
    have c : ∀ a b : ℝ, a + m.dz * b / 2 = a + m.dz / 2 * b := by intro a b; ring
    simp only [c]
    ext <;> simp only [] <;> ring

/-! ### C66: quiet plasma -/

/-- **C66.** Without laser and beam (or without laser, with any `beam_wakefields` option and no
charge) the potential and all stored fields vanish identically, and the plasma density and
susceptibility are one. -/
theorem quiet (hl : ∀ a, m.laser = some a → ∀ k j, a k j = 0) (hb : ∀ k j, m.beam k j = 0)
    (hz : 0 < m.dz) (hr : 0 < m.dr) (hn : 3 ≤ m.nR) (E0 c : ℝ) (k j : ℕ) (hj : j < m.nR) :
    m.u k j = (0, 0) ∧ m.fields E0 c k j = (0, 0, 0) ∧ m.rho k j = 1 ∧ m.chi k j = 1 := by
  have ha : ∀ k j, m.aEnv k j = 0 := by
    intro k j
    unfold Cold.aEnv
    cases h : m.laser with
    | none => rfl
    | some a => exact hl a h k j
  -- the gathering of zeros is zero everywhere
  have ha0 : ∀ j < m.nR, ∀ k, k + 1 < m.nXi → m.a0 j (m.zFld (k + 1)) = 0 ∧
      m.a0 j (m.zFld (k + 1) - m.dz / 2) = 0 ∧ m.a0 j (m.zFld (k + 1) - m.dz) = 0 := by
    intro j hj k hk
    obtain ⟨h1, h2, h3⟩ := a0_values m hz hr k j hk hj
    rw [h1, h2, h3, ha, ha]; norm_num
  have hstep : ∀ j < m.nR, ∀ k, k + 1 < m.nXi → m.step (k + 1) j (0, 0) = (0, 0) := by
    intro j hj k hk
    obtain ⟨h1, h2, h3⟩ := ha0 j hj k hk
    have hode : m.ode (0, 0) 0 0 = (0, 0) := by
      unfold Cold.ode; by_cases h : m.beamWakefields <;> simp [h]
    unfold Cold.step
    simp only [h1, h2, h3, hb, hode, mul_zero, zero_div, add_zero]
  have hub : ∀ j < m.nR, ∀ i, i < m.nXi → m.uBack j i = (0, 0) := by
    intro j hj i
    induction i with
    | zero => intro _; rfl
    | succ i ih =>
      intro hi
      show m.step (m.nXi - 1 - i) j (m.uBack j i) = _
      rw [ih (by omega), show m.nXi - 1 - i = (m.nXi - 2 - i) + 1 by omega]
      exact hstep j hj _ (by omega)
  have hu : ∀ k j, j < m.nR → m.u k j = (0, 0) := by
    intro k j hj
    unfold Cold.u
    by_cases h0 : m.nXi = 0
    · rw [show m.nXi - 1 - k = 0 by omega]; rfl
    · exact hub j hj _ (by omega)
  have hEz : ∀ k j, j < m.nR → m.Ez k j = 0 := by
    intro k j hj
    unfold Cold.Ez
    simp only [hu _ j hj, Base.gradient_const, neg_zero]
  have hWr : m.Wr k j = 0 := by
    unfold Cold.Wr
    have hg : Base.gradient m.nR m.dr (fun l => (m.u k l).1) j =
        Base.gradient m.nR m.dr (fun _ => (0 : ℝ)) j :=
      Base.gradient_congr _ _ _ _ hn (fun l hl => by rw [hu k l hl]) j hj
    rw [hg, Base.gradient_const, neg_zero]
  have hgam : ∀ j, j < m.nR → m.gamma k j = 1 := by
    intro j hj; unfold Cold.gamma; rw [hu k j hj, ha]; norm_num
  have hrho : ∀ j, j < m.nR → m.rho k j = 1 := by
    intro j hj; unfold Cold.rho; rw [hgam j hj, hu k j hj]; norm_num
  have huz : ∀ j, j < m.nR → m.uz k j = 0 := by
    intro j hj; unfold Cold.uz; rw [hu k j hj, ha]; norm_num
  have hint : ∀ j, j < m.nR → m.integrand k j = 0 := by
    intro j hj
    unfold Cold.integrand Cold.vz
    simp only [hEz _ j hj, Base.gradient_const, huz j hj, hb, zero_div, mul_zero, sub_self, add_zero,
      zero_mul]
  have hBt : m.Bt k j = 0 := by
    unfold Cold.Bt
    rw [Finset.sum_eq_zero (fun l hl => hint l (by rw [Finset.mem_range] at hl; omega)), hint j hj]
    simp
  refine ⟨hu k j hj, ?_, hrho j hj, ?_⟩
  · unfold Cold.fields Cold.Er
    rw [hEz k j hj, hWr, hBt]; simp
  · unfold Cold.chi; rw [hrho j hj, hgam j hj]; norm_num

/-! ### C66: causality -/

/-- **C66.** Causality: two drivers that agree from slice `k` forward (lasers at the slices
`k, k + 1, ...`, beams at the slices `k + 1, k + 2, ...`) give the same wake potential from
slice `k` forward, whatever they are behind. -/
theorem causal (m m' : Cold) (hn : m'.nXi = m.nXi) (hnr : m'.nR = m.nR) (hdz : m'.dz = m.dz)
    (hbw : m'.beamWakefields = m.beamWakefields) (hz : 0 < m.dz) (hr : 0 < m.dr)
    (hr' : 0 < m'.dr) (k j : ℕ) (hj : j < m.nR)
    (ha : ∀ l, k ≤ l → l < m.nXi → m'.aEnv l j = m.aEnv l j)
    (hb : ∀ l, k < l → l < m.nXi → m'.beam l j = m.beam l j) (l : ℕ) (hkl : k ≤ l)
    (hl : l < m.nXi) : m'.u l j = m.u l j := by
  obtain ⟨i0, is⟩ := fluid_rk4 m hz hr j hj
  obtain ⟨i0', is'⟩ := fluid_rk4 m' (hdz ▸ hz) hr' j (hnr ▸ hj)
  obtain ⟨d, hd⟩ : ∃ d, l + d + 1 = m.nXi := ⟨m.nXi - 1 - l, by omega⟩
  induction d generalizing l with
  | zero =>
    have e : l = m.nXi - 1 := by omega
    rw [e, i0, ← hn, i0']
  | succ d ih =>
    rw [is l (by omega), is' l (by omega), ih (l + 1) (by omega) (by omega) (by omega),
      ha l hkl hl, ha (l + 1) (by omega) (by omega), hb (l + 1) (by omega) (by omega), hdz, hbw]

/-- **C66.** The accelerating field, computed with central differences, is causal up to one
slice. -/
theorem causal_Ez (m m' : Cold) (hn : m'.nXi = m.nXi) (hnr : m'.nR = m.nR) (hdz : m'.dz = m.dz)
    (hbw : m'.beamWakefields = m.beamWakefields) (hz : 0 < m.dz) (hr : 0 < m.dr)
    (hr' : 0 < m'.dr) (k j : ℕ) (hj : j < m.nR)
    (ha : ∀ l, k ≤ l → l < m.nXi → m'.aEnv l j = m.aEnv l j)
    (hb : ∀ l, k < l → l < m.nXi → m'.beam l j = m.beam l j) (l : ℕ) (hkl : k < l)
    (hl : l < m.nXi) (hk3 : k + 3 ≤ m.nXi) : m'.Ez l j = m.Ez l j := by
  have h := causal m m' hn hnr hdz hbw hz hr hr' k j hj ha hb
  have h0 : ¬ l = 0 := by omega
  unfold Cold.Ez Base.gradient
  rw [hn, hdz, if_neg h0, if_neg h0]
  beta_reduce
  by_cases h1 : l + 1 = m.nXi
  · rw [if_pos h1, if_pos h1, h l hkl.le hl, h (l - 1) (by omega) (by omega),
      h (l - 2) (by omega) (by omega)]
  · rw [if_neg h1, if_neg h1, h (l + 1) (by omega) (by omega), h (l - 1) (by omega) (by omega)]

/-- The head of the box is always quiet: ahead of all drivers the potential is zero. -/
theorem quiet_ahead (hz : 0 < m.dz) (hr : 0 < m.dr) (k j : ℕ) (hj : j < m.nR)
    (ha : ∀ l, k ≤ l → l < m.nXi → m.aEnv l j = 0)
    (hb : ∀ l, k < l → l < m.nXi → m.beam l j = 0) (hn : 3 ≤ m.nR) (l : ℕ) (hkl : k ≤ l)
    (hl : l < m.nXi) : m.u l j = (0, 0) := by
  have h := causal { m with laser := none, beam := fun _ _ => 0 } m rfl rfl rfl rfl hz hr hr k j hj
    (fun l h1 h2 => ha l h1 h2) (fun l h1 h2 => hb l h1 h2) l hkl hl
  rw [h]
  exact (quiet { m with laser := none, beam := fun _ _ => 0 } (by intro a h; cases h)
    (fun _ _ => rfl) hz hr hn 1 1 l j hj).1

/-! ### C92: beams do not act on the plasma when beam wakefields are switched off -/

/-- **C92, partial.** With `beam_wakefields=False` the potential, `E_z`, the radial force on
relativistic particles `E_r - c B_t`, the plasma density and susceptibility do not depend on
the beam.  Missing: `E_r` and `B_t` separately do (`beam_off_violated`). -/
theorem beam_off_partial (h : m.beamWakefields = false) (beam : ℕ → ℕ → ℝ) (k j : ℕ) :
    let m' : Cold := { m with beam := beam }
    m'.u k j = m.u k j ∧ m'.Ez k j = m.Ez k j ∧
      m'.Er k j - m'.Bt k j = m.Er k j - m.Bt k j ∧ m'.rho k j = m.rho k j ∧
      m'.chi k j = m.chi k j := by
  intro m'
  have hstep : ∀ k j u, m'.step k j u = m.step k j u := by
    intro k j u
    have ho : ∀ v a n n', m'.ode v a n = m.ode v a n' := by
      intro v a n n'
      unfold Cold.ode
      simp only [m', h, Bool.false_eq_true, if_false]
    have hb : ∀ v a, m'.ode v a (m'.beam k j) = m.ode v a (m.beam k j) := fun v a => ho v a _ _
    unfold Cold.step
    simp only [hb]
    rfl
  have hub : ∀ j i, m'.uBack j i = m.uBack j i := by
    intro j i
    induction i with
    | zero => rfl
    | succ i ih => show m'.step _ j (m'.uBack j i) = m.step _ j (m.uBack j i); rw [ih, hstep]
  have hu : ∀ k j, m'.u k j = m.u k j := fun k j => hub j _
  have hEz : m'.Ez k j = m.Ez k j := by unfold Cold.Ez; simp only [hu]; rfl
  have hWr : m'.Wr k j = m.Wr k j := by unfold Cold.Wr; simp only [hu]; rfl
  have hg : m'.gamma k j = m.gamma k j := by unfold Cold.gamma; rw [hu]; rfl
  have hrho : m'.rho k j = m.rho k j := by unfold Cold.rho; rw [hu, hg]
  refine ⟨hu k j, hEz, ?_, hrho, ?_⟩
  · unfold Cold.Er; rw [hWr]; ring
  · unfold Cold.chi; rw [hrho, hg]

/-- The stored field values with and without a beam, with `beam_wakefields=False`. -/
theorem beam_off_difference (h : m.beamWakefields = false) (beam : ℕ → ℕ → ℝ) (k : ℕ) :
    let m' : Cold := { m with beam := beam }
    m'.Bt k 0 - m.Bt k 0 = (beam k 0 - m.beam k 0) * m.rFld 0 / 2 * m.dr / |m.rFld 0| := by
  intro m'
  have hall := fun k j => beam_off_partial m h beam k j
  have hu : ∀ k j, m'.u k j = m.u k j := fun k j => (hall k j).1
  have hEz : ∀ k j, m'.Ez k j = m.Ez k j := fun k j => (hall k j).2.1
  have hg : m'.gamma k 0 = m.gamma k 0 := by unfold Cold.gamma; rw [hu]; rfl
  have hv : m'.vz k 0 = m.vz k 0 := by unfold Cold.vz Cold.uz; rw [hu, hg]; rfl
  have hi : m'.integrand k 0 - m.integrand k 0 = (beam k 0 - m.beam k 0) * m.rFld 0 := by
    have hrho : m'.rho k 0 = m.rho k 0 := (hall k 0).2.2.2.1
    unfold Cold.integrand
    simp only [hEz, hv, hrho]
    show (Base.gradient m.nXi m.dz (fun l => m.Ez l 0) k - m.rho k 0 * m.vz k 0 + beam k 0) *
      m.rFld 0 - _ = _
    ring
  unfold Cold.Bt
  rw [zero_add, Finset.sum_range_one, Finset.sum_range_one]
  show (m'.integrand k 0 - m'.integrand k 0 / 2) * m.dr / |m.rFld 0| - _ = _
  rw [div_sub_div_same, ← hi]
  congr 1; ring

/-- **C92 violated**: a quiet plasma and a beam in one cell, with `beam_wakefields=False`: `B_t`
and `E_r` differ from those without beam. -/
theorem beam_off_violated : ∃ (m : Cold) (beam : ℕ → ℕ → ℝ), m.beamWakefields = false ∧ 0 < m.dz ∧
    0 < m.dr ∧ 3 ≤ m.nXi ∧ 3 ≤ m.nR ∧
    ({ m with beam := beam } : Cold).Bt 0 0 ≠ m.Bt 0 0 ∧
    ({ m with beam := beam } : Cold).Er 0 0 ≠ m.Er 0 0 := by
  let m : Cold := ⟨4, 4, 0, 1, 1, false, none, fun _ _ => 0⟩
  let beam : ℕ → ℕ → ℝ := fun k j => if k = 0 ∧ j = 0 then 1 else 0
  have hB : ({ m with beam := beam } : Cold).Bt 0 0 - m.Bt 0 0 ≠ 0 := by
    rw [beam_off_difference m rfl beam 0]
    have : m.rFld 0 = 1 / 2 := by norm_num [m, Cold.rFld]
    rw [this]
    norm_num [m, beam]
  refine ⟨m, beam, rfl, by norm_num [m], by norm_num [m], by norm_num [m], by norm_num [m],
    sub_ne_zero.mp hB, ?_⟩
  have h3 := (beam_off_partial m rfl beam 0 0).2.2.1
  intro he
  apply hB
  simp only [he] at h3
  linarith

/-! ### C93: fluid relations -/

/-- **C93.** The stored density and susceptibility, with the fluid momentum, satisfy the
quasistatic relations: continuity `n (1 - v_z) = 1`, `gamma - u_z = 1 + psi`, mass shell, and
`chi = n / gamma`; the fluid is slower than light. -/
theorem fluid_relations (k j : ℕ) (h : -1 < (m.u k j).1) :
    m.rho k j * (1 - m.vz k j) = 1 ∧ m.gamma k j - m.uz k j = 1 + (m.u k j).1 ∧
      m.gamma k j ^ 2 = 1 + m.aEnv k j ^ 2 + m.uz k j ^ 2 ∧
      m.chi k j * (1 + (m.u k j).1) = 1 ∧ 1 ≤ m.gamma k j ∧ |m.vz k j| < 1 := by
  have hp : 0 < 1 + (m.u k j).1 := by linarith
  have hg : 0 < m.gamma k j := by unfold Cold.gamma; positivity
  have e1 : m.gamma k j - m.uz k j = 1 + (m.u k j).1 := by
    unfold Cold.gamma Cold.uz; field_simp; ring
  have e2 : m.gamma k j ^ 2 = 1 + m.aEnv k j ^ 2 + m.uz k j ^ 2 := by
    unfold Cold.gamma Cold.uz; field_simp; ring
  refine ⟨?_, e1, e2, ?_, ?_, ?_⟩
  · unfold Cold.rho Cold.vz
    rw [← e1]
    have : m.gamma k j - m.uz k j ≠ 0 := by rw [e1]; exact hp.ne'
    field_simp
  · unfold Cold.chi Cold.rho; field_simp
  · nlinarith [sq_nonneg (m.aEnv k j), sq_nonneg (m.uz k j)]
  · unfold Cold.vz
    rw [abs_div, abs_of_pos hg, div_lt_one hg]
    apply abs_lt_of_sq_lt_sq _ hg.le
    nlinarith [sq_nonneg (m.aEnv k j)]

/-- A laser in the middle of the box: the hypotheses of the causality theorem are met ahead of
it, and the potential is not zero at the slice behind it. -/
example : let m : Cold := ⟨4, 4, 0, 1, 1, true, some fun k _ => if k = 1 then 1 else 0, fun _ _ => 0⟩
    (∀ l, 2 ≤ l → l < 4 → m.aEnv l 0 = 0) ∧ m.u 1 0 ≠ (0, 0) ∧ -1 < (m.u 2 0).1 := by
  intro m
  have hq := quiet_ahead m (by norm_num [m]) (by norm_num [m]) 2 0 (by norm_num [m])
    (by intro l h1 h2; show (if l = 1 then (1 : ℝ) else 0) = 0; rw [if_neg (by omega)])
    (fun _ _ _ => rfl) (by norm_num [m])
  have h2 := hq 2 le_rfl (by norm_num [m])
  refine ⟨?_, ?_, ?_⟩
  · intro l h1 h2; show (if l = 1 then (1 : ℝ) else 0) = 0; rw [if_neg (by omega)]
  · have h := (fluid_rk4 m (by norm_num [m]) (by norm_num [m]) 0 (by norm_num [m])).2 1
      (by norm_num [m])
    rw [h, h2]
    intro h0
    have h1 := congrArg Prod.fst h0
    simp only [rk4, accel, m, Cold.aEnv, Option.getD_some] at h1
    norm_num at h1
  · rw [h2]; norm_num

end WakeT.ColdFluid
