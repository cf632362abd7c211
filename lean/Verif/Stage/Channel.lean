import Verif.Stage.Args
import Verif.Stage.Wake
import Verif.Plasma.PsiProps
import Mathlib.Analysis.SpecialFunctions.Integrals.Basic

/-! # Plasma channels (C174)

The argument `parabolic_coefficient` of the quasistatic model: which values it takes, and which plasma the solver starts from. -/

set_option linter.unusedSectionVars false

namespace WakeT.Stage

open Plasma (Column)
open MeasureTheory

/-! ### Model -/

/-- `_get_parabolic_coefficient_fn` (wakefield.py 189-200).  The kinds of arguments are those of the density; an integer is not an instance of `float`. -/
def getParabolic : DensityArg → Except ArgErr PyFun
  | .float n => .ok (.vec fun _ => n)
  | .fn f => .ok f
  | _ => .error .valueError

/-! ### Specification -/

/-- Electrons per unit length between the radii `a` and `b` in a channel with density `np` on the axis and density `np (1 + pc r²)` at the radius `r`. -/
noncomputable def channelCharge (np pc a b : ℝ) : ℝ := ∫ r in a..b, 2 * Real.pi * r * (np * (1 + pc * r ^ 2))

/-- Electrons per unit length for which the macroparticle `i` of the solver stands: its weight is in units of `2 π np s²` with the skin depth `s`. -/
noncomputable def electrons (np s : ℝ) (c : Plasma.QS) (i : ℕ) : ℝ := 2 * Real.pi * np * s ^ 2 * c.q i

/-! ### Theorems -/

theorem channelCharge_eq (np pc a b : ℝ) :
    channelCharge np pc a b = Real.pi * np * (b ^ 2 - a ^ 2) + Real.pi * np * pc / 2 * (b ^ 4 - a ^ 4) := by
  unfold channelCharge
  have h : ∀ r : ℝ, 2 * Real.pi * r * (np * (1 + pc * r ^ 2)) = 2 * Real.pi * np * r ^ 1 + 2 * Real.pi * np * pc * r ^ 3 := fun r => by ring
  simp_rw [h]
  rw [intervalIntegral.integral_add (by apply Continuous.intervalIntegrable; fun_prop) (by apply Continuous.intervalIntegrable; fun_prop),
    intervalIntegral.integral_const_mul, intervalIntegral.integral_const_mul, integral_pow, integral_pow]
  push_cast
  ring

/-- Positions and weights of the particles of the solver in a stage. -/
theorem channel_particle (w : Wake) (q : QArgs) {s : ℝ} (hs : s ≠ 0) (pc : ℝ) {i : ℕ} (hi : i < (w.quasi q s pc).n) :
    s * (w.quasi q s pc).r0 i = ((i : ℝ) + 1 / 2) * (w.rMax / w.nR / q.ppc) ∧
    s ^ 2 * (w.quasi q s pc).q i = (w.rMax / w.nR / q.ppc) * (((i : ℝ) + 1 / 2) * (w.rMax / w.nR / q.ppc)) *
      (1 + pc * (((i : ℝ) + 1 / 2) * (w.rMax / w.nR / q.ppc)) ^ 2) := by
  set col := Column.init ((q.rMaxPlasma.map (· / s)).getD (w.rMax / s)) (pc * s ^ 2) (w.rMax / s / w.nR) q.ppc with hcol
  have hi' : (i : ℤ) < col.nPart := by
    have : i < col.nPart.toNat := hi
    omega
  have hr : col.r i = ((i : ℝ) + 1 / 2) * (w.rMax / s / w.nR / q.ppc) := Plasma.column_r _ _ _ _ _ hi'
  have hr' : s * col.r i = ((i : ℝ) + 1 / 2) * (w.rMax / w.nR / q.ppc) := by
    rw [hr]; field_simp
  refine ⟨hr', ?_⟩
  show s ^ 2 * (col.drP * col.r i + col.drP * col.pc * col.r i ^ 3) = _
  rw [← hr']
  have hd : s * col.drP = w.rMax / w.nR / q.ppc := by
    show s * (w.rMax / s / w.nR / q.ppc) = _
    field_simp
  rw [← hd]
  show s ^ 2 * (col.drP * col.r i + col.drP * (pc * s ^ 2) * col.r i ^ 3) = _
  ring

/-- **C174.** The plasma from which the solver starts is the channel `np (1 + pc r²)` in SI units, whatever the skin depth: the macroparticles lie in the middle of rings of the
width `rMax / nR / ppc` that fill the column to its radius (up to half a ring), and each stands for the electrons of its ring up to a relative error of second order in the width. -/
theorem channel_rings (w : Wake) (q : QArgs) {s : ℝ} (hs : 0 < s) (np pc : ℝ) (hw : 0 < w.rMax) (hR : 0 < w.nR) (hp : 0 < q.ppc)
    (hq : ∀ R, q.rMaxPlasma = some R → 0 ≤ R) :
    let c := w.quasi q s pc
    let h := w.rMax / w.nR / q.ppc
    |(c.n : ℝ) * h - q.rMaxPlasma.getD w.rMax| ≤ h / 2 ∧
    ∀ i < c.n, s * c.r0 i = ((i : ℝ) + 1 / 2) * h ∧
      electrons np s c i = channelCharge np pc (i * h) ((i + 1) * h) - Real.pi / 2 * np * pc * h ^ 3 * (s * c.r0 i) := by
  intro c h
  have hh : 0 < h := by positivity
  constructor
  · set R := q.rMaxPlasma.getD w.rMax with hRdef
    have hR0 : 0 ≤ R := by
      rw [hRdef]
      cases hq' : q.rMaxPlasma with
      | none => exact hw.le
      | some r => exact hq r hq'
    have hget : (q.rMaxPlasma.map (· / s)).getD (w.rMax / s) = R / s := by
      rw [hRdef]
      cases q.rMaxPlasma <;> rfl
    have hc := Plasma.column_count ((q.rMaxPlasma.map (· / s)).getD (w.rMax / s)) (pc * s ^ 2) (w.rMax / s / w.nR) q.ppc
    set m := (Column.init ((q.rMaxPlasma.map (· / s)).getD (w.rMax / s)) (pc * s ^ 2) (w.rMax / s / w.nR) q.ppc).nPart with hm
    have hx : R / s / (w.rMax / s / w.nR) * q.ppc = R / h := by
      show _ = R / (w.rMax / w.nR / q.ppc)
      have : (q.ppc : ℝ) ≠ 0 := by positivity
      have : (w.nR : ℝ) ≠ 0 := by positivity
      field_simp
    rw [hget, hx] at hc
    have hm0 : 0 ≤ m := by
      have h1 : 0 ≤ R / h := by positivity
      have h2 := (abs_le.mp hc).1
      have h3 : (-1 : ℝ) < m := by linarith
      have h4 : (-1 : ℤ) < m := by exact_mod_cast h3
      omega
    have hcn : (c.n : ℝ) = m := by
      have : ((c.n : ℕ) : ℤ) = m := by
        show ((m.toNat : ℕ) : ℤ) = m
        exact Int.toNat_of_nonneg hm0
      exact_mod_cast this
    rw [hcn]
    have e : (m : ℝ) * h - R = ((m : ℝ) - R / h) * h := by
      field_simp
    rw [e, abs_mul, abs_of_pos hh]
    calc |(m : ℝ) - R / h| * h ≤ 1 / 2 * h := mul_le_mul_of_nonneg_right hc hh.le
      _ = h / 2 := by ring
  · intro i hi
    obtain ⟨h1, h2⟩ := channel_particle w q hs.ne' pc hi
    refine ⟨h1, ?_⟩
    have h2' : electrons np s c i = 2 * Real.pi * np * (s ^ 2 * c.q i) := by unfold electrons; ring
    rw [h2', h1, h2, channelCharge_eq]
    ring

/-- **C174.** The electrons within any ring boundary of the column are those of the channel within this radius `R`, up to `π np pc R² h² / 4`; without a coefficient exactly. -/
theorem channel_enclosed (w : Wake) (q : QArgs) {s : ℝ} (hs : s ≠ 0) (np pc : ℝ) {m : ℕ} (hm : m ≤ (w.quasi q s pc).n) :
    let h := w.rMax / w.nR / q.ppc
    ∑ i ∈ Finset.range m, electrons np s (w.quasi q s pc) i =
      channelCharge np pc 0 (m * h) - Real.pi / 4 * np * pc * (m * h) ^ 2 * h ^ 2 := by
  intro h
  have h1 : ∀ i ∈ Finset.range m, electrons np s (w.quasi q s pc) i =
      2 * Real.pi * np * h ^ 2 * ((i : ℝ) + 1 / 2) + 2 * Real.pi * np * pc * h ^ 4 * ((i : ℝ) + 1 / 2) ^ 3 := by
    intro i hi
    have h2 := (channel_particle w q hs pc (lt_of_lt_of_le (Finset.mem_range.mp hi) hm)).2
    have h2' : electrons np s (w.quasi q s pc) i = 2 * Real.pi * np * (s ^ 2 * (w.quasi q s pc).q i) := by unfold electrons; ring
    rw [h2', h2]
    ring
  rw [Finset.sum_congr rfl h1, Finset.sum_add_distrib, ← Finset.mul_sum, ← Finset.mul_sum, Plasma.sum_half, Plasma.sum_half3, channelCharge_eq]
  ring

/-- **C174.** The coefficient is a floating point number, which then holds at every position, or a function of the position; anything else is rejected. -/
theorem channel_argument (a : DensityArg) :
    (∀ f, getParabolic a = .ok f ↔ (∃ n, a = .float n ∧ f = .vec fun _ => n) ∨ a = .fn f) ∧
    ((∀ f, getParabolic a ≠ .ok f) → getParabolic a = .error .valueError) ∧
    ∀ n z, ∃ f, getParabolic (.float n) = .ok f ∧ f.scalar z = .ok n := by
  refine ⟨fun f => ?_, fun h => ?_, fun n z => ⟨_, rfl, rfl⟩⟩
  · cases a <;> simp [getParabolic, eq_comm]
  · cases a with
    | float n => exact absurd rfl (h _)
    | fn f => exact absurd rfl (h f)
    | none => rfl
    | int n => rfl
    | other => rfl

/-- A channel on a grid of radius 4 with four cells and two particles in each, for a skin depth of 2: eight rings, with the charge of the channel. -/
example : |((demoWake true).quasi ⟨2, none, fun _ => 0, "linear", 10, "ab5", fun _ i => i⟩ 2 (1 / 4)).n * ((demoWake true).rMax / (demoWake true).nR / (2 : ℕ)) -
    (demoWake true).rMax| ≤ (demoWake true).rMax / (demoWake true).nR / (2 : ℕ) / 2 :=
  (channel_rings (demoWake true) ⟨2, none, fun _ => 0, "linear", 10, "ab5", fun _ i => i⟩ (s := 2) (by norm_num) 1 (1 / 4) (by norm_num [demoWake])
    (by norm_num [demoWake]) (by norm_num) (by simp)).1

example : channelCharge 1 (1 / 4) 0 2 = 6 * Real.pi := by
  rw [channelCharge_eq]; ring

end WakeT.Stage
