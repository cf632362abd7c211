import Verif.Base.Ieee
import Verif.Deposition.RoundingCoef
import Verif.Plasma.RoundingDeposit
import Verif.Push.RoundingProps
import Verif.Tracker.RoundingLoop

/-!
# Numbers of 64 bits

The theorems about rounding with the rounding of IEEE 754 to 53 digits (`Base.ieee 53`; casts to numbers of 32 bits: `Base.ieee 24`), with
numbers in place of the units of rounding.  Overflow and underflow are not modelled.
-/

open WakeT.Base

namespace WakeT.Double

/-- Rounding after an operation with numbers of 64 bits. -/
noncomputable abbrev f64 : ℝ → ℝ := ieee 53

/-- Cast to a number of 32 bits. -/
noncomputable abbrev f32 : ℝ → ℝ := ieee 24

private theorem f64_rounds : Rounds (1 / 2 ^ 53) f64 := ieee_rounds 53

/-! ### The rounding of rational numbers

`Tracker.Rounded.ieee`, with which `Tracker.Rounded.snapshots_violated` is computed, is this rounding. -/

private theorem pow2_cast (e : ℤ) : ((Tracker.Rounded.pow2 e : ℚ) : ℝ) = (2 : ℝ) ^ e := by
  unfold Tracker.Rounded.pow2
  split_ifs with h
  · push_cast
    rw [← zpow_natCast, Int.toNat_of_nonneg h]
  · push_cast
    rw [← zpow_natCast, Int.toNat_of_nonneg (by omega), zpow_neg, one_div, inv_inv]

private theorem exponent_log {q : ℚ} (h : 0 < q) : Int.log 2 (q : ℝ) = Tracker.Rounded.exponent q := by
  have q0 : (0 : ℝ) < q := by exact_mod_cast h
  have n0 : q.num.natAbs ≠ 0 := by simpa using h.ne'
  have e : (q : ℝ) = (q.num.natAbs : ℝ) / (q.den : ℝ) := by
    have : (q.num : ℝ) = (q.num.natAbs : ℝ) := by
      rw [← Int.cast_natCast (R := ℝ), Int.natAbs_of_nonneg (Rat.num_pos.mpr h).le]
    rw [← this]
    exact Rat.cast_def q
  have d0 : (0 : ℝ) < q.den := by exact_mod_cast q.den_pos
  have a1 : ((2 : ℝ)) ^ (Nat.log2 q.num.natAbs : ℤ) ≤ (q.num.natAbs : ℝ) := by
    rw [zpow_natCast]
    exact_mod_cast Nat.log2_self_le n0
  have a2 : (q.num.natAbs : ℝ) < (2 : ℝ) ^ ((Nat.log2 q.num.natAbs : ℤ) + 1) := by
    have := Nat.lt_log2_self (n := q.num.natAbs)
    have : (q.num.natAbs : ℝ) < 2 ^ (Nat.log2 q.num.natAbs + 1) := by exact_mod_cast this
    exact_mod_cast this
  have b1 : ((2 : ℝ)) ^ (Nat.log2 q.den : ℤ) ≤ (q.den : ℝ) := by
    rw [zpow_natCast]
    exact_mod_cast Nat.log2_self_le q.den_ne_zero
  have b2 : (q.den : ℝ) < (2 : ℝ) ^ ((Nat.log2 q.den : ℤ) + 1) := by
    have := Nat.lt_log2_self (n := q.den)
    have : (q.den : ℝ) < 2 ^ (Nat.log2 q.den + 1) := by exact_mod_cast this
    exact_mod_cast this
  obtain ⟨a, ha⟩ : ∃ a : ℤ, a = Nat.log2 q.num.natAbs := ⟨_, rfl⟩
  obtain ⟨b, hb⟩ : ∃ b : ℤ, b = Nat.log2 q.den := ⟨_, rfl⟩
  rw [← ha] at a1 a2
  rw [← hb] at b1 b2
  have two : ∀ e : ℤ, (0 : ℝ) < (2 : ℝ) ^ e := fun e => zpow_pos (by norm_num) e
  have hi : (q : ℝ) < (2 : ℝ) ^ (a - b + 1) := by
    rw [e, div_lt_iff₀ d0]
    refine a2.trans_le (le_trans (le_of_eq ?_) (mul_le_mul_of_nonneg_left b1 (two _).le))
    rw [← zpow_add₀ (by norm_num)]
    congr 1
    ring
  have lo : (2 : ℝ) ^ (a - b - 1) ≤ (q : ℝ) := by
    rw [e, le_div_iff₀ d0]
    refine (mul_le_mul_of_nonneg_left b2.le (two _).le).trans (le_trans (le_of_eq ?_) a1)
    rw [← zpow_add₀ (by norm_num)]
    congr 1
    ring
  have key : ∀ x : ℤ, (2 : ℝ) ^ x ≤ (q : ℝ) → (q : ℝ) < (2 : ℝ) ^ (x + 1) → Int.log 2 (q : ℝ) = x := by
    intro x h1 h2
    have h1 := (Int.zpow_le_iff_le_log (b := 2) (by norm_num) q0).mp (by exact_mod_cast h1)
    have h2 := (Int.lt_zpow_iff_log_lt (b := 2) (by norm_num) q0).mp (by exact_mod_cast h2)
    omega
  unfold Tracker.Rounded.exponent
  simp only [← ha, ← hb]
  have c : q < Tracker.Rounded.pow2 (a - b) ↔ (q : ℝ) < (2 : ℝ) ^ (a - b) := by
    rw [← pow2_cast]
    exact_mod_cast Iff.rfl
  split_ifs with hc
  · exact key _ lo (by rw [sub_add_cancel]; exact c.mp hc)
  · exact key _ (not_lt.mp fun hh => hc (c.mpr hh)) hi

private theorem nearest_cast (q : ℚ) : Tracker.Rounded.nearestEven q = nearestEven (q : ℝ) := by
  have f : ⌊(q : ℝ)⌋ = ⌊q⌋ := Rat.floor_cast q
  have c1 : q - ⌊q⌋ < 1 / 2 ↔ (q : ℝ) - (⌊q⌋ : ℝ) < 1 / 2 := by
    rw [← Rat.cast_lt (K := ℝ)]
    push_cast
    rfl
  have c2 : 1 / 2 < q - ⌊q⌋ ↔ 1 / 2 < (q : ℝ) - (⌊q⌋ : ℝ) := by
    rw [← Rat.cast_lt (K := ℝ)]
    push_cast
    rfl
  unfold Tracker.Rounded.nearestEven nearestEven
  simp only [f, c1, c2]

/-- The two roundings agree. -/
theorem rational_ieee (p : ℕ) {q : ℚ} (h : 0 ≤ q) : ((Tracker.Rounded.ieee p q : ℚ) : ℝ) = ieee p (q : ℝ) := by
  rcases h.lt_or_eq with h | rfl
  · have q0 : (0 : ℝ) < q := by exact_mod_cast h
    unfold Tracker.Rounded.ieee ieee mag ulp
    rw [if_neg (not_le.mpr h), if_neg (not_lt.mpr q0.le), exponent_log h]
    simp only
    rw [Rat.cast_mul, Rat.cast_intCast, pow2_cast, nearest_cast, Rat.cast_div, pow2_cast]
  · have := (ieee_rounds p).zero
    rw [Rat.cast_zero, this]
    simp [Tracker.Rounded.ieee]

/-! ### Bounds -/

/-- A bunch of up to a million particles: the charge on the grid is that of the particles inside up to 2·10⁻⁹ of the sum of the moduli. -/
theorem bunch_charge {pi : ℝ} (hpi : 0 < pi) (sh : Deposition.Shape) (ruyten : Bool) {g : Deposition.Grid ℝ} (nz : 1 ≤ g.nz) (dz : 0 < g.dz)
    (dr : 0 < g.dr) (rMin : g.rMin = g.dr / 2) (far : |g.zMin| + g.nz * g.dz ≤ 10 ^ 14 * g.dz) (nr : g.nr ≤ 10 ^ 5)
    (ps : List Deposition.Rounded.Part) (hN : ps.length ≤ 10 ^ 6) :
    |(∑ c ∈ Deposition.Rounded.cells g, Deposition.Rounded.deposit f64 sh (Deposition.Rounded.roundedCoef f64 pi sh ruyten g) g ps (fun _ _ => 0) c.1 c.2) -
      Deposition.Rounded.charge f64 g ps| ≤ 2 / 10 ^ 9 * (ps.map fun p => |p.w|).sum := by
  have N : (ps.length : ℝ) ≤ 10 ^ 6 := by exact_mod_cast hN
  have R : (g.nr : ℝ) ≤ 10 ^ 5 := by exact_mod_cast nr
  have R0 : (0 : ℝ) ≤ g.nr := Nat.cast_nonneg _
  have R2 : (g.nr : ℝ) ^ 2 ≤ (10 ^ 5) ^ 2 := pow_le_pow_left₀ R0 R 2
  have hg : Deposition.Rounded.Resolved (1 / 2 ^ 53) g := by
    refine ⟨nz, dz, dr, rMin, ?_, ?_⟩
    · linarith
    · linarith
  have := Deposition.Rounded.rounded_charge_error_coef f64_rounds (by positivity) (by norm_num) hpi sh ruyten hg (by linarith) ps (by linarith)
  refine this.trans (mul_le_mul_of_nonneg_right ?_ (List.sum_nonneg (by simp)))
  linarith

/-- A grid of 1000 × 200 cells. -/
example (sh : Deposition.Shape) (ruyten : Bool) (ps : List Deposition.Rounded.Part) (hN : ps.length = 10 ^ 6) :
    let g : Deposition.Grid ℝ := ⟨-100, 1 / 20, 1000, 200, 1 / 10, 1 / 10⟩
    |(∑ c ∈ Deposition.Rounded.cells g, Deposition.Rounded.deposit f64 sh (Deposition.Rounded.roundedCoef f64 (22 / 7) sh ruyten g) g ps (fun _ _ => 0) c.1 c.2) -
      Deposition.Rounded.charge f64 g ps| ≤ 2 / 10 ^ 9 * (ps.map fun p => |p.w|).sum := by
  intro g
  exact bunch_charge (by norm_num) sh ruyten (by norm_num [g]) (by norm_num [g]) (by norm_num [g]) (by norm_num [g]) (by norm_num [g]) (by norm_num [g])
    ps hN.le

/-- Plasma of up to a million particles: their weight on the grid, up to 2·10⁻⁹. -/
theorem plasma_weight (sh : Deposition.Shape) {g : Deposition.Grid ℝ} (dr : 0 < g.dr) (rMin : g.rMin = g.dr / 2) (nr : g.nr ≤ 10 ^ 14)
    (cols : List (ℕ × List (Plasma.PRing ℝ))) (hc : ∀ c ∈ cols, c.1 < g.nz ∧ ∀ p ∈ c.2, 0 ≤ p.r) (hN : Plasma.Rounded.count cols ≤ 10 ^ 6) :
    |(∑ c ∈ Deposition.Rounded.cells g, Plasma.Rounded.depositSlices f64 sh g cols (fun _ _ => 0) c.1 c.2) - Plasma.Rounded.weight f64 g cols| ≤
      2 / 10 ^ 9 * Plasma.Rounded.mass cols := by
  have N : (Plasma.Rounded.count cols : ℝ) ≤ 10 ^ 6 := by exact_mod_cast hN
  have R : (g.nr : ℝ) ≤ 10 ^ 14 := by exact_mod_cast nr
  have hg : Plasma.Rounded.Resolved (1 / 2 ^ 53) g := ⟨dr, rMin, by linarith⟩
  have := Plasma.Rounded.rounded_weight_error f64_rounds (by positivity) (by norm_num) sh hg cols hc (by linarith)
  refine this.trans (mul_le_mul_of_nonneg_right ?_ ?_)
  · linarith
  · unfold Plasma.Rounded.mass
    refine List.sum_nonneg ?_
    simp only [List.mem_map, forall_exists_index, and_imp]
    rintro x c - rfl
    exact List.sum_nonneg (by simp)

/-- A million steps through magnetic fields change the energy of a particle by less than 2·10⁻⁷. -/
theorem magnetic_energy (c qmc : ℝ) (L : List (ℝ × (ℝ → ℝ → ℝ → Fields.EB ℝ))) (hL : ∀ s ∈ L, Push.Rounded.Magnetic s.2) (hn : L.length ≤ 10 ^ 6)
    (p : Push.Ph) :
    |√(1 + Push.Rounded.psq (Push.Rounded.steps f64 c qmc L p)) - √(1 + Push.Rounded.psq p)| ≤ 2 / 10 ^ 7 * √(1 + Push.Rounded.psq p) := by
  have N : (L.length : ℝ) ≤ 10 ^ 6 := by exact_mod_cast hn
  have := Push.Rounded.magnetic_energy_rounded f64_rounds (by positivity) (by norm_num) c qmc L hL (by linarith) p
  refine this.trans (mul_le_mul_of_nonneg_right ?_ (Real.sqrt_nonneg _))
  linarith

/-- The grid of the previous example, and any plasma with a million particles. -/
example (sh : Deposition.Shape) (cols : List (ℕ × List (Plasma.PRing ℝ))) (hc : ∀ c ∈ cols, c.1 < 1000 ∧ ∀ p ∈ c.2, 0 ≤ p.r)
    (hN : Plasma.Rounded.count cols = 10 ^ 6) :
    let g : Deposition.Grid ℝ := ⟨-100, 1 / 20, 1000, 200, 1 / 10, 1 / 10⟩
    |(∑ c ∈ Deposition.Rounded.cells g, Plasma.Rounded.depositSlices f64 sh g cols (fun _ _ => 0) c.1 c.2) - Plasma.Rounded.weight f64 g cols| ≤
      2 / 10 ^ 9 * Plasma.Rounded.mass cols := by
  intro g
  exact plasma_weight sh (by norm_num [g]) (by norm_num [g]) (by norm_num [g]) cols hc hN.le

/-- A million steps in a dipole. -/
example (c qmc dt B : ℝ) (p : Push.Ph) : let L := List.replicate (10 ^ 6) (dt, fun _ _ _ => (⟨0, 0, 0, 0, B, 0⟩ : Fields.EB ℝ))
    |√(1 + Push.Rounded.psq (Push.Rounded.steps f64 c qmc L p)) - √(1 + Push.Rounded.psq p)| ≤ 2 / 10 ^ 7 * √(1 + Push.Rounded.psq p) := by
  intro L
  refine magnetic_energy c qmc L (fun s hs => ?_) List.length_replicate.le p
  rw [List.eq_of_mem_replicate hs]
  exact fun _ _ _ => ⟨rfl, rfl, rfl⟩

/-- Up to a hundred thousand outputs: at most the last one is missing, and the times are equidistant up to 3·10⁻¹¹ of the duration of the
stage. -/
theorem snapshots {σ : Type*} {c : Tracker.Cfg ℝ ℝ σ} (hT : 0 < c.tFinal) (hf : c.f32 = f32) (hn : c.nDiag ≤ 10 ^ 5) {w : σ} {fuel : ℕ}
    {s : Tracker.St ℝ σ} (h : Tracker.Rounded.doTracking f64 c fuel w = .returned s) :
    (s.snaps.length = c.nDiag + 1 ∨ s.snaps.length = c.nDiag) ∧ (Tracker.diagTimes s.log).length = s.snaps.length ∧
    ∀ (k : ℕ) (t : ℝ), (Tracker.diagTimes s.log)[k]? = some t → |t - k * (c.tFinal / c.nDiag)| ≤ 3 / 10 ^ 11 * c.tFinal := by
  have N : (c.nDiag : ℝ) ≤ 10 ^ 5 := by exact_mod_cast hn
  have N0 : (0 : ℝ) ≤ c.nDiag := Nat.cast_nonneg _
  have N2 : (c.nDiag : ℝ) ^ 2 ≤ (10 ^ 5) ^ 2 := pow_le_pow_left₀ N0 N 2
  obtain ⟨a, b, d⟩ := Tracker.Rounded.snapshot_count_partial f64_rounds (by positivity) hT (by rw [hf]; exact ieee_mono (by norm_num))
    (η := 1 / 2 ^ 24) (by rw [hf]; exact ieee_rounds 24) (by positivity) (by linarith) h
  refine ⟨?_, b, ?_⟩
  · split_ifs at a
    · exact Or.inl a
    · exact Or.inr a
  · intro k t ht
    refine (d k t ht).trans (mul_le_mul_of_nonneg_right ?_ hT.le)
    linarith

private theorem exact_one (p : ℕ) (hp : 1 ≤ p) : ieee p 1 = 1 := by
  have := ieee_exact (p := p) (m := 1) (by rw [abs_one]; exact one_lt_pow₀ (by norm_num) (by omega)) 0
  simpa using this

private theorem exact_two (p : ℕ) (hp : 1 ≤ p) : ieee p 2 = 2 := by
  have := ieee_exact (p := p) (m := 1) (by rw [abs_one]; exact one_lt_pow₀ (by norm_num) (by omega)) 1
  simpa using this

/-- A stage without bunches with one output, at the end. -/
noncomputable def plain : Tracker.Cfg ℝ ℝ ℕ where
  tFinal := 1
  nBunch := 0
  nField := 0
  nDiag := 1
  dtBunch := fun _ => none
  dtField := fun _ => 1
  autoDt := fun _ _ => 1
  pushBeforeDiags := true
  opmd := false
  f32 := f32
  evolve := fun w _ _ _ => w + 1
  updateF := fun w _ => w

example : plain.f32 = f32 ∧ 0 < plain.tFinal ∧ plain.nDiag ≤ 10 ^ 5 ∧
    ∃ s, Tracker.Rounded.doTracking f64 plain 3 0 = .returned s ∧ s.snaps.length = 2 := by
  have a : f64 1 = 1 := exact_one 53 (by norm_num)
  have b : f64 2 = 2 := exact_two 53 (by norm_num)
  have c : f32 1 = 1 := exact_one 24 (by norm_num)
  have d : f32 2 = 2 := exact_two 24 (by norm_num)
  refine ⟨rfl, one_pos, by norm_num [plain], ?_⟩
  have e1 : f64 (1 / ((1 : ℕ) : ℝ)) = 1 := by rw [Nat.cast_one, div_one, a]
  have s1 : Tracker.Rounded.step f64 plain (Tracker.Rounded.start f64 plain 0) =
      some (Tracker.Rounded.advance f64 plain (Tracker.Rounded.start f64 plain 0) 0) := by
    show (if f32 (f64 (0 + f64 (1 / ((1 : ℕ) : ℝ)))) > f32 1 then none else _) = _
    rw [e1, zero_add, a, if_neg (lt_irrefl _)]
    rfl
  have s2 : Tracker.Rounded.step f64 plain (Tracker.Rounded.advance f64 plain (Tracker.Rounded.start f64 plain 0) 0) = none := by
    show (if f32 (f64 (f64 (0 + f64 (1 / ((1 : ℕ) : ℝ))) + f64 (1 / ((1 : ℕ) : ℝ)))) > f32 1 then none else _) = _
    rw [e1, zero_add, a, show (1 : ℝ) + 1 = 2 by norm_num, b, c, d, if_pos (by norm_num)]
  refine ⟨Tracker.Rounded.advance f64 plain (Tracker.Rounded.start f64 plain 0) 0, ?_, rfl⟩
  unfold Tracker.Rounded.doTracking
  rw [if_neg (by norm_num [plain]), if_neg (by norm_num [plain, Tracker.Cfg.nObj])]
  simp only [Tracker.Rounded.run, s1, s2]
  rw [if_neg (by norm_num [plain])]

end WakeT.Double
