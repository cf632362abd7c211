import Verif.Plasma.SolverProps
import Verif.Plasma.PushProps
import Verif.Deposition.Positive

/-!
# Property C190: density and susceptibility of the plasma

Whatever the laser and the bunches do to the plasma, in the arrays computed by the quasistatic
solver the number density of the plasma electrons and the susceptibility (which the laser solver
reads) have no negative cell, and the susceptibility exceeds the density nowhere.
-/

set_option linter.unusedSectionVars false

namespace WakeT.Plasma

open WakeT.Interp WakeT.Base WakeT.Util WakeT.Deposition

/-! ### Deposition of rings -/

private theorem effect_add (sh : Shape) (g : Grid ℝ) (z r w w' : ℝ) (i j : ℤ) :
    effect (writes sh false g ⟨z, r, w + w'⟩) i j =
      effect (writes sh false g ⟨z, r, w⟩) i j + effect (writes sh false g ⟨z, r, w'⟩) i j := by
  have h := congrFun (congrFun (deposit_weight_add g sh false z r w w' fun _ _ => 0) i) j
  rw [depositShape_apply, depositShape_apply] at h
  simpa using h

private theorem effect_nonneg' (sh : Shape) (g : Grid ℝ) (hd : 0 < g.dr) (p : Deposition.Part ℝ)
    (hw : 0 ≤ p.w) (i j : ℤ) : 0 ≤ effect (writes sh false g p) i j := by
  unfold effect
  apply List.sum_nonneg
  intro x hx
  obtain ⟨wr, hwr, rfl⟩ := List.mem_map.mp hx
  obtain ⟨q, hq, e⟩ := writes_sign g hd sh false p wr hwr
  split_ifs
  · rw [e]; exact mul_nonneg hq hw
  · exact le_rfl

theorem plasma_deposit_le (pShape : String) (k nz nr n : ℕ) (dr : ℝ) (hdr : 0 < dr) (hk : k < nz)
    (r w w' : ℕ → ℝ) (h0 : ∀ i < n, 0 ≤ w i) (h1 : ∀ i < n, w i ≤ w' i) (a a' : ℤ → ℤ → ℝ)
    (ha : ∀ i j, 0 ≤ a i j ∧ a i j ≤ a' i j) (i j : ℤ) :
    0 ≤ depositPlasma pShape (k : ℝ) (dr / 2) nz nr dr
        ((List.range n).map fun i => ⟨r i, w i⟩) a i j ∧
      depositPlasma pShape (k : ℝ) (dr / 2) nz nr dr
        ((List.range n).map fun i => ⟨r i, w i⟩) a i j ≤
      depositPlasma pShape (k : ℝ) (dr / 2) nz nr dr
        ((List.range n).map fun i => ⟨r i, w' i⟩) a' i j := by
  cases hs : parseShape pShape with
  | none =>
    have hl : ¬ pShape = "linear" := fun e => by simp [parseShape, e] at hs
    have hc : ¬ pShape = "cubic" := fun e => by simp [parseShape, e] at hs
    simp only [depositPlasma, if_neg hl, if_neg hc]
    exact ha i j
  | some sh =>
    rw [depositPlasma_eq pShape sh hs k _ nz nr dr _ hk, depositPlasma_eq pShape sh hs k _ nz nr dr _ hk,
      depositShape_apply, depositShape_apply, List.map_map, List.map_map, List.map_map, List.map_map]
    obtain ⟨p0, p1⟩ := ha i j
    have s0 : 0 ≤ ((List.range n).map ((fun p => effect (writes sh false ⟨0, dr / 2, nz, nr, 1, dr⟩ p) i j) ∘
        (fun p : PRing ℝ => (⟨(k : ℝ), p.r, p.w⟩ : Deposition.Part ℝ)) ∘ fun i => ⟨r i, w i⟩)).sum := by
      apply List.sum_nonneg
      intro x hx
      obtain ⟨m, hm, rfl⟩ := List.mem_map.mp hx
      exact effect_nonneg' sh _ hdr _ (h0 m (List.mem_range.mp hm)) i j
    have s1 : ((List.range n).map ((fun p => effect (writes sh false ⟨0, dr / 2, nz, nr, 1, dr⟩ p) i j) ∘
        (fun p : PRing ℝ => (⟨(k : ℝ), p.r, p.w⟩ : Deposition.Part ℝ)) ∘ fun i => ⟨r i, w i⟩)).sum ≤
        ((List.range n).map ((fun p => effect (writes sh false ⟨0, dr / 2, nz, nr, 1, dr⟩ p) i j) ∘
        (fun p : PRing ℝ => (⟨(k : ℝ), p.r, p.w⟩ : Deposition.Part ℝ)) ∘ fun i => ⟨r i, w' i⟩)).sum := by
      apply List.sum_le_sum
      intro m hm
      have e := effect_add sh (⟨0, dr / 2, nz, nr, 1, dr⟩ : Grid ℝ) (k : ℝ) (r m) (w m) (w' m - w m) i j
      have := effect_nonneg' sh (⟨0, dr / 2, nz, nr, 1, dr⟩ : Grid ℝ) hdr ⟨(k : ℝ), r m, w' m - w m⟩
        (sub_nonneg.mpr (h1 m (List.mem_range.mp hm))) i j
      rw [add_sub_cancel] at e
      show effect (writes sh false _ ⟨(k : ℝ), r m, w m⟩) i j ≤ effect (writes sh false _ ⟨(k : ℝ), r m, w' m⟩) i j
      rw [e]; linarith
    exact ⟨add_nonneg p0 s0, add_le_add p1 s1⟩

/-! ### The weights of the rings -/

theorem weights {q dr r pr a2 psi : ℝ} (hq : 0 ≤ q) (hdr : 0 < dr) (hr : 0 ≤ r) (ha : 0 ≤ a2)
    (hψ : -1 < psi) (m : ℝ) :
    let k := slowDown m (updateGamma pr a2 psi)
    0 ≤ wChi q dr r k ∧ wChi q dr r k ≤ wRho q dr r k := by
  obtain ⟨_, _, g1, g2⟩ := gamma_pz pr a2 psi hψ ha
  have key : ∀ k : Kin, 1 ≤ k.gamma → |k.pz| < k.gamma →
      0 ≤ wChi q dr r k ∧ wChi q dr r k ≤ wRho q dr r k := by
    intro k h1 h2
    have hg : 0 < k.gamma := by linarith
    have h3 : k.pz / k.gamma < 1 := (div_lt_one hg).mpr ((le_abs_self _).trans_lt h2)
    have h4 : 0 ≤ wRho q dr r k := div_nonneg hq (mul_nonneg (mul_nonneg hdr.le hr) (by linarith))
    exact ⟨div_nonneg h4 hg.le, div_le_self h4 h1⟩
  intro k
  by_cases h : (updateGamma pr a2 psi).gamma ≥ m
  · have e : k = ⟨0, 1, 0⟩ := if_pos h
    rw [e]
    exact key _ le_rfl (by norm_num)
  · have e : k = updateGamma pr a2 psi := if_neg h
    rw [e]
    exact key _ g1 g2

theorem scatter_gt {n : ℕ} {idx : ℕ → ℕ} (s : Slice) (i : ℕ) : -1 < scatter n idx s.psi i := by
  unfold scatter
  split_ifs with h
  · have := psi_ge s (Nat.find h); linarith
  · norm_num

/-! ### The gathered laser field -/

theorem gathered_nonneg {b : Box} {nz nr : ℕ} (hb : b.IsGrid nz nr) {s : Sources} (hs : s.OnGrid nz nr)
    (ha : ∀ i j, 0 ≤ s.a2.val i j) (r z : ℝ) (hr : 0 ≤ r) {old src : Src} (ho : 0 ≤ old.a2)
    (h : gatherSources1 b s.a2 s.nablaA2 s.bT0 r z old = some src) : 0 ≤ src.a2 := by
  unfold gatherSources1 at h
  by_cases hB : b.Has r z
  · rw [if_pos hB] at h
    simp only [Option.bind_eq_bind, Option.bind_eq_some_iff] at h
    obtain ⟨s1, e1, s2, -, s3, -, h⟩ := h
    obtain rfl := Option.some.inj h
    show 0 ≤ s1
    obtain ⟨x, y, i, j, -, -, -, -, hx1, hx2, -, hc⟩ := cellInterp_eq hb 1 hs.a2 hr hB
    have hx1' : 0 ≤ x - i := by linarith
    have hx2' : 0 ≤ (i : ℝ) + 1 - x := by linarith
    have comb : ∀ j, 0 ≤ ((i : ℝ) + 1 - x) * s.a2.val i j + (x - i) * s.a2.val (i + 1) j := fun j =>
      add_nonneg (mul_nonneg hx2' (ha _ _)) (mul_nonneg hx1' (ha _ _))
    rcases hc with ⟨-, -, hy1, hy2, -, hv⟩ | ⟨-, hy1, hy2, hv⟩
    · obtain rfl := Option.some.inj (e1.symm.trans hv)
      exact add_nonneg (mul_nonneg (by linarith) (comb _)) (mul_nonneg (by linarith) (comb _))
    · obtain rfl := Option.some.inj (e1.symm.trans hv)
      exact add_nonneg (mul_nonneg (by linarith) (mul_nonneg (comb _) zero_le_one))
        (mul_nonneg (by linarith) (comb _))
  · rw [if_neg hB] at h
    obtain rfl := Option.some.inj h
    exact ho

namespace QS
variable {c : QS}

theorem gather_nonneg (hd : 0 < c.dxi) (hr : 0 < c.dr) {s : Sources} (hs : s.OnGrid c.nXi c.nR)
    (ha : ∀ i j, 0 ≤ s.a2.val i j) {r : ℕ → ℝ} (h0 : ∀ i < c.n, 0 ≤ r i) {z : ℝ} {old src : ℕ → Src}
    (ho : ∀ i < c.n, 0 ≤ (old i).a2) (h : c.gather s r z old = some src) :
    ∀ i < c.n, 0 ≤ (src i).a2 := by
  unfold gather at h
  dsimp only at h
  by_cases hall : ∀ i < c.n, (gatherSources1 c.box s.a2 s.nablaA2 s.bT0 (r i) z (old i)).isSome
  · rw [if_pos hall] at h
    obtain rfl := Option.some.inj h
    intro i hi
    obtain ⟨v, hv⟩ := Option.isSome_iff_exists.mp (hall i hi)
    dsimp only
    rw [hv, Option.getD_some]
    exact gathered_nonneg (box_isGrid hd hr) hs ha (r i) z (h0 i hi) (ho i hi) hv
  · rw [if_neg hall] at h; cases h

/-- No negative cells in both arrays, and the first nowhere above the second. -/
def Ordered (chi rho : ℤ → ℤ → ℝ) : Prop := ∀ i j, 0 ≤ chi i j ∧ chi i j ≤ rho i j

theorem column_ordered (hd : 0 < c.dxi) (hr : 0 < c.dr) (hq : ∀ i < c.n, 0 ≤ c.q i) {s : Sources}
    (hs : s.OnGrid c.nXi c.nR) (ha : ∀ i j, 0 ≤ s.a2.val i j) {k : ℕ} (hk : k < c.nXi) {x : ℕ → RP}
    (h0 : ∀ i < c.n, 0 ≤ (x i).r) {old : ℕ → Src} (ho : ∀ i < c.n, 0 ≤ (old i).a2) {g g' : Grids}
    (hg : Ordered g.chi g.rho) {y : ℕ → RP} {f : ℕ → AtPart}
    (h : c.column s k x old g = some (y, f, g')) :
    Ordered g'.chi g'.rho ∧ ∀ i < c.n, 0 ≤ (f i).src.a2 := by
  unfold column at h
  simp only [Option.bind_eq_bind, Option.bind_eq_some_iff] at h
  obtain ⟨src, hsrc, f0, hf0, row, -, h⟩ := h
  have h' := Option.some.inj h
  have hf : (fun i => ({ f0 i with kin := slowDown c.maxGamma (f0 i).kin } : AtPart)) = f :=
    congrArg (fun z => z.2.1) h'
  obtain rfl : _ = g' := congrArg (fun z => z.2.2) h'
  have hA := gather_nonneg hd hr hs ha h0 ho hsrc
  have hat : ∀ i, (f0 i).src = src i ∧ ∃ ψ, -1 < ψ ∧ (f0 i).kin = updateGamma (x i).pr (src i).a2 ψ := by
    intro i
    unfold atParticles at hf0
    obtain ⟨res, -, rfl⟩ := Option.map_eq_some_iff.mp hf0
    exact ⟨rfl, _, scatter_gt _ i, rfl⟩
  constructor
  · intro i j
    have hw : ∀ m < c.n, 0 ≤ wChi (c.q m) c.dr (x m).r (slowDown c.maxGamma (f0 m).kin) ∧
        wChi (c.q m) c.dr (x m).r (slowDown c.maxGamma (f0 m).kin) ≤
          wRho (c.q m) c.dr (x m).r (slowDown c.maxGamma (f0 m).kin) := by
      intro m hm
      obtain ⟨-, ψ, hψ, e⟩ := hat m
      rw [e]
      exact weights (hq m hm) hr (h0 m hm) (hA m hm) hψ c.maxGamma
    exact plasma_deposit_le c.pShape k c.nXi c.nR c.n c.dr hr hk (fun m => (x m).r) _ _
      (fun m hm => (hw m hm).1) (fun m hm => (hw m hm).2) g.chi g.rho hg i j
  · intro i hi
    rw [← hf]
    show 0 ≤ (f0 i).src.a2
    rw [(hat i).1]
    exact hA i hi

theorem slice_ordered (hd : 0 < c.dxi) (hr : 0 < c.dr) (hq : ∀ i < c.n, 0 ≤ c.q i) (p : Pusher)
    {s : Sources} (hs : s.OnGrid c.nXi c.nR) (ha : ∀ i j, 0 ≤ s.a2.val i j) {k : ℕ} (hk : k < c.nXi)
    {st st' : PState × Grids} (h0 : ∀ i < c.n, 0 ≤ (st.1.ps i).x.r)
    (ho : ∀ i < c.n, 0 ≤ (st.1.o1 i).a2) (hg : Ordered st.2.chi st.2.rho)
    (h : c.slice p s k st = some st') :
    Ordered st'.2.chi st'.2.rho ∧ ∀ i < c.n, 0 ≤ (st'.1.o1 i).a2 := by
  unfold slice at h
  simp only [Option.bind_eq_bind, Option.bind_eq_some_iff] at h
  obtain ⟨⟨y, f, g⟩, hcol, h⟩ := h
  obtain ⟨h1, h2⟩ := column_ordered hd hr hq hs ha hk h0 ho hg hcol
  dsimp only at h
  by_cases hk0 : k = 0
  · rw [if_pos hk0] at h
    obtain rfl := Option.some.inj h
    exact ⟨h1, h2⟩
  · rw [if_neg hk0] at h
    cases p
    · obtain rfl := Option.some.inj h
      exact ⟨h1, h2⟩
    · simp only [Option.bind_eq_some_iff] at h
      obtain ⟨_, -, _, -, _, -, h⟩ := h
      obtain rfl := Option.some.inj h
      exact ⟨h1, h2⟩

theorem loop_ordered (hd : 0 < c.dxi) (hr : 0 < c.dr) (hq : ∀ i < c.n, 0 ≤ c.q i) (p : Pusher)
    {s : Sources} (hs : s.OnGrid c.nXi c.nR) (ha : ∀ i j, 0 ≤ s.a2.val i j) {st : PState × Grids}
    (h0 : ∀ i < c.n, 0 ≤ (st.1.ps i).x.r) (ho : ∀ i < c.n, 0 ≤ (st.1.o1 i).a2)
    (hg : Ordered st.2.chi st.2.rho) (m : ℕ) (hm : m ≤ c.nXi) {st' : PState × Grids}
    (h : c.loop p s st m = some st') :
    Ordered st'.2.chi st'.2.rho ∧ (∀ i < c.n, 0 ≤ (st'.1.o1 i).a2) ∧ ∀ i < c.n, 0 ≤ (st'.1.ps i).x.r := by
  induction m generalizing st' with
  | zero =>
    obtain rfl := Option.some.inj h
    exact ⟨hg, ho, h0⟩
  | succ m ih =>
    rw [loop, Option.bind_eq_bind, Option.bind_eq_some_iff] at h
    obtain ⟨st1, h1, h2⟩ := h
    obtain ⟨i1, i2, i3⟩ := ih (by omega) h1
    obtain ⟨j1, j2⟩ := slice_ordered hd hr hq p hs ha (by omega) i3 i2 i1 h2
    obtain ⟨st2, e2, j3⟩ := slice_ends hd hr p hs (c.nXi - m - 1) st1 i3
    obtain rfl := Option.some.inj (h2.symm.trans e2)
    exact ⟨j1, j2, j3⟩

/-! ### C190 -/

/-- **C190.** For every laser and every set of bunches, for both pushers and all shapes: the
susceptibility is nowhere negative and nowhere above the density. -/
theorem chi_rho (hd : 0 < c.dxi) (hr : 0 < c.dr) (h0 : ∀ i < c.n, 0 ≤ c.r0 i) (hq : ∀ i < c.n, 0 ≤ c.q i)
    (pusher : String) (a2 : ℕ → ℕ → ℝ) (ha : ∀ i < c.nXi, ∀ j < c.nR, 0 ≤ a2 i j)
    (bunches : List (List (Deposition.Part ℝ))) (e0 cc : ℝ) (f r : Fld)
    (h : c.calculateField pusher a2 bunches e0 cc f = .ok r) (i j : ℤ) :
    0 ≤ r.chi i j ∧ r.chi i j ≤ r.rho i j := by
  obtain ⟨b, g, -, hg, rfl⟩ := calculate_ok h
  obtain ⟨p, st, hl, rfl, -⟩ := evolve_ok hg
  have hA : ∀ i j, 0 ≤ (c.sources a2 b).a2.val i j := by
    intro i j
    show 0 ≤ if 2 ≤ i ∧ i < c.nXi + 2 ∧ 2 ≤ j ∧ j < c.nR + 2 then a2 (i - 2).toNat (j - 2).toNat else 0
    split_ifs with hin
    · exact ha _ (by omega) _ (by omega)
    · exact le_rfl
  exact (loop_ordered hd hr hq p (sources_onGrid a2 b) hA (st := (c.startState, _)) h0
    (fun _ _ => le_rfl) (fun _ _ => ⟨le_rfl, le_rfl⟩) c.nXi le_rfl hl).1 i j

/-- **C190** for the arguments of the user: any box of positive size, any plasma whose profile
`1 + pc * r ** 2` is not negative within the column. -/
theorem chi_rho_args (rMax xiMin xiMax : ℝ) (nR nXi ppc : ℕ) (rMaxPlasma : Option ℝ) (pc : ℝ)
    (pShape pusher : String) (maxGamma : ℝ) (argsort : (ℕ → ℝ) → ℕ → ℕ) (h1 : 0 < rMax)
    (h2 : xiMin < xiMax) (h3 : 0 < nR) (h4 : 2 ≤ nXi)
    (hpc : ∀ r, 0 ≤ r → r ≤ rMaxPlasma.getD rMax → 0 ≤ 1 + pc * r ^ 2)
    (a2 : ℕ → ℕ → ℝ) (ha : ∀ i < nXi, ∀ j < nR, 0 ≤ a2 i j)
    (bunches : List (List (Deposition.Part ℝ))) (e0 cc : ℝ) (f r : Fld)
    (h : (ofArgs rMax xiMin xiMax nR nXi ppc rMaxPlasma pc pShape maxGamma argsort).calculateField
      pusher a2 bunches e0 cc f = .ok r) (i j : ℤ) :
    0 ≤ r.chi i j ∧ r.chi i j ≤ r.rho i j := by
  have hR : (0 : ℝ) < nR := by exact_mod_cast h3
  have hX : (2 : ℝ) ≤ nXi := by exact_mod_cast h4
  have hdr : 0 < rMax / nR := div_pos h1 hR
  have hrad : ∀ i < (Column.init (rMaxPlasma.getD rMax) pc (rMax / nR) ppc).nPart.toNat,
      (Column.init (rMaxPlasma.getD rMax) pc (rMax / nR) ppc).r i = ((i : ℝ) + 1 / 2) * (rMax / nR / ppc) :=
    fun i hi => column_r (rMaxPlasma.getD rMax) pc (rMax / nR) ppc i (by omega)
  refine chi_rho ?_ hdr ?_ ?_ pusher a2 ha bunches e0 cc f r h i j
  · exact div_pos (by linarith) (by linarith)
  · intro i hi
    show 0 ≤ (Column.init (rMaxPlasma.getD rMax) pc (rMax / nR) ppc).r i
    rw [hrad i hi]
    positivity
  · intro i hi
    have hi' : i < (Column.init (rMaxPlasma.getD rMax) pc (rMax / nR) ppc).nPart.toNat := hi
    have e := hrad i hi
    have hp : 0 ≤ rMax / nR / ppc := by positivity
    have h0 : 0 ≤ (Column.init (rMaxPlasma.getD rMax) pc (rMax / nR) ppc).r i := by rw [e]; positivity
    have hc := column_count (rMaxPlasma.getD rMax) pc (rMax / nR) ppc
    have hle : (Column.init (rMaxPlasma.getD rMax) pc (rMax / nR) ppc).r i ≤ rMaxPlasma.getD rMax := by
      rw [e]
      rcases Nat.eq_zero_or_pos ppc with h | h
      · exfalso
        have : (Column.init (rMaxPlasma.getD rMax) pc (rMax / nR) ppc).nPart = 0 := by
          show npRound _ = 0
          simp [h, npRound]
        omega
      · have hpp : (0 : ℝ) < ppc := by exact_mod_cast h
        have hcell : 0 < rMax / nR / ppc := by positivity
        have hin : ((i : ℤ) : ℝ) + 1 ≤ (Column.init (rMaxPlasma.getD rMax) pc (rMax / nR) ppc).nPart := by
          exact_mod_cast (by omega : (i : ℤ) + 1 ≤ (Column.init (rMaxPlasma.getD rMax) pc (rMax / nR) ppc).nPart)
        have hup := (abs_le.mp hc).2
        have e2 : rMaxPlasma.getD rMax = rMaxPlasma.getD rMax / (rMax / nR) * ppc * (rMax / nR / ppc) := by
          have := hdr.ne'
          field_simp
        rw [e2]
        apply mul_le_mul_of_nonneg_right _ hcell.le
        push_cast at hin
        linarith
    show 0 ≤ (Column.init (rMaxPlasma.getD rMax) pc (rMax / nR) ppc).q i
    have e3 : (Column.init (rMaxPlasma.getD rMax) pc (rMax / nR) ppc).q i =
        rMax / nR / ppc * (Column.init (rMaxPlasma.getD rMax) pc (rMax / nR) ppc).r i *
          (1 + pc * (Column.init (rMaxPlasma.getD rMax) pc (rMax / nR) ppc).r i ^ 2) := by
      show rMax / nR / ppc * _ + rMax / nR / ppc * pc * _ ^ 3 = _
      ring
    rw [e3]
    exact mul_nonneg (mul_nonneg hp h0) (hpc _ h0 hle)

/-- Hypotheses: a plasma channel, a laser and a bunch. -/
example : ∃ (f r : Fld), (ofArgs 70 (-50) 30 70 200 2 none (1 / 10) "cubic" 10 fun _ i => i).calculateField
      "ab5" (fun i j => if i < 100 ∧ j < 10 then 1 else 0) [[⟨0, 1, 1⟩]] 1 1 f = .ok r ∧
    (∀ x : ℝ, 0 ≤ x → x ≤ (none : Option ℝ).getD 70 → 0 ≤ 1 + 1 / 10 * x ^ 2) ∧
    ∀ i < 200, ∀ j < 70, (0 : ℝ) ≤ if i < 100 ∧ j < 10 then 1 else 0 := by
  let f : Fld := ⟨fun _ _ => 0, fun _ _ => 0, fun _ _ => 0, fun _ _ => 0, fun _ _ => 0⟩
  obtain ⟨r, hr⟩ := total_args 70 (-50) 30 70 200 2 none (1 / 10) "cubic" "ab5" 10 (fun _ i => i)
    (by norm_num) (by norm_num) (by norm_num) (by norm_num) (.inl rfl) (.inr rfl)
    (fun i j => if i < 100 ∧ j < 10 then 1 else 0) [[⟨0, 1, 1⟩]] 1 1 f
  exact ⟨f, r, hr, fun x _ _ => by positivity, fun i _ j _ => by split_ifs <;> norm_num⟩

end QS

end WakeT.Plasma
