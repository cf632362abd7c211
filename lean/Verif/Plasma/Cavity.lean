import Verif.Plasma.SolverProps
import Verif.Interp.Props

/-! # Fields inside of a blown-out cavity (C181) -/

set_option linter.unusedSectionVars false

namespace WakeT.Plasma

open WakeT.Interp WakeT.Base WakeT.Util WakeT.Deposition

/-! ### Specification -/

namespace QS
variable (c : QS)

/-- Specification: the plasma particles are at the radii `r` when slice `k` is calculated. -/
def RingsAt (pusher : String) (L : ℕ → ℕ → ℝ) (B : List (List (Deposition.Part ℝ))) (f : Fld) (k : ℕ) (r : ℕ → ℝ) : Prop :=
  ∃ b p st, c.beamField B = some b ∧ (pusher = "ab5" ∧ p = .ab5 ∨ pusher = "rk4" ∧ p = .rk4) ∧
    c.loop p (c.sources L b) (c.startState, ⟨fun _ => [], fun _ => [], f.rho, f.chi⟩) (c.nXi - 1 - k) = some st ∧
    r = fun i => (st.1.ps i).x.r

/-- Specification: in slice `k` there is no plasma particle within the radius `R`, and `R` is not beyond the edge of the
plasma column. -/
def Blown (pusher : String) (L : ℕ → ℕ → ℝ) (B : List (List (Deposition.Part ℝ))) (f : Fld) (k : ℕ) (R : ℝ) : Prop :=
  R ≤ c.rMaxP ∧ ∀ r, c.RingsAt pusher L B f k r → ∀ i < c.n, R ≤ r i

end QS

/-! ### The potential -/

theorem scan_empty {r : ℕ → ℝ} {rj : ℝ} {n : ℕ} (h : 0 < n → rj ≤ r 0) : scan r rj (n - 0) 0 = -1 := by
  cases n with
  | zero => rfl
  | succ n =>
    show (if rj ≤ r 0 then ((0 : ℕ) : ℤ) - 1 else _) = -1
    rw [if_pos (h (Nat.succ_pos n))]
    rfl

theorem gridLoop_length (n : ℕ) (r : ℕ → ℝ) (out : ℤ → ℝ → ℝ) (l : List ℝ) (i : ℕ) : (gridLoop n r out i l).length = l.length := by
  induction l generalizing i with
  | nil => rfl
  | cons x l ih => exact congrArg Nat.succ (ih _)

theorem gridLoop_empty (n : ℕ) (r : ℕ → ℝ) (out : ℤ → ℝ → ℝ) {R : ℝ} (hr : 0 < n → R ≤ r 0) (l : List ℝ) (j : ℕ) (hj : j < l.length)
    (hl : ∀ i ≤ j, l.getD i 0 ≤ R) : (gridLoop n r out 0 l).getD j 0 = out (-1) (l.getD j 0) := by
  induction l generalizing j with
  | nil => exact absurd hj (Nat.not_lt_zero j)
  | cons x l ih =>
    have hs : scan r x (n - 0) 0 = -1 := scan_empty fun hn => (hl 0 (Nat.zero_le j)).trans (hr hn)
    unfold gridLoop
    dsimp only
    rw [hs]
    cases j with
    | zero => rfl
    | succ j =>
      rw [if_pos rfl, List.getD_cons_succ, List.getD_cons_succ]
      exact ih j (Nat.lt_of_succ_lt_succ hj) fun i hi => hl (i + 1) (Nat.succ_le_succ hi)

theorem getD_map_sub (l : List ℝ) (C : ℝ) (j : ℕ) (hj : j < l.length) : (l.map fun v => v - C).getD j 0 = l.getD j 0 - C := by
  simp [List.getD_eq_getElem?_getD, hj]

namespace QS
variable {c : QS}

theorem rFld_getD (j : ℕ) (hj : j < c.nR) : c.rFld.getD j 0 = ((j : ℝ) + 1 / 2) * c.dr := by
  unfold rFld
  simp [List.getD_eq_getElem?_getD, hj]

/-- The potential in a slice whose particles are outside of the radius of node `J`. -/
theorem psi_blown {pusher : String} {L : ℕ → ℕ → ℝ} {B : List (List (Deposition.Part ℝ))} {b : ℕ → ℕ → ℝ} {f : Fld} {g : Grids}
    (hb : c.beamField B = some b)
    (hg : c.evolve pusher (c.sources L b) ⟨fun _ => [], fun _ => [], f.rho, f.chi⟩ = .ok g)
    (hsort : ∀ r, Sorts c.n r (c.argsort r)) (hdr : 0 < c.dr) {k J : ℕ} (hk : k < c.nXi) (hJ : J < c.nR)
    (hout : c.Blown pusher L B f k (((J : ℝ) + 1 / 2) * c.dr)) :
    ∃ C, ∀ j ≤ J, (g.psi k).getD j 0 = -((((j : ℝ) + 1 / 2) * c.dr) ^ 2 / 4 + c.pc * (((j : ℝ) + 1 / 2) * c.dr) ^ 4 / 16) - C := by
  obtain ⟨p, st, hst, rfl, hp⟩ := evolve_ok hg
  have hp' : pusher = "ab5" ∧ p = .ab5 ∨ pusher = "rk4" ∧ p = .rk4 := by
    rcases hp with h | ⟨h1, h2⟩
    · exact Or.inl h
    · refine Or.inr ⟨?_, h2⟩
      unfold evolve at hg
      dsimp only at hg
      rw [if_neg h1] at hg
      by_contra hne
      rw [if_neg hne] at hg
      cases hg
  obtain ⟨st1, h1, h2, -⟩ := loop_keeps (c := c) (p := p) (c.nXi - k) k (by omega) (st' := st)
    (by rw [Nat.sub_add_cancel hk.le]; exact hst)
  obtain ⟨m, hm⟩ : ∃ m, c.nXi - k = m + 1 := ⟨c.nXi - k - 1, by omega⟩
  rw [hm, loop, Option.bind_eq_bind, Option.bind_eq_some_iff] at h1
  obtain ⟨st0, h0, h1⟩ := h1
  obtain ⟨x, fp, hcol⟩ := slice_grids h1
  have hkm : c.nXi - m - 1 = k := by omega
  have hmk : c.nXi - 1 - k = m := by omega
  rw [hkm] at hcol
  have hr := hout.2 _ ⟨b, p, st0, hb, hp', by rw [hmk]; exact h0, rfl⟩
  have hrow : st1.2.psi k = calculatePsi c.rFld c.n (fun i => (st0.1.ps i).x.r) c.q (c.argsort fun i => (st0.1.ps i).x.r)
      c.rMaxP c.pc := by
    unfold column at hcol
    simp only [Option.bind_eq_bind, Option.bind_eq_some_iff] at hcol
    obtain ⟨src, -, f0, -, row, -, hcol⟩ := hcol
    have h' := Option.some.inj hcol
    rw [← congrArg (fun z => z.2.2.psi) h']
    exact Function.update_self _ _ _
  have hs := hsort fun i => (st0.1.ps i).x.r
  rw [(h2 k (by omega)).1, hrow]
  replace hr : ∀ i < c.n, ((J : ℝ) + 1 / 2) * c.dr ≤ (fun i => (st0.1.ps i).x.r) i := hr
  generalize (fun i => (st0.1.ps i).x.r) = r at hr hs ⊢
  unfold calculatePsi
  dsimp only
  generalize deltaPsi (max _ _) _ _ _ _ = C
  refine ⟨C, fun j hj => ?_⟩
  have hlen : c.rFld.length = c.nR := by
    unfold rFld
    rw [List.length_map, List.length_range]
  have hle : ∀ i ≤ J, ((i : ℝ) + 1 / 2) * c.dr ≤ ((J : ℝ) + 1 / 2) * c.dr := by
    intro i hi
    have : (i : ℝ) ≤ J := by exact_mod_cast hi
    gcongr
  rw [getD_map_sub _ _ _ (by rw [gridLoop_length, hlen]; omega),
    gridLoop_empty c.n (fun k => r (c.argsort r k)) _ (R := ((J : ℝ) + 1 / 2) * c.dr) (fun hn => hr _ (hs.maps 0 hn)) _ j (by rw [hlen]; omega)
      (fun i hi => by rw [rFld_getD i (by omega)]; exact hle i (by omega)),
    if_pos rfl, rFld_getD j (by omega)]
  congr 1
  unfold deltaPsi
  dsimp only
  rw [if_pos ((hle j hj).trans hout.1)]
  ring

/-! ### The nodes -/

/-- Transverse force at the nodes. -/
theorem force_node {pusher : String} {L : ℕ → ℕ → ℝ} {B : List (List (Deposition.Part ℝ))} {e0 cc : ℝ} {f g : Fld}
    (h : c.calculate pusher L B e0 cc f = .ok g) (hsort : ∀ r, Sorts c.n r (c.argsort r)) (hdr : 0 < c.dr) (hpc : c.pc = 0)
    {k J : ℕ} (hk : k < c.nXi) (hJ : 1 ≤ J) (hJ' : J + 1 < c.nR)
    (hout : c.Blown pusher L B f k (((J : ℝ) + 3 / 2) * c.dr)) {j : ℕ} (hj : j ≤ J) :
    g.er (k + 2) (j + 2) - cc * g.bt (k + 2) (j + 2) = e0 / 2 * (((j : ℝ) + 1 / 2) * c.dr) := by
  obtain ⟨b, gr, hb, hg, rfl⟩ := calculate_ok h
  have hout' : c.Blown pusher L B f k ((((J + 1 : ℕ) : ℝ) + 1 / 2) * c.dr) := by
    have : (((J + 1 : ℕ) : ℝ) + 1 / 2) = (J : ℝ) + 3 / 2 := by push_cast; ring
    rw [this]; exact hout
  obtain ⟨C, hC⟩ := psi_blown hb hg hsort hdr hk hJ' hout'
  dsimp only
  rw [padded_node _ _ _ k j hk (by omega)]
  generalize ((padded c.nXi c.nR fun i j => (gr.bTBar i).getD j 0).val (k + 2) (j + 2) + (padded c.nXi c.nR b).val (k + 2) (j + 2)) * e0 / cc = y
  have hgrad : gradient c.nR c.dr (fun j' => (gr.psi k).getD j' 0) j = -(((j : ℝ) + 1 / 2) * c.dr) / 2 := by
    unfold gradient
    by_cases h0 : j = 0
    · subst h0
      rw [if_pos rfl]
      dsimp only
      rw [hC 0 (by omega), hC 1 (by omega), hC 2 (by omega), hpc]
      push_cast
      field_simp
      ring
    · obtain ⟨i, rfl⟩ : ∃ i, j = i + 1 := ⟨j - 1, by omega⟩
      rw [if_neg h0, if_neg (by omega)]
      dsimp only
      rw [hC (i + 1 + 1) (by omega), Nat.add_sub_cancel, hC i (by omega), hpc]
      push_cast
      field_simp
      ring
  rw [hgrad]
  ring

/-- Accelerating field at the nodes. -/
theorem ez_node {pusher : String} {L : ℕ → ℕ → ℝ} {B : List (List (Deposition.Part ℝ))} {e0 cc : ℝ} {f g : Fld}
    (h : c.calculate pusher L B e0 cc f = .ok g) (hsort : ∀ r, Sorts c.n r (c.argsort r)) (hdr : 0 < c.dr)
    {k J : ℕ} (hk : 1 ≤ k) (hk' : k + 1 < c.nXi) (hJ : J < c.nR)
    (hout : ∀ k', k ≤ k' + 1 → k' ≤ k + 1 → c.Blown pusher L B f k' (((J : ℝ) + 1 / 2) * c.dr)) {j : ℕ} (hj : j ≤ J) :
    g.ez (k + 2) (j + 2) = g.ez (k + 2) 2 := by
  obtain ⟨b, gr, hb, hg, rfl⟩ := calculate_ok h
  obtain ⟨i, rfl⟩ : ∃ i, k = i + 1 := ⟨k - 1, by omega⟩
  obtain ⟨C, hC⟩ := psi_blown hb hg hsort hdr (k := i) (by omega) hJ (hout _ (by omega) (by omega))
  obtain ⟨D, hD⟩ := psi_blown hb hg hsort hdr (k := i + 1 + 1) (by omega) hJ (hout _ (by omega) (by omega))
  have h0 := setInner_node c.nXi c.nR f.ez (fun i j => -gradient c.nXi c.dxi (fun i' => (gr.psi i').getD j 0) i * e0) (i + 1) 0
    (by omega) (by omega)
  dsimp only
  rw [setInner_node _ _ _ _ _ _ (by omega : i + 1 < c.nXi) (by omega : j < c.nR)]
  refine Eq.trans ?_ h0.symm
  congr 2
  unfold gradient
  rw [if_neg (by omega), if_neg (by omega), if_neg (by omega), if_neg (by omega), Nat.add_sub_cancel]
  show ((gr.psi (i + 1 + 1)).getD j 0 - (gr.psi i).getD j 0) / _ = ((gr.psi (i + 1 + 1)).getD 0 0 - (gr.psi i).getD 0 0) / _
  rw [hC j hj, hD j hj, hC 0 (by omega), hD 0 (by omega)]
  ring

end QS

/-! ### Gathering -/

end WakeT.Plasma

namespace WakeT.Interp

theorem cellInterp_comb {A B : Arr ℝ} (h1 : B.ni = A.ni) (h2 : B.nj = A.nj) (b : Box) (s cc r z : ℝ) {u v : ℝ}
    (hu : cellInterp b s A r z = some u) (hv : cellInterp b s B r z = some v) :
    cellInterp b s ⟨A.ni, A.nj, fun i j => A.val i j - cc * B.val i j⟩ r z = some (u - cc * v) := by
  have hget : ∀ i j x y, A.get i j = some x → B.get i j = some y →
      (⟨A.ni, A.nj, fun i j => A.val i j - cc * B.val i j⟩ : Arr ℝ).get i j = some (x - cc * y) := by
    intro i j x y hx hy
    unfold Arr.get at *
    split_ifs at hx hy ⊢ with ha hb
    · rw [← Option.some.inj hx, ← Option.some.inj hy]
  unfold cellInterp at *
  dsimp only at *
  simp only [Option.bind_eq_bind, Option.bind_eq_some_iff] at hu hv
  obtain ⟨a1, e1, a2, e2, a3, e3, a4, e4, eu⟩ := hu
  obtain ⟨b1, g1, b2, g2, b3, g3, b4, g4, ev⟩ := hv
  simp only [hget _ _ _ _ e1 g1, hget _ _ _ _ e2 g2, hget _ _ _ _ e3 g3, hget _ _ _ _ e4 g4, Option.bind_eq_bind, Option.bind_some]
  rw [← Option.some.inj eu, ← Option.some.inj ev]
  congr 1
  ring

/-- Which nodes are used. -/
theorem cell_slices {b : Box} {nz : ℕ} (hd : 0 < b.dz) {k : ℕ} {z x : ℝ} {i : ℤ} (hz1 : b.zNode (k + 2) ≤ z)
    (hz2 : z ≤ b.zNode (k + 3)) (hx : z = b.zMin + (x - 2) * b.dz) (h1 : (i : ℝ) ≤ x) (h2 : x < i + 1) :
    i = k + 2 ∨ i = k + 3 ∧ x = i := by
  unfold Box.zNode at hz1 hz2
  push_cast at hz1 hz2
  have g1 : (k : ℝ) + 2 ≤ x := by
    by_contra hc
    have := mul_pos (sub_pos.mpr (not_le.mp hc)) hd
    nlinarith
  have g2 : x ≤ (k : ℝ) + 3 := by
    by_contra hc
    have := mul_pos (sub_pos.mpr (not_le.mp hc)) hd
    nlinarith
  have g3 : (k : ℤ) + 2 < i + 1 := by
    have : (k : ℝ) + 2 < i + 1 := g1.trans_lt h2
    exact_mod_cast this
  have g4 : i ≤ (k : ℤ) + 3 := by
    have : (i : ℝ) ≤ k + 3 := h1.trans g2
    exact_mod_cast this
  rcases (by omega : i = (k : ℤ) + 2 ∨ i = k + 3) with h | h
  · exact Or.inl h
  · refine Or.inr ⟨h, le_antisymm ?_ h1⟩
    rw [h]
    push_cast
    exact g2

theorem cell_column {b : Box} (hd : 0 < b.dr) {J : ℕ} {r y : ℝ} {j : ℤ} (hr : r ≤ b.rNode (J + 2))
    (hy : r = b.rMin + (y - 2) * b.dr) (h1 : (j : ℝ) ≤ y) : j < J + 2 ∨ j = J + 2 ∧ y = j := by
  unfold Box.rNode at hr
  push_cast at hr
  have g2 : y ≤ (J : ℝ) + 2 := by
    by_contra hc
    have := mul_pos (sub_pos.mpr (not_le.mp hc)) hd
    nlinarith
  have g4 : j ≤ (J : ℤ) + 2 := by
    have : (j : ℝ) ≤ J + 2 := h1.trans g2
    exact_mod_cast this
  rcases g4.lt_or_eq with h | h
  · exact Or.inl h
  · refine Or.inr ⟨h, le_antisymm ?_ h1⟩
    rw [h]
    push_cast
    exact g2

/-- Interpolation of a field that is proportional to the radius near the axis. -/
theorem cellInterp_odd_near {b : Box} {nz nr : ℕ} (hb : b.IsGrid nz nr) {a : Arr ℝ} (ha : OnGrid a nz nr) {κ : ℝ} {k J : ℕ}
    (hf : ∀ i j : ℤ, i = k + 2 ∨ i = k + 3 → 2 ≤ j → j ≤ J + 2 → a.val i j = κ * b.rNode j) {r z : ℝ} (hr : 0 ≤ r)
    (hr' : r ≤ b.rNode (J + 2)) (hz1 : b.zNode (k + 2) ≤ z) (hz2 : z ≤ b.zNode (k + 3)) (h : b.Has r z) :
    cellInterp b (-1) a r z = some (κ * r) := by
  obtain ⟨x, y, i, j, ex, ey, hi1, hi2, hx1, hx2, hxe, hc⟩ := cellInterp_eq hb (-1) ha hr h
  have hz : ∀ m : ℤ, 2 ≤ m → m ≤ J + 2 → (i + 1 - x) * a.val i m + (x - i) * a.val (i + 1) m = κ * b.rNode m := by
    intro m h1 h2
    rcases cell_slices (nz := nz) hb.dz hz1 hz2 ex hx1 hx2 with rfl | ⟨rfl, he⟩
    · rw [hf _ m (Or.inl rfl) h1 h2, hf (k + 2 + 1) m (Or.inr (by ring)) h1 h2]
      ring
    · rw [hf _ m (Or.inr rfl) h1 h2, he]
      ring
  rcases hc with ⟨hj1, -, hy1, hy2, -, hval⟩ | ⟨-, hy1, hy2, hval⟩ <;> rw [hval] <;> refine congrArg some ?_
  · rcases cell_column hb.dr hr' ey hy1 with hj | ⟨hj, he⟩
    · rw [hz j hj1 hj.le, hz (j + 1) (by omega) (by omega), ey]
      unfold Box.rNode
      push_cast
      ring
    · rw [hz j hj1 hj.le, ey, he]
      unfold Box.rNode
      ring
  · rw [hz 2 le_rfl (by omega), ey]
    unfold Box.rNode
    rw [hb.rMin]
    push_cast
    ring

/-- Interpolation of a field that does not depend on the radius near the axis. -/
theorem cellInterp_even_near {b : Box} {nz nr : ℕ} (hb : b.IsGrid nz nr) {a : Arr ℝ} (ha : OnGrid a nz nr) {k J : ℕ}
    (hf : ∀ i j : ℤ, i = k + 2 ∨ i = k + 3 → 2 ≤ j → j ≤ J + 2 → a.val i j = a.val i 2) {z : ℝ}
    (hz1 : b.zNode (k + 2) ≤ z) (hz2 : z ≤ b.zNode (k + 3)) {r : ℝ} (hr : 0 ≤ r) (hr' : r ≤ b.rNode (J + 2)) (h : b.Has r z) :
    cellInterp b 1 a r z = some (a.val (k + 2) 2 + (z - b.zNode (k + 2)) / b.dz * (a.val (k + 3) 2 - a.val (k + 2) 2)) := by
  obtain ⟨x, y, i, j, ex, ey, hi1, hi2, hx1, hx2, hxe, hc⟩ := cellInterp_eq hb 1 ha hr h
  have hd := hb.dz.ne'
  have hθ : (z - b.zNode (k + 2)) / b.dz = x - k - 2 := by
    rw [ex]
    unfold Box.zNode
    push_cast
    field_simp
    ring
  have hz : ∀ m : ℤ, 2 ≤ m → m ≤ J + 2 → (i + 1 - x) * a.val i m + (x - i) * a.val (i + 1) m =
      a.val (k + 2) 2 + (x - k - 2) * (a.val (k + 3) 2 - a.val (k + 2) 2) := by
    intro m h1 h2
    rcases cell_slices (nz := nz) hb.dz hz1 hz2 ex hx1 hx2 with rfl | ⟨rfl, he⟩
    · have e : (k : ℤ) + 2 + 1 = k + 3 := by ring
      rw [e, hf _ m (Or.inl rfl) h1 h2, hf _ m (Or.inr rfl) h1 h2]
      push_cast
      ring
    · rw [hf _ m (Or.inr rfl) h1 h2, he]
      push_cast
      ring
  rw [hθ]
  rcases hc with ⟨hj1, -, hy1, hy2, -, hval⟩ | ⟨-, hy1, hy2, hval⟩ <;> rw [hval] <;> refine congrArg some ?_
  · rcases cell_column hb.dr hr' ey hy1 with hj | ⟨hj, he⟩
    · rw [hz j hj1 hj.le, hz (j + 1) (by omega) (by omega)]
      ring
    · rw [hz j hj1 hj.le, he]
      ring
  · rw [hz 2 le_rfl (by omega)]
    ring

end WakeT.Interp

namespace WakeT.Plasma.QS

open WakeT.Interp WakeT.Base WakeT.Util WakeT.Deposition

variable {c : QS}

/-- The array of a field. -/
def arrOf (c : QS) (f : ℤ → ℤ → ℝ) : Arr ℝ := ⟨c.nXi + 4, c.nR + 4, f⟩

theorem has_near {b : Box} {nz nr : ℕ} (hb : b.IsGrid nz nr) {k J : ℕ} (hk : k + 1 < nz) (hJ : J < nr) {r z : ℝ}
    (hr : r ≤ b.rNode (J + 2)) (hz1 : b.zNode (k + 2) ≤ z) (hz2 : z ≤ b.zNode (k + 3)) : b.Has r z := by
  have hdz := hb.dz
  have hdr := hb.dr
  unfold Box.zNode at hz1 hz2
  unfold Box.rNode at hr
  push_cast at hz1 hz2 hr
  have h1 : (0 : ℝ) ≤ k := Nat.cast_nonneg k
  have h2 : (k : ℝ) + 1 ≤ nz - 1 := by
    have : (k : ℝ) + 2 ≤ nz := by exact_mod_cast hk
    linarith
  have h3 : (J : ℝ) + 1 ≤ nr := by exact_mod_cast hJ
  refine ⟨?_, ?_, ?_⟩
  · nlinarith [mul_nonneg h1 hdz.le]
  · rw [hb.zMax]
    nlinarith [mul_le_mul_of_nonneg_right h2 hdz.le]
  · rw [hb.rMax]
    rw [hb.rMin] at hr
    nlinarith [mul_le_mul_of_nonneg_right h3 hdr.le]

/-- **C181, transverse force.** Where the driver has expelled all plasma particles to radii beyond the next node, in two
adjacent slices, every particle between them feels exactly the linear focusing force of the bare ions, which is proportional
to the distance from the axis.  Here `b` is the grid in metres, with `s` the plasma skin depth, and `e0` the wave-breaking
field. -/
theorem cavity_force {pusher : String} {L : ℕ → ℕ → ℝ} {B : List (List (Deposition.Part ℝ))} {e0 cc : ℝ} {f g : Fld}
    (h : c.calculate pusher L B e0 cc f = .ok g) (hsort : ∀ r, Sorts c.n r (c.argsort r)) (hpc : c.pc = 0)
    {b : Box} (hb : b.IsGrid c.nXi c.nR) {s : ℝ} (hs : 0 < s) (hbs : b.dr = s * c.dr)
    {k J : ℕ} (hk : k + 1 < c.nXi) (hJ : 1 ≤ J) (hJ' : J + 1 < c.nR)
    (hout : ∀ k', k' = k ∨ k' = k + 1 → c.Blown pusher L B f k' (((J : ℝ) + 3 / 2) * c.dr)) {x y xi : ℝ}
    (hxy : ¬(x = 0 ∧ y = 0)) (hr : √(x ^ 2 + y ^ 2) ≤ b.rNode (J + 2)) (hz1 : b.zNode (k + 2) ≤ xi) (hz2 : xi ≤ b.zNode (k + 3))
    (v : Fields.EB ℝ) :
    ∃ u, gatherMain1 b (c.arrOf g.er) (c.arrOf g.ez) (c.arrOf g.bt) x y xi v = .ok u ∧
      u.ex - cc * u.b_y = v.ex - cc * v.b_y + e0 / (2 * s) * x ∧
      u.ey + cc * u.bx = v.ey + cc * v.bx + e0 / (2 * s) * y ∧ u.bz = v.bz := by
  have hdr : 0 < c.dr := by
    have := hb.dr
    rw [hbs] at this
    exact pos_of_mul_pos_right this hs.le
  have hin := has_near hb hk (by omega : J < c.nR) hr hz1 hz2
  have hr0 : √(x ^ 2 + y ^ 2) ≠ 0 := by
    intro h
    rw [Real.sqrt_eq_zero (by positivity)] at h
    exact hxy ⟨by nlinarith, by nlinarith⟩
  have hon : ∀ F, OnGrid (c.arrOf F) c.nXi c.nR := fun F => ⟨rfl, rfl⟩
  have hsome : ∀ sg F, ∃ u, cellInterp b sg (c.arrOf F) (√(x ^ 2 + y ^ 2)) xi = some u := by
    intro sg F
    obtain ⟨_, _, _, _, _, _, _, _, _, _, _, hc⟩ := cellInterp_eq hb sg (hon F) (Real.sqrt_nonneg _) hin
    rcases hc with ⟨-, -, -, -, -, hc⟩ | ⟨-, -, -, hc⟩ <;> exact ⟨_, hc⟩
  obtain ⟨u1, h1⟩ := hsome (-1) g.er
  obtain ⟨u2, h2⟩ := hsome (-1) g.bt
  obtain ⟨u3, h3⟩ := hsome 1 g.ez
  have h4 := cellInterp_comb (A := c.arrOf g.er) (B := c.arrOf g.bt) rfl rfl b (-1) cc _ _ h1 h2
  have h5 : cellInterp b (-1) (⟨(c.arrOf g.er).ni, (c.arrOf g.er).nj, fun i j => (c.arrOf g.er).val i j - cc * (c.arrOf g.bt).val i j⟩ : Arr ℝ)
      (√(x ^ 2 + y ^ 2)) xi = some (e0 / (2 * s) * √(x ^ 2 + y ^ 2)) := by
    refine cellInterp_odd_near hb ⟨rfl, rfl⟩ (k := k) (J := J) ?_ (Real.sqrt_nonneg _) hr hz1 hz2 hin
    intro i j hi hj1 hj2
    obtain ⟨m, rfl⟩ : ∃ m : ℕ, j = m + 2 := ⟨(j - 2).toNat, by omega⟩
    have hnode : b.rNode ((m : ℤ) + 2) = s * (((m : ℝ) + 1 / 2) * c.dr) := by
      unfold Box.rNode
      rw [hb.rMin, hbs]
      push_cast
      ring
    rw [hnode]
    have hs' := hs.ne'
    have key : ∀ k', k' = k ∨ k' = k + 1 → g.er (k' + 2) (m + 2) - cc * g.bt (k' + 2) (m + 2) =
        e0 / (2 * s) * (s * (((m : ℝ) + 1 / 2) * c.dr)) := by
      intro k' hk'
      rw [force_node h hsort hdr hpc (k := k') (J := J) (by omega) hJ hJ' (hout k' hk') (j := m) (by omega)]
      field_simp
    rcases hi with rfl | rfl
    · exact key k (Or.inl rfl)
    · have := key (k + 1) (Or.inr rfl)
      push_cast at this
      rw [show (k : ℤ) + 1 + 2 = k + 3 by ring] at this
      exact this
  have hu : u1 - cc * u2 = e0 / (2 * s) * √(x ^ 2 + y ^ 2) := Option.some.inj (h4.symm.trans h5)
  unfold gatherMain1
  dsimp only
  rw [if_neg hr0, if_pos hin, h1, h2, h3]
  refine ⟨_, rfl, ?_, ?_, rfl⟩
  · dsimp only
    have : e0 / (2 * s) * x = (u1 - cc * u2) * x * (1 / √(x ^ 2 + y ^ 2)) := by
      rw [hu]
      field_simp
    rw [this]
    ring
  · dsimp only
    have : e0 / (2 * s) * y = (u1 - cc * u2) * y * (1 / √(x ^ 2 + y ^ 2)) := by
      rw [hu]
      field_simp
    rw [this]
    ring

/-- **C181, acceleration.** Where the plasma particles are expelled from the neighbourhood of the axis in four adjacent slices,
all particles at the same longitudinal position feel the same accelerating field, whatever their distance from the axis. -/
theorem cavity_acceleration {pusher : String} {L : ℕ → ℕ → ℝ} {B : List (List (Deposition.Part ℝ))} {e0 cc : ℝ} {f g : Fld}
    (h : c.calculate pusher L B e0 cc f = .ok g) (hsort : ∀ r, Sorts c.n r (c.argsort r)) (hdr : 0 < c.dr)
    {b : Box} (hb : b.IsGrid c.nXi c.nR) {k J : ℕ} (hk1 : 1 ≤ k) (hk : k + 2 < c.nXi) (hJ : J < c.nR)
    (hout : ∀ k', k ≤ k' + 1 → k' ≤ k + 2 → c.Blown pusher L B f k' (((J : ℝ) + 1 / 2) * c.dr)) {xi : ℝ}
    (hz1 : b.zNode (k + 2) ≤ xi) (hz2 : xi ≤ b.zNode (k + 3)) :
    ∃ E, ∀ x y, ¬(x = 0 ∧ y = 0) → √(x ^ 2 + y ^ 2) ≤ b.rNode (J + 2) → ∀ v : Fields.EB ℝ,
      ∃ u, gatherMain1 b (c.arrOf g.er) (c.arrOf g.ez) (c.arrOf g.bt) x y xi v = .ok u ∧ u.ez = v.ez + E := by
  refine ⟨g.ez (k + 2) 2 + (xi - b.zNode (k + 2)) / b.dz * (g.ez (k + 3) 2 - g.ez (k + 2) 2), fun x y hxy hr v => ?_⟩
  have hin := has_near hb (by omega : k + 1 < c.nXi) hJ hr hz1 hz2
  have hr0 : √(x ^ 2 + y ^ 2) ≠ 0 := by
    intro h
    rw [Real.sqrt_eq_zero (by positivity)] at h
    exact hxy ⟨by nlinarith, by nlinarith⟩
  have hon : ∀ F, OnGrid (c.arrOf F) c.nXi c.nR := fun F => ⟨rfl, rfl⟩
  have hsome : ∀ sg F, ∃ u, cellInterp b sg (c.arrOf F) (√(x ^ 2 + y ^ 2)) xi = some u := by
    intro sg F
    obtain ⟨_, _, _, _, _, _, _, _, _, _, _, hc⟩ := cellInterp_eq hb sg (hon F) (Real.sqrt_nonneg _) hin
    rcases hc with ⟨-, -, -, -, -, hc⟩ | ⟨-, -, -, hc⟩ <;> exact ⟨_, hc⟩
  obtain ⟨u1, h1⟩ := hsome (-1) g.er
  obtain ⟨u2, h2⟩ := hsome (-1) g.bt
  have h3 := cellInterp_even_near hb (hon g.ez) (k := k) (J := J) (by
    intro i j hi hj1 hj2
    obtain ⟨m, rfl⟩ : ∃ m : ℕ, j = m + 2 := ⟨(j - 2).toNat, by omega⟩
    rcases hi with rfl | rfl
    · exact ez_node h hsort hdr hk1 (by omega) hJ (fun k' h1 h2 => hout k' h1 (by omega)) (by omega : m ≤ J)
    · have := ez_node h hsort hdr (by omega : 1 ≤ k + 1) (by omega) hJ (fun k' h1 h2 => hout k' (by omega) (by omega))
        (by omega : m ≤ J)
      push_cast at this
      rw [show (k : ℤ) + 1 + 2 = k + 3 by ring] at this
      exact this) hz1 hz2 (Real.sqrt_nonneg _) hr hin
  unfold gatherMain1
  dsimp only
  rw [if_neg hr0, if_pos hin, h1, h2, h3]
  exact ⟨_, rfl, rfl⟩

/-! ### An instance -/

/-- A box with five slices and five cells of size one, and a plasma ring that stays at a radius of ten. -/
noncomputable def cavityQS : QS where
  n := 1
  r0 _ := 10
  q _ := 1
  rMaxP := 11
  drP := 1
  pc := 0
  nXi := 5
  nR := 5
  xiMin := 0
  dxi := 1
  dr := 1
  maxGamma := 1
  pShape := "cubic"
  argsort _ i := i

theorem cavity_stays (s : Sources) (g : Grids) (m : ℕ) (st : PState × Grids)
    (h : cavityQS.loop .ab5 s (cavityQS.startState, g) m = some st) (i : ℕ) :
    (st.1.ps i).x.r = 10 ∧ (st.1.ps i).d2.r = 0 ∧ (st.1.ps i).d3.r = 0 ∧ (st.1.ps i).d4.r = 0 ∧ (st.1.ps i).d5.r = 0 ∧
    (st.1.o1 i).a2 = 0 := by
  induction m generalizing st i with
  | zero =>
    obtain rfl := Option.some.inj h
    exact ⟨rfl, rfl, rfl, rfl, rfl, rfl⟩
  | succ m ih =>
    rw [loop, Option.bind_eq_bind, Option.bind_eq_some_iff] at h
    obtain ⟨st0, h0, h1⟩ := h
    replace ih := ih st0 h0
    unfold slice at h1
    dsimp only at h1
    rw [Option.bind_eq_bind, Option.bind_eq_some_iff] at h1
    obtain ⟨⟨x, f, g'⟩, hcol, h1⟩ := h1
    dsimp only at h1
    have key : ∀ i, x i = ⟨10, 0⟩ ∧ (f i).src.a2 = 0 := by
      intro i
      unfold column at hcol
      simp only [Option.bind_eq_bind, Option.bind_eq_some_iff] at hcol
      obtain ⟨src, hsrc, f0, hf0, row, -, hcol⟩ := hcol
      obtain ⟨rfl, h'⟩ := Prod.mk.inj (Option.some.inj hcol)
      obtain ⟨rfl, -⟩ := Prod.mk.inj h'
      dsimp only
      have hs : src i = st0.1.o1 i := by
        unfold gather at hsrc
        dsimp only at hsrc
        split_ifs at hsrc
        rw [← Option.some.inj hsrc]
        have : ¬cavityQS.box.Has (st0.1.ps i).x.r (cavityQS.xi (cavityQS.nXi - m - 1)) := by
          rw [(ih i).1]
          rintro ⟨-, -, h⟩
          have : (10 : ℝ) ≤ (((5 : ℕ) : ℝ) - 1 / 2) * 1 := h
          norm_num at this
        unfold gatherSources1
        dsimp only
        rw [if_neg this]
        rfl
      unfold atParticles at hf0
      dsimp only at hf0
      rw [Option.map_eq_some_iff] at hf0
      obtain ⟨res, -, rfl⟩ := hf0
      dsimp only
      rw [hs, (ih i).2.2.2.2.2]
      refine ⟨?_, rfl⟩
      rw [(ih i).1]
      congr 1
      unfold slowDown
      rw [if_pos]
      unfold updateGamma
      dsimp only
      generalize hψ : scatter cavityQS.n _ _ i = ψ
      have hψ' : -(9 / 10) ≤ ψ := by
        rw [← hψ]
        unfold scatter
        split_ifs
        · unfold Slice.psi
          split_ifs with h
          · exact le_rfl
          · exact not_lt.mp h
        · norm_num
      show (1 : ℝ) ≤ _
      rw [le_div_iff₀ (by linarith)]
      nlinarith [sq_nonneg ψ, sq_nonneg (st0.1.ps i).x.pr]
    obtain ⟨-, i2, i3, i4, i5, -⟩ := ih i
    obtain ⟨k1, k2⟩ := key i
    split_ifs at h1
    · obtain rfl := Option.some.inj h1
      exact ⟨by dsimp only; rw [k1], i2, i3, i4, i5, k2⟩
    · obtain rfl := Option.some.inj h1
      have hp : ∀ F : PFields, (ab5Push cavityQS.dxi F { st0.1.ps i with x := x i }) =
          ⟨⟨10, applyAb5 0 cavityQS.dxi (derivs F 0).pr (st0.1.ps i).d2.pr (st0.1.ps i).d3.pr (st0.1.ps i).d4.pr (st0.1.ps i).d5.pr⟩,
            derivs F 0, (st0.1.ps i).d2, (st0.1.ps i).d3, (st0.1.ps i).d4⟩ := by
        intro F
        unfold ab5Push
        dsimp only
        rw [k1]
        dsimp only
        rw [i2, i3, i4, i5]
        congr 2
        unfold applyAb5 derivs
        ring
      unfold evolveAb5
      dsimp only
      rw [hp, if_neg (by norm_num)]
      refine ⟨rfl, ?_, i2, i3, i4, k2⟩
      show 0 / _ = (0 : ℝ)
      exact zero_div _

theorem cavity_blown (L : ℕ → ℕ → ℝ) (B : List (List (Deposition.Part ℝ))) (f : Fld) (k : ℕ) {R : ℝ} (hR : R ≤ 10) :
    cavityQS.Blown "ab5" L B f k R := by
  refine ⟨hR.trans (by norm_num [cavityQS]), ?_⟩
  rintro r ⟨b, p, st, -, hp, hst, rfl⟩ i -
  rcases hp with ⟨-, rfl⟩ | ⟨hp, -⟩
  · rw [show (fun i => (st.1.ps i).x.r) i = 10 from (cavity_stays _ _ _ _ hst i).1]
    exact hR
  · exact absurd hp (by decide)

/-- The box of the instance, with a skin depth of two metres. -/
noncomputable def cavityBox : Box := ⟨0, 8, 1, 9, 2, 2⟩

/-- A particle at a distance of one metre and a half from the axis in the instance, with any laser and any bunches. -/
example (L : ℕ → ℕ → ℝ) (B : List (List (Deposition.Part ℝ))) (v : Fields.EB ℝ) :
    ∃ g u E, cavityQS.calculate "ab5" L B 3 1 ⟨fun _ _ => 0, fun _ _ => 0, fun _ _ => 0, fun _ _ => 0, fun _ _ => 0⟩ = .ok g ∧
      gatherMain1 cavityBox (cavityQS.arrOf g.er) (cavityQS.arrOf g.ez) (cavityQS.arrOf g.bt) (3 / 2) 0 3 v = .ok u ∧
      u.ex - 1 * u.b_y = v.ex - 1 * v.b_y + 3 / (2 * 2) * (3 / 2) ∧ u.ez = v.ez + E := by
  obtain ⟨g, hg⟩ := total (c := cavityQS) (by norm_num [cavityQS]) (by norm_num [cavityQS]) (fun _ _ => by norm_num [cavityQS])
    "ab5" (Or.inl rfl) (Or.inr rfl) L B 3 1 ⟨fun _ _ => 0, fun _ _ => 0, fun _ _ => 0, fun _ _ => 0, fun _ _ => 0⟩
  have hsort : ∀ r, Sorts cavityQS.n r (cavityQS.argsort r) := fun r =>
    ⟨fun k hk => hk, fun k _ l _ h => h, fun k l hkl hl => by
      have : l < 1 := hl
      obtain rfl : l = 0 := by omega
      obtain rfl : k = 0 := by omega
      exact le_rfl⟩
  have hb : cavityBox.IsGrid cavityQS.nXi cavityQS.nR := by
    constructor <;> norm_num [cavityBox, cavityQS]
  have hr : √((3 / 2 : ℝ) ^ 2 + 0 ^ 2) ≤ cavityBox.rNode ((1 : ℕ) + 2) := by
    rw [show (3 / 2 : ℝ) ^ 2 + 0 ^ 2 = (3 / 2) ^ 2 by ring, Real.sqrt_sq (by norm_num)]
    norm_num [cavityBox, Box.rNode]
  have hz1 : cavityBox.zNode ((1 : ℕ) + 2) ≤ 3 := by norm_num [cavityBox, Box.zNode]
  have hz2 : 3 ≤ cavityBox.zNode ((1 : ℕ) + 3) := by norm_num [cavityBox, Box.zNode]
  have hxy : ¬((3 / 2 : ℝ) = 0 ∧ (0 : ℝ) = 0) := by norm_num
  obtain ⟨u, h1, h2, -, -⟩ := cavity_force (c := cavityQS) (k := 1) (J := 1) (s := 2) hg hsort rfl hb (by norm_num)
    (by norm_num [cavityBox, cavityQS]) (by decide) le_rfl (by decide)
    (fun k' _ => cavity_blown _ _ _ _ (by norm_num [cavityQS])) hxy hr hz1 hz2 v
  obtain ⟨E, hE⟩ := cavity_acceleration (c := cavityQS) (k := 1) (J := 1) hg hsort (by norm_num [cavityQS]) hb le_rfl (by decide)
    (by decide) (fun k' _ _ => cavity_blown _ _ _ _ (by norm_num [cavityQS])) hz1 hz2
  obtain ⟨u', h3, h4⟩ := hE (3 / 2) 0 hxy hr v
  rw [h1] at h3
  obtain rfl : u = u' := Except.ok.inj h3
  exact ⟨g, u, E, hg, h1, h2, h4⟩

end WakeT.Plasma.QS
