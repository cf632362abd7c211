import Verif.Plasma.SolverProps
import Verif.Plasma.ColdFluidProps

/-! # Causality of the susceptibility (C146)

With the linear shape the plasma of a slice does not write ahead of its slice, so the susceptibility
of the quasistatic model in a slice depends on this slice and the slices ahead of it only. -/

set_option linter.unusedSectionVars false

namespace WakeT.Plasma

open WakeT.Interp WakeT.Base WakeT.Util WakeT.Deposition

theorem plasmaLinear_own (zCell rMin : ℝ) (nz nr : ℕ) (dr : ℝ) (p : PRing ℝ) :
    ∀ w ∈ plasmaLinear zCell rMin nz nr dr p, w.i ≤ ⌈zCell⌉ + 2 := by
  intro w hw
  unfold plasmaLinear at hw
  by_cases h : p.r ≤ nr * dr
  · rw [if_pos h] at hw
    simp only [List.mem_cons, List.not_mem_nil, or_false] at hw
    rcases hw with rfl | rfl | rfl | rfl <;> dsimp only <;> omega
  · rw [if_neg h] at hw; cases hw

theorem depositLinear_rows (k : ℕ) (rMin : ℝ) (nz nr : ℕ) (dr : ℝ) (ps : List (PRing ℝ)) (a : ℤ → ℤ → ℝ) (l j : ℤ)
    (hl : (k : ℤ) + 2 < l) : depositPlasma "linear" (k : ℝ) rMin nz nr dr ps a l j = a l j := by
  unfold depositPlasma
  rw [if_pos rfl]
  induction ps generalizing a with
  | nil => rfl
  | cons p ps ih =>
    rw [List.foldl_cons, ih, foldl_addAt, effect_zero, add_zero]
    intro w hw e
    have := plasmaLinear_own _ _ _ _ _ p w hw
    rw [Int.ceil_natCast] at this
    omega

namespace QS
variable {c : QS}

theorem column_keeps_chi (hs : c.pShape = "linear") {s : Sources} {k : ℕ} {x : ℕ → RP} {old : ℕ → Src} {g : Grids}
    {y : ℕ → RP} {f : ℕ → AtPart} {g' : Grids} (h : c.column s k x old g = some (y, f, g')) (l j : ℤ) (hl : (k : ℤ) + 2 < l) :
    g'.chi l j = g.chi l j := by
  unfold column at h
  simp only [Option.bind_eq_bind, Option.bind_eq_some_iff] at h
  obtain ⟨src, -, f0, -, row, -, h⟩ := h
  have h' := Option.some.inj h
  obtain rfl : _ = g' := congrArg (fun z => z.2.2) h'
  dsimp only
  rw [hs]
  exact depositLinear_rows _ _ _ _ _ _ _ _ _ hl

theorem loop_keeps_chi (hs : c.pShape = "linear") {p : Pusher} {s : Sources} {st : PState × Grids} (m d : ℕ)
    (hm : m + d ≤ c.nXi) {st' : PState × Grids} (h : c.loop p s st (m + d) = some st') :
    ∃ st1, c.loop p s st m = some st1 ∧ ∀ l j : ℤ, (c.nXi : ℤ) + 2 ≤ l + m → st'.2.chi l j = st1.2.chi l j := by
  induction d generalizing st' with
  | zero => exact ⟨st', h, fun _ _ _ => rfl⟩
  | succ d ih =>
    rw [← Nat.add_assoc, loop, Option.bind_eq_bind, Option.bind_eq_some_iff] at h
    obtain ⟨st2, h2, h3⟩ := h
    obtain ⟨st1, e1, e3⟩ := ih (by omega) h2
    obtain ⟨x, f, hcol⟩ := slice_grids h3
    refine ⟨st1, e1, fun l j hl => ?_⟩
    rw [column_keeps_chi hs hcol l j (by omega)]
    exact e3 l j hl

theorem loop_causal_chi (hd : 0 < c.dxi) (hs : c.pShape = "linear") (p : Pusher) {s s' : Sources} (i : ℕ) (hi : i < c.nXi)
    (h : SAgree ((i : ℤ) + 2) s s') (st : PState × Grids) {r r' : PState × Grids}
    (e : c.loop p s st c.nXi = some r) (e' : c.loop p s' st c.nXi = some r') (l j : ℤ) (hl : (i : ℤ) + 2 ≤ l) :
    r'.2.chi l j = r.2.chi l j := by
  have hsplit : c.nXi = (c.nXi - 1 - i + 1) + i := by omega
  rw [hsplit] at e e'
  obtain ⟨t, ht, h2⟩ := loop_keeps_chi hs (c.nXi - 1 - i + 1) i (by omega) e
  obtain ⟨t', ht', h2'⟩ := loop_keeps_chi hs (c.nXi - 1 - i + 1) i (by omega) e'
  have hg : t'.2 = t.2 := by
    rw [loop, Option.bind_eq_bind, Option.bind_eq_some_iff] at ht ht'
    obtain ⟨q, hq, hs⟩ := ht
    obtain ⟨q', hq', hs'⟩ := ht'
    rw [loop_agree hd p i h st _ (by omega), hq] at hq'
    obtain rfl := Option.some.inj hq'
    have hidx : c.nXi - (c.nXi - 1 - i) - 1 = i := by omega
    rw [hidx] at hs hs'
    obtain ⟨x, f, hc⟩ := slice_grids hs
    obtain ⟨x', f', hc'⟩ := slice_grids hs'
    rw [column_agree hd i h, hc] at hc'
    exact (congrArg (fun z => z.2.2) (Option.some.inj hc')).symm
  rw [h2 l j (by omega), h2' l j (by omega), hg]

/-- With the linear shape the susceptibility in slice `i` and ahead of it depends on the laser there, and on the beam
particles there (less two cells), only. -/
theorem causal_chi (hd : 0 < c.dxi) (hs : c.pShape = "linear") (pusher : String) (i : ℕ) {L L' : ℕ → ℕ → ℝ}
    {B B' : List (List (Deposition.Part ℝ))} (hL : c.SameLaserAhead i L L') (hB : c.SameBeamAhead i B B') (e0 cc : ℝ) (f : Fld)
    {r r' : Fld} (h : c.calculateField pusher L B e0 cc f = .ok r) (h' : c.calculateField pusher L' B' e0 cc f = .ok r')
    (k : ℕ) (j : ℤ) (hk : i ≤ k) (hkn : k < c.nXi) : r'.chi (k + 2) j = r.chi (k + 2) j := by
  obtain ⟨b, g, hb, hg, rfl⟩ := calculate_ok h
  obtain ⟨b', g', hb', hg', rfl⟩ := calculate_ok h'
  have hbb := fun k j hk => beamField_ahead hd i hB hb hb' k j hk
  have hS := sources_agree i hL hbb
  obtain ⟨p, st, e, rfl, hp⟩ := evolve_ok hg
  obtain ⟨p', st', e', rfl, hp'⟩ := evolve_ok hg'
  obtain rfl : p' = p := by
    rcases hp with ⟨a, rfl⟩ | ⟨a, rfl⟩ <;> rcases hp' with ⟨a', rfl⟩ | ⟨a', rfl⟩ <;>
      first | rfl | exact absurd a a' | exact absurd a' a
  exact loop_causal_chi hd hs p' i (by omega) hS _ e e' _ _ (by omega)

end QS

end WakeT.Plasma
