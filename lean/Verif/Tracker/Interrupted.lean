import Verif.Tracker.Exact

/-! # Quantities that are almost conserved when steps are interrupted (C186) -/

set_option linter.unusedSectionVars false

namespace WakeT.Tracker

variable {K F σ : Type} [Field K] [LinearOrder K] [IsStrictOrderedRing K] [LinearOrder F]

/-- Number of shortened steps until output `j`: one before each output (if the bunches are pushed before the
outputs), and one at the end. -/
def Cfg.cuts (c : Cfg K F σ) (j : ℕ) : ℕ := if c.pushBeforeDiags then j + 1 else 1

/-- Shortened steps so far. -/
structure Cut (c : Cfg K F σ) (d μ A : K) (V : σ → Prop) (B : σ → K) (s : St K σ) : Prop where
  le : s.dt 0 ≤ d
  dt : s.dt 0 = d ∨ s.t 0 + s.dt 0 = c.tFinal ∨ s.t 0 = c.tFinal
  valid : V s.w
  bound : B s.w * μ ^ ((if c.pushBeforeDiags then s.snaps.length - 1 else 0) + (if s.t 0 = c.tFinal then 1 else 0)) ≤ A
  snap : ∀ j w, s.snaps[j]? = some w → B w * μ ^ c.cuts j ≤ A
  pos : 1 ≤ s.snaps.length

/-- A quantity that full steps of a bunch do not increase, and shortened steps increase by at most the factor `1 / μ`. -/
theorem interrupted {c : Cfg K F σ} {d μ A : K} {V : σ → Prop} {B : σ → K} (hp : c.Positive) (hm : StrictMono c.f32)
    (h1 : c.nBunch = 1) (hd : c.dtBunch 0 = some d) (hμ0 : 0 ≤ μ) (hμ1 : μ ≤ 1) (hB : ∀ w, V w → 0 ≤ B w)
    (hV : ∀ w t h, V w → V (c.evolve w 0 t h)) (hfull : ∀ w t, V w → B (c.evolve w 0 t d) ≤ B w)
    (hshort : ∀ w t h, V w → 0 ≤ h → h ≤ d → B (c.evolve w 0 t h) * μ ≤ B w)
    (hu : ∀ w j, c.updateF w j = w)
    {w : σ} (hw : V w) (hA : B w ≤ A) {fuel : ℕ} {s : St K σ} (h : doTracking c fuel w = .returned s) :
    ∀ j w', s.snaps[j]? = some w' → V w' → B w' * μ ^ c.cuts j ≤ A := by
  obtain ⟨hn, ho, hr⟩ := doTracking_returned h
  have h0 : 0 < c.nBunch := by omega
  have h00 : 0 < c.nObj := by unfold Cfg.nObj; omega
  have hini : ∀ n, (initFields c n (blank w)).w = w := by
    intro n
    induction n with
    | zero => rfl
    | succ n ih =>
      show c.updateF (initFields c n (blank w)).w n = w
      rw [hu, ih]
  have hpow : ∀ {x : K} {a b : ℕ}, 0 ≤ x → a ≤ b → x * μ ^ b ≤ x * μ ^ a := fun hx hab =>
    mul_le_mul_of_nonneg_left (pow_le_pow_of_le_one hμ0 hμ1 hab) hx
  have hstart : Cut c d μ A V B (start c w) := by
    have hsn : (start c w).snaps = [w] := by
      show (initFields c c.nField (blank w)).snaps ++ [(initFields c c.nField (blank w)).w] = [w]
      rw [hini, initFields_snaps]
      rfl
    have hw' : (start c w).w = w := hini _
    have hdt : (start c w).dt 0 = d := by
      rw [start_dt]
      unfold Cfg.dt0
      rw [if_pos h0, hd]
    refine ⟨hdt.le, Or.inl hdt, hw'.symm ▸ hw, ?_, fun j w' hj => ?_, by rw [start_snaps]⟩
    · rw [hw']
      exact (hpow (hB w hw) (Nat.zero_le _)).trans (by simpa using hA)
    · rw [hsn] at hj
      cases j with
      | zero =>
        have : w = w' := by simpa using hj
        rw [← this]
        exact (hpow (hB w hw) (Nat.zero_le _)).trans (by simpa using hA)
      | succ j => simp at hj
  have key := run_induction (fun s => InvX c 0 s ∧ Cut c d μ A V B s) ?_ fuel (start c w) s
    ⟨invX_start hp.bounded hp w, hstart⟩ hr
  · intro j w' hj _
    exact key.1.2.snap j w' hj
  · rintro s s' ⟨hX, hC⟩ hs
    refine ⟨invX_step hp.bounded hp hm ho s s' hX hs, ?_⟩
    obtain ⟨i, hi, hmin, -, hle, rfl⟩ := step_some hs ho
    have hT : s.t i + s.dt i ≤ c.tFinal := hm.le_iff_le.mp hle
    have hdp := hX.dtpos 0 h00
    -- one push of the bunch
    have push : ∀ (b : Bool) (tn h : K), 0 ≤ h → h ≤ s.dt 0 → tn = s.t 0 + h → tn ≤ c.tFinal →
        (evolveBunch c b s 0 (s.t 0) tn h).dt 0 ≤ d ∧
        ((evolveBunch c b s 0 (s.t 0) tn h).dt 0 = d ∨
          tn + (evolveBunch c b s 0 (s.t 0) tn h).dt 0 = c.tFinal ∨ tn = c.tFinal) := by
      intro b tn h hh hh' htn htF
      have hself := evolveBunch_dt_self c b s 0 (s.t 0) tn h
      simp only [hd] at hself
      rcases hself with ⟨e, e'⟩ | ⟨e, -, e'⟩
      · rw [e]
        refine ⟨hC.le, ?_⟩
        rcases hC.dt with g | g | g
        · exact Or.inl g
        · right
          rcases e' with e' | e'
          · exact Or.inr (hm.injective e')
          · left
            linarith
        · right; right
          linarith
      · rw [e]
        exact ⟨by linarith [hC.le], Or.inr (Or.inl (by ring))⟩
    by_cases hb : i < c.nBunch
    · obtain rfl : i = 0 := by omega
      rw [advance_bunch c s hb]
      obtain ⟨p1, p2⟩ := push false (s.t 0 + s.dt 0) (s.dt 0) hdp.le le_rfl rfl hT
      have et : (evolveBunch c false s 0 (s.t 0) (s.t 0 + s.dt 0) (s.dt 0)).t 0 = s.t 0 + s.dt 0 := by simp
      refine ⟨p1, by rw [et]; exact p2, hV _ _ _ hC.valid, ?_, by simpa using hC.snap, by simpa using hC.pos⟩
      rw [et, evolveBunch_snaps]
      show B (c.evolve s.w 0 (s.t 0) (s.dt 0)) * _ ≤ A
      have hne : s.t 0 ≠ c.tFinal := by linarith
      have hbound := hC.bound
      rw [if_neg hne, add_zero] at hbound
      generalize (if c.pushBeforeDiags = true then s.snaps.length - 1 else 0) = m at hbound ⊢
      have hpm : 0 ≤ μ ^ m := pow_nonneg hμ0 _
      by_cases hdd : s.dt 0 = d
      · have e1 := hfull s.w (s.t 0) hC.valid
        rw [hdd]
        calc B (c.evolve s.w 0 (s.t 0) d) * μ ^ (m + _) ≤ B (c.evolve s.w 0 (s.t 0) d) * μ ^ m :=
              hpow (hB _ (hV _ _ _ hC.valid)) (Nat.le_add_right _ _)
          _ ≤ B s.w * μ ^ m := mul_le_mul_of_nonneg_right e1 hpm
          _ ≤ A := hbound
      · have hF : s.t 0 + s.dt 0 = c.tFinal := by
          rcases hC.dt with g | g | g
          · exact absurd g hdd
          · exact g
          · exact absurd g hne
        have e1 := hshort s.w (s.t 0) (s.dt 0) hC.valid hdp.le hC.le
        rw [if_pos hF]
        calc B (c.evolve s.w 0 (s.t 0) (s.dt 0)) * μ ^ (m + 1) = B (c.evolve s.w 0 (s.t 0) (s.dt 0)) * μ * μ ^ m := by ring
          _ ≤ B s.w * μ ^ m := mul_le_mul_of_nonneg_right e1 hpm
          _ ≤ A := hbound
    · by_cases hf : i < c.nBunch + c.nField
      · have hi0 : (0 : ℕ) ≠ i := by omega
        rw [advance_field c s hb hf]
        have et : Function.update s.t i (s.t i + s.dt i) 0 = s.t 0 := Function.update_of_ne hi0 _ _
        refine ⟨hC.le, ?_, ?_, ?_, hC.snap, hC.pos⟩
        · show _ ∨ Function.update s.t i (s.t i + s.dt i) 0 + _ = _ ∨ Function.update s.t i (s.t i + s.dt i) 0 = _
          rw [et]
          exact hC.dt
        · show V (c.updateF s.w _)
          rw [hu]
          exact hC.valid
        · show B (c.updateF s.w _) * μ ^ (_ + if Function.update s.t i (s.t i + s.dt i) 0 = c.tFinal then 1 else 0) ≤ A
          rw [hu, et]
          exact hC.bound
      · have hi0 : (0 : ℕ) ≠ i := by omega
        rw [advance_diag c s hb hf]
        set T := s.t i + s.dt i with hTdef
        have hT0 : s.t 0 ≤ T := hX.ahead 0 h00 i hi
        have hT1 : T ≤ s.t 0 + s.dt 0 := hm.le_iff_le.mp (hmin 0 h00)
        unfold beforeDiag
        by_cases hpb : c.pushBeforeDiags = true
        · rw [if_pos hpb, h1]
          have eP : pushAll c T 1 s = evolveBunch c true s 0 (s.t 0) T (T - s.t 0) := rfl
          rw [eP]
          obtain ⟨p1, p2⟩ := push true T (T - s.t 0) (by linarith) (by linarith) (by ring) hT
          set s1 := evolveBunch c true s 0 (s.t 0) T (T - s.t 0) with hs1
          have et : s1.t 0 = T := by rw [hs1, evolveBunch_t, Function.update_self]; ring
          have ew : s1.w = c.evolve s.w 0 (s.t 0) (T - s.t 0) := rfl
          have esn : s1.snaps = s.snaps := rfl
          have hv1 : V s1.w := by rw [ew]; exact hV _ _ _ hC.valid
          have et' : Function.update s1.t i T 0 = T := by rw [Function.update_of_ne hi0, et]
          have e1 := hshort s.w (s.t 0) (T - s.t 0) hC.valid (by linarith) (by linarith [hC.le])
          rw [← ew] at e1
          have hbound := hC.bound
          rw [if_pos hpb] at hbound
          have hpos := hC.pos
          have main : ∀ k, s.snaps.length + (if s.t 0 = c.tFinal then 1 else 0) ≤ k → B s1.w * μ ^ k ≤ A := by
            intro k hk
            calc B s1.w * μ ^ k ≤ B s1.w * μ ^ (s.snaps.length - 1 + (if s.t 0 = c.tFinal then 1 else 0) + 1) :=
                  hpow (hB _ hv1) (by omega)
              _ = B s1.w * μ * μ ^ (s.snaps.length - 1 + (if s.t 0 = c.tFinal then 1 else 0)) := by ring
              _ ≤ B s.w * μ ^ (s.snaps.length - 1 + (if s.t 0 = c.tFinal then 1 else 0)) :=
                  mul_le_mul_of_nonneg_right e1 (pow_nonneg hμ0 _)
              _ ≤ A := hbound
          refine ⟨p1, ?_, hv1, ?_, fun j w' hj => ?_, ?_⟩
          · show s1.dt 0 = d ∨ Function.update s1.t i T 0 + s1.dt 0 = _ ∨ Function.update s1.t i T 0 = _
            rw [et']
            exact p2
          · show B s1.w * μ ^ ((if c.pushBeforeDiags = true then (s1.snaps ++ [s1.w]).length - 1 else 0) +
              if Function.update s1.t i T 0 = c.tFinal then 1 else 0) ≤ A
            rw [if_pos hpb, et', esn, List.length_append]
            refine main _ ?_
            have : s.t 0 = c.tFinal → T = c.tFinal := fun e => le_antisymm hT (e ▸ hT0)
            simp only [List.length_cons, List.length_nil]
            split_ifs <;> first | omega | (exfalso; tauto)
          · have hj : (s1.snaps ++ [s1.w])[j]? = some w' := hj
            rw [esn] at hj
            rcases lt_or_ge j s.snaps.length with hjl | hjl
            · rw [List.getElem?_append_left hjl] at hj
              exact hC.snap j w' hj
            · rw [List.getElem?_append_right hjl] at hj
              have hj0 : j - s.snaps.length = 0 := by
                by_contra hne
                rw [List.getElem?_eq_none (by simp; omega)] at hj
                cases hj
              rw [hj0] at hj
              have : s1.w = w' := by simpa using hj
              rw [← this]
              unfold Cfg.cuts
              rw [if_pos hpb]
              refine main _ ?_
              split_ifs <;> omega
          · show 1 ≤ (s1.snaps ++ [s1.w]).length
            simp
        · rw [if_neg hpb]
          have et' : Function.update s.t i T 0 = s.t 0 := Function.update_of_ne hi0 _ _
          have hbound := hC.bound
          rw [if_neg hpb, zero_add] at hbound
          refine ⟨hC.le, ?_, hC.valid, ?_, fun j w' hj => ?_, ?_⟩
          · show s.dt 0 = d ∨ Function.update s.t i T 0 + s.dt 0 = _ ∨ Function.update s.t i T 0 = _
            rw [et']
            exact hC.dt
          · show B s.w * μ ^ ((if c.pushBeforeDiags = true then (s.snaps ++ [s.w]).length - 1 else 0) +
              if Function.update s.t i T 0 = c.tFinal then 1 else 0) ≤ A
            rw [if_neg hpb, et', zero_add]
            exact hbound
          · have hj : (s.snaps ++ [s.w])[j]? = some w' := hj
            rcases lt_or_ge j s.snaps.length with hjl | hjl
            · rw [List.getElem?_append_left hjl] at hj
              exact hC.snap j w' hj
            · rw [List.getElem?_append_right hjl] at hj
              have hj0 : j - s.snaps.length = 0 := by
                by_contra hne
                rw [List.getElem?_eq_none (by simp; omega)] at hj
                cases hj
              rw [hj0] at hj
              have : s.w = w' := by simpa using hj
              rw [← this]
              unfold Cfg.cuts
              rw [if_neg hpb]
              refine (hpow (hB _ hC.valid) ?_).trans hbound
              split_ifs <;> omega
          · show 1 ≤ (s.snaps ++ [s.w]).length
            simp

end WakeT.Tracker
