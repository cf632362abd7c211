import Verif.Push.Exact
import Verif.Tracker.Converge

/-! # Order of tracking with each pusher (C143, C144, C145) -/

set_option linter.unusedSectionVars false

namespace WakeT.FieldElement

open Tracker Bunch
open Push (PField Sched Ph Slow Const Near Smooth Trajectory ContDiffFields OrderStep)

variable {F Φ : Type} [LinearOrder F]

theorem pack_inj {α : Type} {l l' : List (List α)} (h : pack l = pack l') : l = l' := by
  match l, l' with
  | [], [] => rfl
  | [], [_] => cases h
  | [], _ :: _ :: _ => cases h
  | [_], [] => cases h
  | [_], [_] => cases h; rfl
  | [_], _ :: _ :: _ => cases h
  | _ :: _ :: _, [] => cases h
  | _ :: _ :: _, [_] => cases h
  | _ :: _ :: _, _ :: _ :: _ => cases h; rfl

/-- All particles of the bunch `b` follow the trajectories `z` up to `ε`, in all outputs of an element. -/
def Accurate (bunches : OneOrMany Bunch) (r : OneOrMany (List Bunch)) (nOut : ℕ) (b : Bunch) (T : ℝ) (z : ℕ → ℝ → Ph) (ε : ℝ) : Prop :=
  ∃ ls : List (List Bunch), r = pack ls ∧ ls.length = bunches.toList.length ∧ ∀ i : ℕ, bunches.toList[i]? = some b →
    ∃ l : List Bunch, ls[i]? = some l ∧ l.length = nOut + 1 ∧ ∀ p < b.n, ∀ j ≤ nOut, ∃ b', l[j]? = some b' ∧ b'.n = b.n ∧
      Near ε (b'.ph p) (z p (j * (T / nOut)))

/-- The element with the steps that `track_order` and its consequences are about: the fields are `fields`, all steps are at most `D`. -/
structure Through (e : Elem F Φ) (c T : ℝ) (fields : List PField) (D : ℝ) : Prop where
  ok : e.Ok
  f32 : StrictMono e.f32
  sch : ∀ n, (e.sch n).Valid n
  push : e.pushBefore = true
  light : e.c = c
  length : e.length = c * T
  felt : ∀ φ, e.felt φ = fields
  D0 : 0 ≤ D
  fixed : ∀ d, some d ∈ e.dtBunch.toList → d ≤ D
  auto : none ∈ e.dtBunch.toList → ∀ b, e.autoDt b ≤ D

theorem track_order {c T : ℝ} (hc : 0 < c) {fields : List PField} (b : Bunch) {z : ℕ → ℝ → Ph} {pusher : String} {n : ℕ}
    (hp : pusher = "rk4" ∨ pusher = "boris") (hz0 : ∀ p, z p 0 = b.ph p) (hb : b.Fits) (hzi : b.zInjection = none)
    (hstep : ∀ p, OrderStep ⟨c, b.qSpecies, b.mSpecies⟩ T (z p) n (stepOf pusher ⟨c, b.qSpecies, b.mSpecies⟩ fields)) :
    ∃ C, 0 ≤ C ∧ ∀ (e : Elem F Φ) (D : ℝ), Through e c T fields D → e.pusher = pusher →
      ∀ opmd fuel bunches b0 φ r w, e.track opmd fuel bunches b0 φ = .returned (r, w) → Accurate bunches r e.nOut b T z (C * D ^ n) := by
  choose C Γ hC hΓ hs using hstep
  have hK : ∀ p, 0 ≤ C p * |T| * Real.exp (Γ p * |T|) := fun p => by
    have := hC p
    positivity
  refine ⟨∑ p ∈ Finset.range b.n, C p * |T| * Real.exp (Γ p * |T|), Finset.sum_nonneg fun p _ => hK p, ?_⟩
  intro e D h he opmd fuel bunches b0 φ r w hr
  have key := fun p => track_error (q := b.qSpecies) (m := b.mSpecies) (T := T) (D := D) (z := z p) (err := Order.err (C p) (Γ p) D n) hc
    (by rw [Order.err_zero]) h.ok h.f32 h.sch h.push (he ▸ hp) h.light h.length h.felt h.D0 h.fixed h.auto
    (fun t dt q ht hdt hdD htT s1 s2 => by rw [he]; exact hs p D t dt q ht hdt hdD htT s1 s2) hr
  obtain ⟨ls, h1, h2, -⟩ := key 0
  refine ⟨ls, h1, h2, fun i hi => ?_⟩
  have hl : ∀ p, ∃ l : List Bunch, ls[i]? = some l ∧ l.length = e.nOut + 1 ∧ (p < b.n → ∀ j ≤ e.nOut, ∃ b', l[j]? = some b' ∧ b'.n = b.n ∧
      0 ≤ (j : ℝ) * (T / e.nOut) ∧ (j : ℝ) * (T / e.nOut) ≤ T ∧
      Near (Order.err (C p) (Γ p) D n (j * (T / e.nOut))) (b'.ph p) (z p (j * (T / e.nOut)))) := by
    intro p
    obtain ⟨ls', g1, -, g3⟩ := key p
    obtain rfl : ls = ls' := pack_inj (h1.symm.trans g1)
    obtain ⟨l, k1, k2, k3⟩ := g3 i b hi hb hzi rfl rfl
    exact ⟨l, k1, k2, fun hpn j hj => k3 p hpn (hz0 p).symm j hj⟩
  obtain ⟨l, hl1, hl2, -⟩ := hl 0
  refine ⟨l, hl1, hl2, fun p hpn j hj => ?_⟩
  obtain ⟨l', g1, -, g3⟩ := hl p
  obtain rfl : l = l' := Option.some.inj (hl1.symm.trans g1)
  obtain ⟨b', k1, k2, k3, k4, k5⟩ := g3 hpn j hj
  refine ⟨b', k1, k2, k5.mono ((Order.err_le (hC p) (hΓ p) h.D0 k3 (k4.trans (le_abs_self T))).trans ?_)⟩
  exact mul_le_mul_of_nonneg_right (Finset.single_le_sum (fun p _ => hK p) (Finset.mem_range.2 hpn)) (pow_nonneg h.D0 n)

/-- Tracking with the Boris pusher is accurate to second order in the time step. -/
theorem boris_second_order {c T : ℝ} (hc : 0 < c) (hT : 0 < T) {fields : List PField} (hf : ContDiffFields 2 fields) (b : Bunch) (hb : b.Fits)
    (hzi : b.zInjection = none) :
    ∃ z : ℕ → ℝ → Ph, (∀ p, z p 0 = b.ph p ∧ Trajectory ⟨c, b.qSpecies, b.mSpecies⟩ fields T (z p)) ∧
      ∃ C, 0 ≤ C ∧ ∀ (e : Elem F Φ) (D : ℝ), Through e c T fields D → e.pusher = "boris" →
        ∀ opmd fuel bunches b0 φ r w, e.track opmd fuel bunches b0 φ = .returned (r, w) → Accurate bunches r e.nOut b T z (C * D ^ 2) := by
  have hex : ∀ p, ∃ z : ℝ → Ph, z 0 = b.ph p ∧ Trajectory ⟨c, b.qSpecies, b.mSpecies⟩ fields T z := by
    intro p
    obtain ⟨M, L, hs⟩ := (hf.le (by norm_num : 1 ≤ 2)).smooth T (c * T) (b.ph p)
    exact Push.trajectory_exists (k := ⟨c, b.qSpecies, b.mSpecies⟩) hc hT.le hs
  choose z h0 hz using hex
  refine ⟨z, fun p => ⟨h0 p, hz p⟩, track_order hc b (.inr rfl) h0 hb hzi fun p => ?_⟩
  have : stepOf "boris" ⟨c, b.qSpecies, b.mSpecies⟩ fields = Push.borisStep ⟨c, b.qSpecies, b.mSpecies⟩ fields := by
    funext t dt q
    unfold stepOf
    rw [if_neg (by decide)]
  rw [this]
  exact Push.boris_order (k := ⟨c, b.qSpecies, b.mSpecies⟩) hc hT (hz p) hf

/-- Tracking with the Runge-Kutta pusher is accurate to fourth order in the time step. -/
theorem rk4_fourth_order {c T : ℝ} (hc : 0 < c) (hT : 0 < T) {fields : List PField} (hf : ContDiffFields 4 fields) (b : Bunch) (hb : b.Fits)
    (hzi : b.zInjection = none) :
    ∃ z : ℕ → ℝ → Ph, (∀ p, z p 0 = b.ph p ∧ Trajectory ⟨c, b.qSpecies, b.mSpecies⟩ fields T (z p)) ∧
      ∃ C, 0 ≤ C ∧ ∀ (e : Elem F Φ) (D : ℝ), Through e c T fields D → e.pusher = "rk4" →
        ∀ opmd fuel bunches b0 φ r w, e.track opmd fuel bunches b0 φ = .returned (r, w) → Accurate bunches r e.nOut b T z (C * D ^ 4) := by
  have hex : ∀ p, ∃ z : ℝ → Ph, z 0 = b.ph p ∧ Trajectory ⟨c, b.qSpecies, b.mSpecies⟩ fields T z := by
    intro p
    obtain ⟨M, L, hs⟩ := (hf.le (by norm_num : 1 ≤ 4)).smooth T (c * T) (b.ph p)
    exact Push.trajectory_exists (k := ⟨c, b.qSpecies, b.mSpecies⟩) hc hT.le hs
  choose z h0 hz using hex
  refine ⟨z, fun p => ⟨h0 p, hz p⟩, track_order hc b (.inl rfl) h0 hb hzi fun p => ?_⟩
  have : stepOf "rk4" ⟨c, b.qSpecies, b.mSpecies⟩ fields = Push.classicalRK4 (Push.motion ⟨c, b.qSpecies, b.mSpecies⟩ fields) := by
    funext t dt q
    unfold stepOf
    rw [if_pos rfl]
  rw [this]
  exact Push.rk4_order (k := ⟨c, b.qSpecies, b.mSpecies⟩) hc hT (hz p) hf

/-- Both pushers, with any steps, approach the only solution of the equations of motion. -/
theorem track_limit {c T : ℝ} (hc : 0 < c) (hT : 0 < T) {fields : List PField} (hf : ContDiffFields 1 fields) (b : Bunch) (hb : b.Fits)
    (hzi : b.zInjection = none) :
    ∃ z : ℕ → ℝ → Ph, (∀ p, z p 0 = b.ph p ∧ Trajectory ⟨c, b.qSpecies, b.mSpecies⟩ fields T (z p)) ∧
      (∀ z' : ℕ → ℝ → Ph, (∀ p, z' p 0 = b.ph p ∧ Trajectory ⟨c, b.qSpecies, b.mSpecies⟩ fields T (z' p)) →
        ∀ p, ∀ t ∈ Set.Icc 0 T, z' p t = z p t) ∧
      ∃ C, 0 ≤ C ∧ ∀ (e : Elem F Φ) (D : ℝ), Through e c T fields D → (e.pusher = "rk4" ∨ e.pusher = "boris") →
        ∀ opmd fuel bunches b0 φ r w, e.track opmd fuel bunches b0 φ = .returned (r, w) → Accurate bunches r e.nOut b T z (C * D) := by
  have hsm : ∀ p, ∃ M L, Smooth fields T (b.ph p) (c * T) M L := fun p => hf.smooth T (c * T) (b.ph p)
  choose M L hs using hsm
  have hex : ∀ p, ∃ z : ℝ → Ph, z 0 = b.ph p ∧ Trajectory ⟨c, b.qSpecies, b.mSpecies⟩ fields T z := fun p =>
    Push.trajectory_exists (k := ⟨c, b.qSpecies, b.mSpecies⟩) hc hT.le (hs p)
  choose z h0 hz using hex
  refine ⟨z, fun p => ⟨h0 p, hz p⟩, fun z' hz' p t ht => ?_, ?_⟩
  · exact Push.trajectory_unique (k := ⟨c, b.qSpecies, b.mSpecies⟩) hc (hs p) (hz' p).2 (hz p) (hz' p).1 (h0 p) t ht
  have hstep : ∀ pusher p, OrderStep ⟨c, b.qSpecies, b.mSpecies⟩ T (z p) 1 (stepOf pusher ⟨c, b.qSpecies, b.mSpecies⟩ fields) := by
    intro pusher p
    have hs := hs p
    rw [← h0 p] at hs
    have hA := Push.rateBound_nonneg (k := ⟨c, b.qSpecies, b.mSpecies⟩) (M := M p) hc hs.M0
    have hΛ := Push.rateLip_nonneg (k := ⟨c, b.qSpecies, b.mSpecies⟩) (M := M p) (L := L p) hc hs.M0 hs.L0
    refine ⟨2 * (Push.rateLip ⟨c, b.qSpecies, b.mSpecies⟩ (M p) (L p) * (1 + Push.rateBound ⟨c, b.qSpecies, b.mSpecies⟩ (M p))),
      Push.rateLip ⟨c, b.qSpecies, b.mSpecies⟩ (M p) (L p), by positivity, hΛ, fun D t dt q ht hdt hD htT s1 s2 => ?_⟩
    have hcons : Push.Consistent ⟨c, b.qSpecies, b.mSpecies⟩ fields T (z p 0)
        (Push.rateLip ⟨c, b.qSpecies, b.mSpecies⟩ (M p) (L p) * (1 + Push.rateBound ⟨c, b.qSpecies, b.mSpecies⟩ (M p)))
        (stepOf pusher ⟨c, b.qSpecies, b.mSpecies⟩ fields) := by
      intro t dt q
      unfold stepOf
      split_ifs
      · exact Push.rk4_consistent (k := ⟨c, b.qSpecies, b.mSpecies⟩) hc hs t dt q
      · exact Push.boris_consistent (k := ⟨c, b.qSpecies, b.mSpecies⟩) hc hs t dt q
    have he : ∀ t, Order.err (2 * (Push.rateLip ⟨c, b.qSpecies, b.mSpecies⟩ (M p) (L p) * (1 + Push.rateBound ⟨c, b.qSpecies, b.mSpecies⟩ (M p))))
        (Push.rateLip ⟨c, b.qSpecies, b.mSpecies⟩ (M p) (L p)) D 1 t = Push.errorBound ⟨c, b.qSpecies, b.mSpecies⟩ (M p) (L p) D t := by
      intro t
      unfold Order.err Push.errorBound
      rw [pow_one]
    rw [he] at s2 ⊢
    exact Push.converge_step (k := ⟨c, b.qSpecies, b.mSpecies⟩) hc (hz p) hs hcons ht hdt hD htT s1 s2
  obtain ⟨C, hC, h1⟩ := track_order (F := F) (Φ := Φ) hc b (.inl rfl) h0 hb hzi (hstep "rk4")
  obtain ⟨C', hC', h2⟩ := track_order (F := F) (Φ := Φ) hc b (.inr rfl) h0 hb hzi (hstep "boris")
  refine ⟨C + C', by positivity, fun e D h hp opmd fuel bunches b0 φ r w hr => ?_⟩
  have up : ∀ K, K ≤ C + C' → Accurate bunches r e.nOut b T z (K * D ^ 1) → Accurate bunches r e.nOut b T z ((C + C') * D) := by
    rintro K hK ⟨ls, g1, g2, g3⟩
    refine ⟨ls, g1, g2, fun i hi => ?_⟩
    obtain ⟨l, k1, k2, k3⟩ := g3 i hi
    refine ⟨l, k1, k2, fun p hpn j hj => ?_⟩
    obtain ⟨b', j1, j2, j3⟩ := k3 p hpn j hj
    refine ⟨b', j1, j2, j3.mono ?_⟩
    rw [pow_one]
    exact mul_le_mul_of_nonneg_right hK h.D0
  rcases hp with hp | hp
  · exact up C (by linarith) (h1 e D h hp opmd fuel bunches b0 φ r w hr)
  · exact up C' (by linarith) (h2 e D h hp opmd fuel bunches b0 φ r w hr)

/-- The results of two trackings of the same bunch through the same fields, with other steps, another pusher and other outputs, differ at equal times
by the steps only. -/
theorem pushers_agree {c T : ℝ} (hc : 0 < c) (hT : 0 < T) {fields : List PField} (hf : ContDiffFields 1 fields) (b : Bunch) (hb : b.Fits)
    (hzi : b.zInjection = none) :
    ∃ C, 0 ≤ C ∧ ∀ (e e' : Elem F Φ) (D D' : ℝ), Through e c T fields D → Through e' c T fields D' → (e.pusher = "rk4" ∨ e.pusher = "boris") →
      (e'.pusher = "rk4" ∨ e'.pusher = "boris") → ∀ opmd opmd' fuel fuel' b0 b0' φ φ' l l' w w',
      e.track opmd fuel (.one b) b0 φ = .returned (.one l, w) → e'.track opmd' fuel' (.one b) b0' φ' = .returned (.one l', w') →
      ∀ j ≤ e.nOut, ∀ j' ≤ e'.nOut, (j : ℝ) * (T / e.nOut) = j' * (T / e'.nOut) →
      ∃ b1 b1', l[j]? = some b1 ∧ l'[j']? = some b1' ∧ ∀ p < b.n, Near (C * (D + D')) (b1.ph p) (b1'.ph p) := by
  obtain ⟨z, -, -, C, hC, h⟩ := track_limit (F := F) (Φ := Φ) hc hT hf b hb hzi
  refine ⟨C, hC, fun e e' D D' he he' hp hp' opmd opmd' fuel fuel' b0 b0' φ φ' l l' w w' hr hr' j hj j' hj' hjj => ?_⟩
  obtain ⟨ls, g1, -, g3⟩ := h e D he hp _ _ _ _ _ _ _ hr
  obtain ⟨ls', g1', -, g3'⟩ := h e' D' he' hp' _ _ _ _ _ _ _ hr'
  have e1 : [l] = ls := pack_inj g1
  have e1' : [l'] = ls' := pack_inj g1'
  subst e1 e1'
  obtain ⟨m, k1, k2, k3⟩ := g3 0 rfl
  obtain ⟨m', k1', k2', k3'⟩ := g3' 0 rfl
  obtain rfl : l = m := Option.some.inj k1
  obtain rfl : l' = m' := Option.some.inj k1'
  have hlt : j < l.length := by omega
  have hlt' : j' < l'.length := by omega
  refine ⟨l[j], l'[j'], List.getElem?_eq_getElem hlt, List.getElem?_eq_getElem hlt', fun p hpn => ?_⟩
  obtain ⟨b1, j1, -, j3⟩ := k3 p hpn j hj
  obtain ⟨b1', j1', -, j3'⟩ := k3' p hpn j' hj'
  obtain rfl : l[j] = b1 := Option.some.inj ((List.getElem?_eq_getElem hlt).symm.trans j1)
  obtain rfl : l'[j'] = b1' := Option.some.inj ((List.getElem?_eq_getElem hlt').symm.trans j1')
  rw [← hjj] at j3'
  exact (j3.trans j3'.symm).mono (le_of_eq (by ring))

/-! ### A case -/

/-- The fields of `demoFields`, a quadrupole with a longitudinal electric field, have any number of derivatives. -/
theorem demoFields_contDiff (n : ℕ) : ContDiffFields n demoFields := by
  constructor <;> simp only [demo_felt] <;> fun_prop

/-- A bunch with two particles, off axis and on axis, and any step `D`: the tracking returns with both pushers and the last output differs from
the exact positions by at most `C D²` and `C D⁴`. -/
example (sch : ℕ → Sched) (hsch : ∀ n, (sch n).Valid n) :
    let b : Bunch := (Bunch.init 2 (fun _ => 1) (fun i => ⟨i, 0, 0, 0, 0, 3⟩) none 0 0 none none (-1) (-1) 0).1
    ∃ (z : ℕ → ℝ → Ph) (C : ℝ), (∀ p, z p 0 = b.ph p ∧ Trajectory ⟨1, -1, -1⟩ demoFields 2 (z p)) ∧ ∀ D, 0 < D → ∀ pusher order,
      (pusher = "rk4" ∧ order = 4 ∨ pusher = "boris" ∧ order = 2) →
      ∃ fuel ls w b', ({ demo sch with felt := fun _ => demoFields, dtBunch := .one (some D), pusher := pusher, numFields := [] } :
          Elem ℝ Unit).track false fuel (.one b) b () = .returned (.one ls, w) ∧ ls[2]? = some b' ∧
        ∀ p < 2, Near (C * D ^ order) (b'.ph p) (z p 2) := by
  intro b
  have hfit : b.Fits := ⟨fun _ h => (nomatch h), fun _ h => (nomatch h)⟩
  obtain ⟨z, hz, C, hC, h4⟩ := rk4_fourth_order (F := ℝ) (Φ := Unit) one_pos two_pos (demoFields_contDiff 4) b hfit rfl
  obtain ⟨z', hz', C', hC', h2⟩ := boris_second_order (F := ℝ) (Φ := Unit) one_pos two_pos (demoFields_contDiff 2) b hfit rfl
  have huniq : ∀ p, z' p 2 = z p 2 := by
    intro p
    obtain ⟨M, L, hs⟩ := (demoFields_contDiff 1).smooth 2 (1 * 2) (b.ph p)
    exact Push.trajectory_unique (k := ⟨1, b.qSpecies, b.mSpecies⟩) one_pos hs (hz' p).2 (hz p).2 (hz' p).1 (hz p).1 2 ⟨two_pos.le, le_rfl⟩
  refine ⟨z, C + C', hz, fun D hD pusher order hp => ?_⟩
  have hok : ({ demo sch with felt := fun _ => demoFields, dtBunch := .one (some D), pusher := pusher, numFields := [] } :
      Elem ℝ Unit).Ok :=
    { demo_ok sch with
      steps := by
        intro d hd
        have hd : some d = some D := List.mem_singleton.mp hd
        rw [Option.some.inj hd]
        exact hD
      fields := by intro x hx; cases hx }
  have hth : Through ({ demo sch with felt := fun _ => demoFields, dtBunch := .one (some D), pusher := pusher, numFields := [] } :
      Elem ℝ Unit) 1 2 demoFields D :=
    { ok := hok, f32 := strictMono_id, sch := hsch, push := rfl, light := rfl, length := by norm_num [demo], felt := fun _ => rfl, D0 := hD.le
      fixed := by
        intro d hd
        have hd : some d = some D := List.mem_singleton.mp hd
        exact (Option.some.inj hd).le
      auto := by
        intro hn
        have hn : (none : Option ℝ) = some D := List.mem_singleton.mp hn
        cases hn }
  obtain ⟨fuel, ⟨r, w⟩, hr⟩ := track_returns hok strictMono_id (by norm_num [demo]) (δ := 1 / 5) (by norm_num)
    (fun b => by simp only [demo]; nlinarith [sq_nonneg b.propDistance]) (.one b) (by intro l hl; cases hl) false b ()
  have fin : ∀ (z' : ℕ → ℝ → Ph) (K : ℝ), K ≤ C + C' → (∀ p, z' p 2 = z p 2) → Accurate (.one b) r 2 b 2 z' (K * D ^ order) →
      ∃ fuel ls w b', ({ demo sch with felt := fun _ => demoFields, dtBunch := .one (some D), pusher := pusher, numFields := [] } :
          Elem ℝ Unit).track false fuel (.one b) b () = .returned (.one ls, w) ∧ ls[2]? = some b' ∧
        ∀ p < 2, Near ((C + C') * D ^ order) (b'.ph p) (z p 2) := by
    rintro z' K hK hz2 ⟨ls, g1, g2, g3⟩
    obtain ⟨l, k1, k2, k3⟩ := g3 0 rfl
    match ls, g2, g1, k1 with
    | [l'], _, g1, k1 =>
      obtain rfl : l' = l := Option.some.inj k1
      have hlt : 2 < l'.length := by omega
      refine ⟨fuel, l', w, l'[2], by rw [hr, g1]; rfl, List.getElem?_eq_getElem hlt, fun p hp => ?_⟩
      obtain ⟨b', j1, -, j3⟩ := k3 p hp 2 le_rfl
      obtain rfl : l'[2] = b' := Option.some.inj ((List.getElem?_eq_getElem hlt).symm.trans j1)
      norm_num at j3
      rw [hz2] at j3
      exact j3.mono (mul_le_mul_of_nonneg_right hK (pow_nonneg hD.le _))
  rcases hp with ⟨rfl, rfl⟩ | ⟨rfl, rfl⟩
  · exact fin z C (by linarith) (fun _ => rfl) (h4 _ D hth rfl _ _ _ _ _ _ _ hr)
  · exact fin z' C' (by linarith) huniq (h2 _ D hth rfl _ _ _ _ _ _ _ hr)

end WakeT.FieldElement
