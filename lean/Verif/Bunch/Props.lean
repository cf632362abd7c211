import Verif.Bunch.Lemmas

/-! # Properties of bunches: C21 - C27, C32, C75, C76 -/

set_option linter.unusedSectionVars false

namespace WakeT.Bunch

open Fields (EB)
open Push (Ph PField Sched Const felt)

/-- A bunch for the examples: two electrons with different energies. -/
noncomputable def sample (z : Option ℝ) : Bunch :=
  (init 2 (fun _ => 1) (fun i => ⟨i, 0, -i, 0, 0, 1 + i⟩) (some [7, 8]) 0 3 z none (-1) 1 0).1

theorem sample_fits (z : Option ℝ) : (sample z).Fits :=
  ⟨fun _ h => (nomatch h), fun _ h => (nomatch h)⟩

/-! ### C21 -/

/-- **C21** Setting the phase space from the bunch's own 6D matrix changes nothing,
and the 6D matrix of a bunch whose phase space was set is the matrix that was set. -/
theorem matrix_roundtrip (b : Bunch) (M : Mat 6) (n' : ℕ) :
    b.setMatrix b.get6D b.n = b ∧ (b.setMatrix M n').get6D = M ∧ (b.setMatrix M n').n = n' ∧
      (b.setMatrix M n').w = b.w := by
  refine ⟨rfl, ?_, rfl, rfl⟩
  funext r i
  fin_cases r <;> rfl

/-- **C21** The same for the matrix with seven rows, which includes the charge. -/
theorem bunch_matrix_roundtrip (b : Bunch) (hq : b.qSpecies ≠ 0) (M : Mat 7) (n' : ℕ) :
    b.setBunchMatrix b.getBunchMatrix b.n = b ∧ (b.setBunchMatrix M n').getBunchMatrix = M ∧
      (b.setBunchMatrix M n').n = n' := by
  refine ⟨?_, ?_, rfl⟩
  · have : (fun i => b.w i * b.qSpecies / b.qSpecies) = b.w := by
      funext i; field_simp
    unfold Bunch.setBunchMatrix
    cases b
    simp only [Bunch.mk.injEq, true_and, and_true]
    exact ⟨rfl, this⟩
  · funext r i
    fin_cases r
    · rfl
    · rfl
    · rfl
    · rfl
    · rfl
    · rfl
    · exact div_mul_cancel₀ _ hq

/-- **C21** The rows of the matrices: coordinates and charges of the particles in the
documented order. -/
theorem matrix_rows (b : Bunch) (i : ℕ) :
    (b.get6D 0 i = (b.ph i).x ∧ b.get6D 1 i = (b.ph i).px ∧ b.get6D 2 i = (b.ph i).y ∧
      b.get6D 3 i = (b.ph i).py ∧ b.get6D 4 i = (b.ph i).xi ∧ b.get6D 5 i = (b.ph i).pz) ∧
    (b.getBunchMatrix 0 i = (b.ph i).x ∧ b.getBunchMatrix 1 i = (b.ph i).y ∧
      b.getBunchMatrix 2 i = (b.ph i).xi ∧ b.getBunchMatrix 3 i = (b.ph i).px ∧
      b.getBunchMatrix 4 i = (b.ph i).py ∧ b.getBunchMatrix 5 i = (b.ph i).pz ∧
      b.getBunchMatrix 6 i = b.q i) ∧
    (∀ r : Fin 6, b.get6DWithCharge r.castSucc i = b.get6D r i) ∧ b.get6DWithCharge 6 i = b.q i := by
  refine ⟨⟨rfl, rfl, rfl, rfl, rfl, rfl⟩, ⟨rfl, rfl, rfl, rfl, rfl, rfl, rfl⟩, ?_, rfl⟩
  intro r
  fin_cases r <;> rfl

/-- Non-vacuity. -/
example : (sample none).qSpecies ≠ 0 := by simp [sample, init]

/-! ### C24 -/

/-- **C24** After assigning `q` all weights are non-negative, the absolute charges are
those assigned, and the charges themselves are those assigned exactly if their sign
is that of the species. -/
theorem charge_setter (b : Bunch) (hq : b.qSpecies ≠ 0) (qNew : ℕ → ℝ) (i : ℕ) :
    0 ≤ (b.setQ qNew).w i ∧ |(b.setQ qNew).q i| = |qNew i| ∧
      ((b.setQ qNew).q i = qNew i ↔ 0 ≤ qNew i * b.qSpecies) ∧
      ((b.setQ qNew).ph = b.ph ∧ (b.setQ qNew).qSpecies = b.qSpecies ∧ (b.setQ qNew).n = b.n) := by
  have hq' : 0 < |b.qSpecies| := abs_pos.mpr hq
  have h2 : |(b.setQ qNew).q i| = |qNew i| := by
    simp only [Bunch.q, Bunch.setQ, abs_mul, abs_div, abs_abs]
    field_simp
  refine ⟨abs_nonneg _, h2, ?_, rfl, rfl, rfl⟩
  simp only [Bunch.q, Bunch.setQ, abs_div]
  constructor
  · intro h
    rw [← h]
    have := sq_nonneg b.qSpecies
    have h3 : 0 ≤ |qNew i| / |b.qSpecies| := by positivity
    calc (0 : ℝ) ≤ |qNew i| / |b.qSpecies| * b.qSpecies ^ 2 := by positivity
      _ = _ := by ring
  · intro h
    rw [div_mul_eq_mul_div, div_eq_iff hq'.ne']
    rcases lt_or_gt_of_ne hq with hneg | hpos
    · have : qNew i ≤ 0 := by
        by_contra hc
        push Not at hc
        nlinarith
      rw [abs_of_neg hneg, abs_of_nonpos this]; ring
    · have : 0 ≤ qNew i := by
        by_contra hc
        push Not at hc
        nlinarith
      rw [abs_of_pos hpos, abs_of_nonneg this]

/-- Non-vacuity: an electron charge assigned to electrons. -/
example : (0 : ℝ) ≤ -3 * (sample none).qSpecies := by norm_num [sample, init]

/-! ### C25 -/

private theorem average_mean (b : Bunch) :
    average b.n (fun i => (b.ph i).xi) b.w = b.meanXi := by
  unfold average Bunch.meanXi Bunch.weight
  congr 1
  exact Finset.sum_congr rfl fun i _ => mul_comm _ _

/-- **C25** `reposition_xi` moves the weighted mean to the target and keeps all
distances, all other coordinates and the weights. -/
theorem reposition_centre (b : Bunch) (hw : b.weight ≠ 0) (c : ℝ) :
    (b.repositionXi c).meanXi = c ∧
    (∀ i j, ((b.repositionXi c).ph i).xi - ((b.repositionXi c).ph j).xi =
      (b.ph i).xi - (b.ph j).xi) ∧
    (∀ i, (b.repositionXi c).ph i = { b.ph i with xi := ((b.repositionXi c).ph i).xi }) ∧
    (b.repositionXi c).w = b.w := by
  refine ⟨?_, fun i j => ?_, fun i => rfl, rfl⟩
  · have h1 : (b.repositionXi c).weight = b.weight := rfl
    have h2 : ∑ i ∈ Finset.range b.n, b.w i * ((b.ph i).xi + (c - b.meanXi)) =
        ∑ i ∈ Finset.range b.n, b.w i * (b.ph i).xi + b.weight * (c - b.meanXi) := by
      unfold Bunch.weight
      rw [Finset.sum_mul, ← Finset.sum_add_distrib]
      exact Finset.sum_congr rfl fun i _ => by ring
    have h3 : (b.repositionXi c).meanXi =
        (∑ i ∈ Finset.range b.n, b.w i * ((b.ph i).xi + (c - b.meanXi))) / b.weight := by
      rw [← average_mean b]; rfl
    rw [h3, h2, add_div, mul_div_cancel_left₀ _ hw]
    unfold Bunch.meanXi
    ring
  · simp only [Bunch.repositionXi]; ring

/-- **C25** Repositioning twice is repositioning to the last target. -/
theorem reposition_twice (b : Bunch) (hw : b.weight ≠ 0) (c c' : ℝ) :
    (b.repositionXi c).repositionXi c' = b.repositionXi c' := by
  have h := (reposition_centre b hw c).1
  rw [← average_mean] at h
  have h2 : (b.repositionXi c).repositionXi c' =
      { b.repositionXi c with ph := fun i => { (b.repositionXi c).ph i with
          xi := ((b.repositionXi c).ph i).xi + (c' - c) } } := by
    conv_lhs => unfold Bunch.repositionXi
    dsimp only
    have h' : average (b.repositionXi c).n (fun i => ((b.repositionXi c).ph i).xi)
      (b.repositionXi c).w = c := h
    unfold Bunch.repositionXi at h'
    dsimp only at h'
    rw [h']
    rfl
  rw [h2]
  unfold Bunch.repositionXi
  simp only [Bunch.mk.injEq, true_and, and_true]
  funext i
  ext <;> simp only
  ring

/-- Non-vacuity. -/
example : (sample none).weight ≠ 0 := by norm_num [Bunch.weight, sample, init]

/-! ### C26 -/

/-- **C26** An unknown pusher raises and changes nothing; on a non-empty bunch the
exception is that of the pusher. -/
theorem unknown_pusher_raises (c : ℝ) (b : Bunch) (fields : List PField) (sch : Sched) (t dt : ℝ)
    (pusher : String) (h1 : pusher ≠ "rk4") (h2 : pusher ≠ "boris") :
    ∃ e, b.evolve c fields sch t dt pusher = (b, some e) ∧ (0 < b.n → e = .unknownPusher) := by
  cases ha : b.activeFields fields with
  | error e =>
    refine ⟨e, evolve_error c b fields sch t dt pusher ha, fun hn => ?_⟩
    unfold Bunch.activeFields at ha
    obtain ⟨m, hm⟩ := amax_some hn (fun i => (b.ph i).xi)
    rw [hm] at ha
    cases hz : b.zInjection <;> simp [hz] at ha
  | ok fs =>
    exact ⟨_, evolve_unknown c b fields fs sch t dt (by rw [not_or]; exact ⟨h1, h2⟩) ha,
      fun _ => rfl⟩

private theorem evolve_prop (c : ℝ) (b : Bunch) (fields : List PField) (sch : Sched) (t dt : ℝ)
    (pusher : String) {b' : Bunch} (h : b.evolve c fields sch t dt pusher = (b', none)) :
    b'.propDistance = b.propDistance + dt * c := by
  unfold Bunch.evolve at h
  split at h
  · simp at h
  · dsimp only at h
    split_ifs at h <;> simp only [Prod.mk.injEq, reduceCtorEq, and_true, and_false] at h <;>
      rw [← h]

/-- **C26** Whatever the fields, the pushers and the schedules, the propagation
distance grows by the speed of light times the sum of the time steps. -/
theorem prop_distance_adds (c : ℝ) (b b' : Bunch) (calls : List EvolveCall)
    (h : b.run c calls = (b', none)) :
    b'.propDistance = b.propDistance + c * total calls := by
  induction calls generalizing b with
  | nil =>
    simp only [Bunch.run, Prod.mk.injEq, and_true] at h
    simp [h, total]
  | cons cl l ih =>
    unfold Bunch.run at h
    split at h
    · rename_i b1 h1
      rw [ih b1 h, evolve_prop c b _ _ _ _ _ h1, total, total, List.map_cons, List.sum_cons]
      ring
    · simp at h

/-- Non-vacuity: any calls of known pushers on a bunch with fitting arrays succeed. -/
theorem run_succeeds (c : ℝ) (b : Bunch) (calls : List EvolveCall) (hn : 0 < b.n) (hf : b.Fits)
    (hk : ∀ cl ∈ calls, cl.Known ∧ cl.sch.Valid b.n) : ∃ b', b.run c calls = (b', none) ∧ b'.Fits ∧
      b'.n = b.n := by
  induction calls generalizing b with
  | nil => exact ⟨b, rfl, hf, rfl⟩
  | cons cl l ih =>
    obtain ⟨hk1, hs⟩ := hk cl List.mem_cons_self
    have : ∃ fs, b.activeFields cl.fields = .ok fs := by
      unfold Bunch.activeFields
      obtain ⟨m, hm⟩ := amax_some hn (fun i => (b.ph i).xi)
      rw [hm]
      cases b.zInjection <;> exact ⟨_, rfl⟩
    obtain ⟨fs, ha⟩ := this
    obtain ⟨b1, h1, hn1, _, _, _, _, _, _, _, _, _, _, _, hf1⟩ :=
      evolve_spec c b cl.fields fs hs cl.t cl.dt hk1 hf ha
    obtain ⟨b2, h2, hf2, hn2⟩ := ih b1 (by omega) hf1 (fun cl hcl => by
      rw [hn1]; exact hk cl (List.mem_cons_of_mem _ hcl))
    exact ⟨b2, by unfold Bunch.run; rw [h1]; exact h2, hf2, by omega⟩

/-! ### C27 -/

private theorem activeFields_before (b : Bunch) (fields : List PField) {z : ℝ} (hn : 0 < b.n)
    (hz : b.zInjection = some z) (hb : b.HeadBehind z) : b.activeFields fields = .ok [] := by
  unfold Bunch.activeFields
  obtain ⟨m, hm⟩ := amax_some hn (fun i => (b.ph i).xi)
  simp only [hz, hm]
  rw [if_pos]
  have := (amax_lt hm (z - b.propDistance)).mpr (fun i hi => by have := hb i hi; linarith)
  linarith

private theorem activeFields_after (b : Bunch) (fields : List PField) (hn : 0 < b.n)
    (hb : ∀ z ∈ b.zInjection, ¬ b.HeadBehind z) : b.activeFields fields = .ok fields := by
  unfold Bunch.activeFields
  cases hz : b.zInjection with
  | none => rfl
  | some z =>
    obtain ⟨m, hm⟩ := amax_some hn (fun i => (b.ph i).xi)
    simp only [hm]
    rw [if_neg]
    intro h
    refine hb z (by rw [hz]; rfl) fun i hi => ?_
    have := (amax_lt hm (z - b.propDistance)).mp (by linarith) i hi
    linarith

private theorem step_free (pusher : String) (k : Const) (t dt : ℝ) (p : Ph) :
    stepOf pusher k [] t dt p = p.drift k dt := by
  have h := Push.free_drift k [] (sch := fun _ _ => [0]) (n := 1)
    (fun _ _ => show [0].Perm (List.range 1) by decide) t dt
    (fun _ => p) ⟨fun _ => p, fun _ => p, fun _ => p⟩ (fun _ => ⟨0, 0, 0, 0, 0, 0⟩)
    (fun _ _ => rfl) 0 (by omega)
  rw [Push.boris_apply k [] (n := 1) (fun _ _ => show [0].Perm (List.range 1) by decide),
    Push.rk4_apply k [] (n := 1) (fun _ _ => show [0].Perm (List.range 1) by decide)] at h
  unfold stepOf
  split
  · exact h.2
  · exact h.1

private theorem drift_drift (k : Const) (p : Ph) (d e : ℝ) :
    (p.drift k d).drift k e = p.drift k (d + e) := by
  unfold Push.Ph.drift Push.Ph.gamma
  ext <;> simp only <;> ring

/-- **C27** As long as the head of the bunch is behind the injection point every
sequence of steps, in whatever fields, moves the particles in straight lines with
constant momentum. -/
theorem ballistic_before_injection (c : ℝ) (hc : 0 < c) (b : Bunch) {z : ℝ} (hn : 0 < b.n)
    (hf : b.Fits) (hz : b.zInjection = some z) (calls : List EvolveCall)
    (hk : ∀ cl ∈ calls, cl.Known ∧ cl.sch.Valid b.n ∧ 0 ≤ cl.dt)
    (hbefore : ∀ j < calls.length, ∀ i < b.n,
      (b.ph i).xi + b.propDistance + c * total (calls.take j) < z) :
    ∃ b', b.run c calls = (b', none) ∧
      ∀ i < b.n, b'.ph i = (b.ph i).drift (b.const c) (total calls) := by
  induction calls generalizing b with
  | nil =>
    refine ⟨b, rfl, fun i _ => ?_⟩
    simp [total, Push.Ph.drift]
  | cons cl l ih =>
    obtain ⟨hk1, hs, hdt⟩ := hk cl List.mem_cons_self
    have hb : b.HeadBehind z := fun i hi => by
      have := hbefore 0 (by simp) i hi
      simpa [total] using this
    obtain ⟨b1, h1, hn1, _, hph, hprop, _, _, _, hq, hm, _, _, hz1, hf1⟩ :=
      evolve_spec c b cl.fields [] hs cl.t cl.dt hk1 hf (activeFields_before b cl.fields hn hz hb)
    have hphi : ∀ i < b.n, b1.ph i = (b.ph i).drift (b.const c) cl.dt := fun i hi => by
      rw [hph, if_pos hi, step_free]
    have hconst : b1.const c = b.const c := by unfold Bunch.const; rw [hq, hm]
    obtain ⟨b2, h2, h3⟩ := ih b1 (by omega) hf1 (by rw [hz1, hz])
      (fun x hx => by rw [hn1]; exact hk x (List.mem_cons_of_mem _ hx)) (by
        intro j hj i hi
        rw [hn1] at hi
        have h := hbefore (j + 1) (by simpa using hj) i hi
        have hd : (b1.ph i).xi ≤ (b.ph i).xi := by
          rw [hphi i hi]
          exact (Push.drift_slower_than_light (b.const c) hc (b.ph i) cl.dt).1 hdt
        rw [List.take_succ_cons, total, List.map_cons, List.sum_cons] at h
        rw [hprop, total]
        nlinarith)
    refine ⟨b2, by unfold Bunch.run; rw [h1]; exact h2, fun i hi => ?_⟩
    rw [h3 i (by omega), hphi i hi, hconst, drift_drift]
    congr 1

/-- **C27** Without an injection point, or once the head has reached it, the bunch
moves in the given fields: exactly as a bunch without injection point. -/
theorem fields_act_after_injection (c : ℝ) (b : Bunch) (fields : List PField) (sch : Sched)
    (t dt : ℝ) (pusher : String) (hn : 0 < b.n)
    (hb : ∀ z ∈ b.zInjection, ¬ b.HeadBehind z) :
    let r := b.evolve c fields sch t dt pusher
    let r' := { b with zInjection := none }.evolve c fields sch t dt pusher
    r.1.ph = r'.1.ph ∧ r.1.propDistance = r'.1.propDistance ∧ r.2 = r'.2 := by
  dsimp only
  have h1 := activeFields_after b fields hn hb
  have h2 : ({ b with zInjection := none } : Bunch).activeFields fields = .ok fields := rfl
  unfold Bunch.evolve
  rw [h1, h2]
  dsimp only
  by_cases p1 : pusher = "rk4"
  · simp only [if_pos p1]
    by_cases hc : b.getFieldArrays.1 < b.n ∨ b.getRK4Arrays.1 ≠ b.n
    · have hc' : ({ b with zInjection := none } : Bunch).getFieldArrays.1 < b.n ∨
        ({ b with zInjection := none } : Bunch).getRK4Arrays.1 ≠ b.n := hc
      simp only [if_pos hc, if_pos hc']
      exact ⟨trivial, trivial, trivial⟩
    · have hc' : ¬ (({ b with zInjection := none } : Bunch).getFieldArrays.1 < b.n ∨
        ({ b with zInjection := none } : Bunch).getRK4Arrays.1 ≠ b.n) := hc
      simp only [if_neg hc, if_neg hc']
      exact ⟨rfl, trivial, trivial⟩
  · by_cases p2 : pusher = "boris"
    · simp only [if_neg p1, if_pos p2]
      by_cases hc : b.getFieldArrays.1 < b.n
      · have hc' : ({ b with zInjection := none } : Bunch).getFieldArrays.1 < b.n := hc
        simp only [if_pos hc, if_pos hc']
        exact ⟨trivial, trivial, trivial⟩
      · have hc' : ¬ (({ b with zInjection := none } : Bunch).getFieldArrays.1 < b.n) := hc
        simp only [if_neg hc, if_neg hc']
        exact ⟨rfl, trivial, trivial⟩
    · simp only [if_neg p1, if_neg p2]
      exact ⟨trivial, trivial, trivial⟩

/-- Non-vacuity: before injection with two steps, and after. -/
example : 0 < (sample (some 10)).n ∧ (sample (some 10)).Fits ∧
    (∀ j < 2, ∀ i < (sample (some 10)).n, ((sample (some 10)).ph i).xi +
      (sample (some 10)).propDistance + 1 * total
        ([⟨[], fun _ _ => [1, 0], 0, 2, "boris"⟩, ⟨[], fun _ _ => [0, 1], 2, 1, "rk4"⟩].take j)
        < 10) ∧ ¬ (sample (some (-1))).HeadBehind (-1) := by
  refine ⟨by simp [sample, init], sample_fits _, ?_, ?_⟩
  · intro j hj i hi
    have : (0 : ℝ) ≤ i := Nat.cast_nonneg i
    interval_cases j <;> simp [sample, init, total] <;> linarith
  · intro h
    have := h 0 (by simp [sample, init])
    simp [sample, init] at this
    linarith

/-! ### C32 -/

/-- **C32** Evolving by zero time changes nothing a user can read. -/
theorem evolve_zero (c : ℝ) (b : Bunch) (fields : List PField) {sch : Sched} (hs : sch.Valid b.n)
    (t : ℝ) {pusher : String} (hp : pusher = "rk4" ∨ pusher = "boris") (hn : 0 < b.n)
    (hf : b.Fits) :
    ∃ b', b.evolve c fields sch t 0 pusher = (b', none) ∧ SameBunch b b' ∧ b'.ph = b.ph := by
  have : ∃ fs, b.activeFields fields = .ok fs := by
    unfold Bunch.activeFields
    obtain ⟨m, hm⟩ := amax_some hn (fun i => (b.ph i).xi)
    rw [hm]
    cases b.zInjection <;> exact ⟨_, rfl⟩
  obtain ⟨fs, ha⟩ := this
  obtain ⟨b1, h1, hn1, hw, hph, hprop, hx, hth, hname, hq, hm, htags, htf, hz1, hf1⟩ :=
    evolve_spec c b fields fs hs t 0 hp hf ha
  have hph' : b1.ph = b.ph := by
    funext i
    rw [hph]
    split_ifs with hi
    · have h := Push.push_zero (b.const c) fs hs t b.ph ⟨b.ph, b.ph, b.ph⟩ (fun _ => ⟨0, 0, 0, 0, 0, 0⟩)
      unfold stepOf
      split_ifs
      · have h2 := congrFun h.2 i
        rwa [Push.rk4_apply _ _ hs, if_pos hi] at h2
      · have h2 := congrFun h.1 i
        rwa [Push.boris_apply _ _ hs, if_pos hi] at h2
    · rfl
  refine ⟨b1, h1, ⟨⟨hn1.symm, fun i _ => ⟨by rw [hph'], by rw [hw]⟩, ?_, hx.symm, hth.symm,
    hname.symm, hq.symm, hm.symm⟩, htags.symm, htf.symm, hz1.symm⟩, hph'⟩
  rw [hprop]; ring

/-! ### C23 -/

/-- Two bunches with equal data and equal injection point stay equal, and raise
alike, under the same calls. -/
theorem same_data_run (c : ℝ) (b b' : Bunch) (h : SameData b b')
    (hz : b.zInjection = b'.zInjection) (hf : b.Fits) (hf' : b'.Fits) (calls : List EvolveCall)
    (hs : ∀ cl ∈ calls, cl.sch.Valid b.n) :
    SameData (b.run c calls).1 (b'.run c calls).1 ∧ (b.run c calls).2 = (b'.run c calls).2 := by
  induction calls generalizing b b' with
  | nil => exact ⟨h, rfl⟩
  | cons cl l ih =>
    have hact := activeFields_congr h hz cl.fields
    unfold Bunch.run
    cases ha : b.activeFields cl.fields with
    | error e =>
      rw [evolve_error c b _ _ _ _ _ ha, evolve_error c b' _ _ _ _ _ (hact ▸ ha)]
      exact ⟨h, rfl⟩
    | ok fs =>
      by_cases hk : cl.pusher = "rk4" ∨ cl.pusher = "boris"
      · have hs1 := hs cl List.mem_cons_self
        obtain ⟨hn0, hp0, hd0, hx0, hth0, hname0, hq0, hm0⟩ := h
        obtain ⟨b1, h1, hn1, hw1, hph1, hprop1, hx1, hth1, hname1, hq1, hm1, _, _, hz1, hf1⟩ :=
          evolve_spec c b cl.fields fs hs1 cl.t cl.dt hk hf ha
        obtain ⟨b2, h2, hn2, hw2, hph2, hprop2, hx2, hth2, hname2, hq2, hm2, _, _, hz2, hf2⟩ :=
          evolve_spec c b' cl.fields fs (hn0 ▸ hs1) cl.t cl.dt hk hf' (hact ▸ ha)
        rw [h1, h2]
        dsimp only
        refine ih b1 b2 ⟨by omega, ?_, by rw [hprop1, hprop2, hd0], by rw [hx1, hx2, hx0],
          by rw [hth1, hth2, hth0], by rw [hname1, hname2, hname0], by rw [hq1, hq2, hq0],
          by rw [hm1, hm2, hm0]⟩ (by rw [hz1, hz2, hz]) hf1 hf2 (fun x hx => by
            rw [hn1]; exact hs x (List.mem_cons_of_mem _ hx))
        intro i hi
        rw [hn1] at hi
        rw [hph1, hph2, if_pos hi, if_pos (by omega), (hp0 i hi).1, hw1, hw2, (hp0 i hi).2]
        refine ⟨?_, rfl⟩
        unfold Bunch.const
        rw [hq0, hm0]
      · rw [evolve_unknown c b _ _ _ _ _ hk ha, evolve_unknown c b' _ _ _ _ _ hk (hact ▸ ha)]
        exact ⟨h, rfl⟩

/-- **C23** A copy has the data of the original. -/
theorem copy_same_data (b : Bunch) (k : ℕ) : SameData b (b.copy k).1 :=
  ⟨rfl, fun _ _ => ⟨rfl, rfl⟩, rfl, rfl, rfl, rfl, rfl, rfl⟩

/-- **C23** (partial) If the original has no injection point, any sequence of calls
has the same effect on the copy as on the original.  Missing: bunches with an
injection point, for which this fails (`copy_fails`); `tags` and `t_flight`, which
are not copied (`copy_drops`). -/
theorem copy_behaves_partial (c : ℝ) (b : Bunch) (k : ℕ) (hz : b.zInjection = none) (hf : b.Fits)
    (calls : List EvolveCall) (hs : ∀ cl ∈ calls, cl.sch.Valid b.n) :
    SameData (b.run c calls).1 ((b.copy k).1.run c calls).1 ∧
      (b.run c calls).2 = ((b.copy k).1.run c calls).2 :=
  same_data_run c b _ (copy_same_data b k) hz hf ⟨fun _ h => (nomatch h), fun _ h => (nomatch h)⟩ calls hs

/-- A uniform accelerating field. -/
def accel : PField := fun _ _ _ _ v => { v with ez := v.ez + 1 }

/-- **C23** is violated: a bunch that has not reached its injection point is not
accelerated, its copy is. -/
theorem copy_fails : ∃ (b : Bunch) (cl : EvolveCall), b.Fits ∧ cl.sch.Valid b.n ∧ cl.Known ∧
    ((b.run 1 [cl]).1.ph 0).pz = (b.ph 0).pz ∧
    (((b.copy 0).1.run 1 [cl]).1.ph 0).pz = (b.ph 0).pz - cl.dt ∧ 0 < cl.dt := by
  have hs : Sched.Valid (fun _ _ => [0, 1]) 2 := fun _ _ => show [0, 1].Perm (List.range 2) by decide
  refine ⟨sample (some 10), ⟨[accel], fun _ _ => [0, 1], 0, 1, "boris"⟩, sample_fits _, hs,
    Or.inr rfl, ?_, ?_, by norm_num⟩
  · obtain ⟨b', h, h'⟩ := ballistic_before_injection 1 one_pos (sample (some 10)) (z := 10)
      (by simp [sample, init]) (sample_fits _) rfl [⟨[accel], fun _ _ => [0, 1], 0, 1, "boris"⟩]
      (fun cl hcl => by
        rw [List.mem_singleton] at hcl
        subst hcl
        exact ⟨Or.inr rfl, hs, by norm_num⟩)
      (fun j hj i hi => by
        have : (0 : ℝ) ≤ i := Nat.cast_nonneg i
        have hj0 : j = 0 := by simpa using hj
        subst hj0
        simp [sample, init, total]
        linarith)
    rw [h, h' 0 (by simp [sample, init])]
    rfl
  · obtain ⟨b1, h1, _, _, hph, _⟩ := evolve_spec 1 ((sample (some 10)).copy 0).1 [accel] [accel]
      (sch := fun _ _ => [0, 1]) hs 0 1 (pusher := "boris") (Or.inr rfl)
      ⟨fun _ h => (nomatch h), fun _ h => (nomatch h)⟩ rfl
    unfold Bunch.run
    rw [h1]
    dsimp only [Bunch.run]
    rw [hph, if_pos (by simp [sample, init, Bunch.copy]), stepOf, if_neg (by decide)]
    have h := (Push.uniform_electric_exact ((sample (some 10)).const 1) [accel] 0 0 1
      (fun t p => by simp [felt, accel]) [⟨false, 0, 1, fun _ _ => [0, 1]⟩] (n := 2)
      (fun cl hcl => by rw [List.mem_singleton] at hcl; subst hcl; exact hs)
      ((sample (some 10)).ph, ⟨(sample (some 10)).ph, (sample (some 10)).ph, (sample (some 10)).ph⟩,
        fun _ => ⟨0, 0, 0, 0, 0, 0⟩) 0 (by omega)).2.2
    dsimp only [List.foldl, Push.Call.run] at h
    simp only [Bool.false_eq_true, if_false] at h
    rw [Push.boris_apply _ _ hs, if_pos (by omega)] at h
    refine h.trans ?_
    simp [sample, init, Bunch.const]

/-- **C23** is violated also because tags, time of flight and injection point are
lost. -/
theorem copy_drops (b : Bunch) (k : ℕ) : (b.copy k).1.tags = none ∧ (b.copy k).1.tFlight = 0 ∧
    (b.copy k).1.zInjection = none := ⟨rfl, rfl, rfl⟩

/-- Non-vacuity of `copy_behaves_partial`, and a bunch that is not its copy. -/
example : (sample none).zInjection = none ∧ (sample none).Fits ∧
    ¬ SameBunch (sample none) ((sample none).copy 0).1 :=
  ⟨rfl, sample_fits _, fun h => nomatch h.2.1⟩

/-! ### C75 -/

/-- **C75** (partial) On a new bunch, and on any bunch whose arrays fit, no sequence
of calls of `evolve` leaves the preallocated arrays.  Missing: bunches to which
another number of particles is assigned after the first call, for which this fails
(`push_out_of_bounds`). -/
theorem pushes_in_bounds_partial (c : ℝ) (b : Bunch) (hf : b.Fits) (calls : List EvolveCall)
    (hs : ∀ cl ∈ calls, cl.sch.Valid b.n) : (b.run c calls).2 ≠ some .outOfBounds := by
  induction calls generalizing b with
  | nil => exact fun h => nomatch h
  | cons cl l ih =>
    unfold Bunch.run
    cases ha : b.activeFields cl.fields with
    | error e =>
      rw [evolve_error c b _ _ _ _ _ ha]
      unfold Bunch.activeFields at ha
      cases hz : b.zInjection with
      | none => simp [hz] at ha
      | some z =>
        rw [hz] at ha
        dsimp only at ha
        split at ha <;> simp at ha
        simp [← ha]
    | ok fs =>
      by_cases hk : cl.pusher = "rk4" ∨ cl.pusher = "boris"
      · obtain ⟨b1, h1, hn1, _, _, _, _, _, _, _, _, _, _, _, hf1⟩ :=
          evolve_spec c b cl.fields fs (hs cl List.mem_cons_self) cl.t cl.dt hk hf ha
        rw [h1]
        exact ih b1 hf1 (fun x hx => by rw [hn1]; exact hs x (List.mem_cons_of_mem _ hx))
      · rw [evolve_unknown c b _ _ _ _ _ hk ha]
        simp

/-- **C75** New bunches and copies fit. -/
theorem new_fits (n : ℕ) (w : ℕ → ℝ) (ph : ℕ → Ph) (tags : Option (List ℕ)) (d t : ℝ)
    (z : Option ℝ) (name : Option String) (q m : ℝ) (k : ℕ) (b : Bunch) :
    (init n w ph tags d t z name q m k).1.Fits ∧ (b.copy k).1.Fits :=
  ⟨⟨fun _ h => (nomatch h), fun _ h => (nomatch h)⟩, ⟨fun _ h => (nomatch h), fun _ h => (nomatch h)⟩⟩

/-- **C75** is violated: after one call of `evolve`, assigning a phase space with more
particles makes the next call leave the arrays, with either pusher; with the
Runge-Kutta pusher a smaller number of particles does so, too. -/
theorem push_out_of_bounds (c : ℝ) (b : Bunch) (fields : List PField) {sch : Sched}
    (hs : sch.Valid b.n) (t dt : ℝ) (hz : b.zInjection = none) (hf : b.Fits) (M : Mat 6) (n' : ℕ)
    (sch' : Sched) (hn : n' ≠ b.n) :
    let b1 := (b.evolve c fields sch t dt "rk4").1.setMatrix M n'
    (b1.evolve c fields sch' t dt "rk4").2 = some .outOfBounds ∧
    (b.n < n' → (b1.evolve c fields sch' t dt "boris").2 = some .outOfBounds) := by
  dsimp only
  have ha : b.activeFields fields = .ok fields := by unfold Bunch.activeFields; rw [hz]
  obtain ⟨b2, h1, hn1, _, _, _, _, _, _, _, _, _, _, hz1, hf1⟩ :=
      evolve_spec c b fields fields hs t dt (pusher := "rk4") (Or.inl rfl) hf ha
  have hbuf : b2.fieldArrays.isSome ∧ b2.rk4Arrays.isSome := by
    unfold Bunch.evolve at h1
    rw [ha] at h1
    dsimp only at h1
    rw [if_pos rfl] at h1
    split_ifs at h1
    · simp at h1
    · simp only [Prod.mk.injEq, and_true] at h1
      rw [← h1]
      exact ⟨rfl, rfl⟩
  obtain ⟨fa, hfa⟩ := Option.isSome_iff_exists.mp hbuf.1
  obtain ⟨ra, hra⟩ := Option.isSome_iff_exists.mp hbuf.2
  have hfn := hf1.1 fa (by rw [hfa]; rfl)
  have hrn := hf1.2 ra (by rw [hra]; rfl)
  have ha2 : (b2.setMatrix M n').activeFields fields = .ok fields := by
    unfold Bunch.activeFields
    have : (b2.setMatrix M n').zInjection = none := by rw [← hz, ← hz1]; rfl
    rw [this]
  rw [h1]
  constructor
  · unfold Bunch.evolve
    rw [ha2]
    dsimp only
    rw [if_pos rfl, if_pos]
    right
    simp only [Bunch.setMatrix, Bunch.getRK4Arrays, hra, Option.getD_some]
    omega
  · intro hlt
    unfold Bunch.evolve
    rw [ha2]
    dsimp only
    rw [if_neg (by decide), if_pos rfl, if_pos]
    simp only [Bunch.setMatrix, Bunch.getFieldArrays, hfa, Option.getD_some]
    omega

/-! ### C76 -/

private theorem name_inj {i j : ℕ} (h : "elec_bunch_" ++ Nat.repr i = "elec_bunch_" ++ Nat.repr j) :
    i = j := by
  have h1 := congrArg String.toList h
  rw [String.toList_append, String.toList_append, List.append_cancel_left_eq, Nat.toList_repr,
    Nat.toList_repr] at h1
  rw [← Nat.ofDigitChars_ten_toDigits (n := i), h1, Nat.ofDigitChars_ten_toDigits]

private theorem unnamedNames_mem (l : List Creation) (k : ℕ) :
    ∀ s ∈ unnamedNames k l, ∃ j, k ≤ j ∧ s = "elec_bunch_" ++ Nat.repr j := by
  induction l generalizing k with
  | nil => intro s h; exact nomatch h
  | cons cr l ih =>
    intro s h
    cases cr with
    | unnamed =>
      simp only [unnamedNames, List.mem_cons] at h
      rcases h with rfl | h
      · exact ⟨k, le_refl _, rfl⟩
      · obtain ⟨j, hj, e⟩ := ih (k + 1) s h
        exact ⟨j, by omega, e⟩
    | named x => exact ih k s h
    | copyOf b => exact ih k s h

/-- **C76** The names of all bunches created without a name are pairwise different,
whatever is created or copied in between and wherever the counter starts. -/
theorem unnamed_distinct (k : ℕ) (l : List Creation) : (unnamedNames k l).Nodup := by
  induction l generalizing k with
  | nil => exact List.nodup_nil
  | cons cr l ih =>
    cases cr with
    | unnamed =>
      simp only [unnamedNames, List.nodup_cons]
      refine ⟨fun h => ?_, ih _⟩
      obtain ⟨j, hj, e⟩ := unnamedNames_mem l (k + 1) _ h
      have := name_inj e
      omega
    | named x => exact ih k
    | copyOf b => exact ih k

/-- **C76** One name for every unnamed bunch. -/
theorem unnamed_count (k : ℕ) (l : List Creation) :
    (unnamedNames k l).length = l.countP (fun cr => match cr with | .unnamed => true | _ => false) := by
  induction l generalizing k with
  | nil => rfl
  | cons cr l ih => cases cr <;> simp [unnamedNames, ih]

end WakeT.Bunch
