import Verif.Beamline.Model
import Verif.Element.Props

/-! # Properties of beamlines and diagnostics (C44, C45, C84) -/

set_option linter.unusedSectionVars false

namespace WakeT.Beamline

open CSR (Elem Calc)
open Bunch (Bunch)
open Diag (Diag Record duplicate speciesData)
open Element

/-! ### C45 -/

theorem duplicate_iff (names seen : List String) (h : seen.Nodup) :
    duplicate names seen = true ↔ ¬ (seen ++ names).Nodup := by
  induction names generalizing seen with
  | nil => simp [duplicate, h]
  | cons n ns ih =>
    unfold duplicate
    split_ifs with hn
    · simp only [true_iff]
      intro hd
      rw [List.nodup_append] at hd
      exact hd.2.2 n hn n (by simp) rfl
    · rw [ih (seen ++ [n]) (by
        rw [List.nodup_append]
        refine ⟨h, by simp, ?_⟩
        intro a ha b hb
        simp only [List.mem_singleton] at hb
        rintro rfl
        exact hn (hb ▸ ha))]
      simp

/-- `write_diagnostics` raises exactly if two of the bunches have the same name; then
nothing is written and no iteration number is used.  Otherwise one record with the next
iteration number is written. -/
theorem write_atomic (c : ℝ) (d : Diag) (time dt : ℝ) (bs : List Bunch) :
    ((d.write c time dt bs).2 = false ↔ ¬ (bs.map Bunch.Bunch.name).Nodup) ∧
    ((d.write c time dt bs).2 = false → (d.write c time dt bs).1 = d) ∧
    ((d.write c time dt bs).2 = true → ∃ r, (d.write c time dt bs).1.written = d.written ++ [r] ∧
      r.index = d.index ∧ (d.write c time dt bs).1.index = d.index + 1 ∧
      r.species.map Diag.Species.name = bs.map Bunch.Bunch.name) := by
  have h := duplicate_iff (bs.map Bunch.Bunch.name) [] List.nodup_nil
  rw [List.nil_append] at h
  unfold Diag.Diag.write
  split_ifs with hd
  · exact ⟨⟨fun _ => h.mp hd, fun _ => rfl⟩, fun _ => rfl, fun h => by simp at h⟩
  · refine ⟨⟨fun h => by simp at h, fun hn => absurd (h.mpr hn) hd⟩, fun h => by simp at h, fun _ => ?_⟩
    refine ⟨_, rfl, rfl, rfl, ?_⟩
    simp [speciesData, Function.comp_def]

/-- What is written for the `k`-th bunch `b`: its particles at their positions in the laboratory
(position plus offset), their momenta in SI units (they are stored in units of `m c`), and their
weights, charge and mass, at the time of the beginning of the element plus the time in the element. -/
theorem write_data (c : ℝ) (hc : c ≠ 0) (d : Diag) (time dt : ℝ) (bs : List Bunch)
    (h : (d.write c time dt bs).2 = true) :
    ∃ r, (d.write c time dt bs).1.written = d.written ++ [r] ∧ c * r.time = c * time + d.zPos ∧
      r.dt = dt ∧ r.species.length = bs.length ∧ ∀ (k : ℕ) (b : Bunch), bs[k]? = some b →
        ∃ s, r.species[k]? = some s ∧ s.name = b.name ∧ s.n = b.n ∧ s.w = b.w ∧ s.q = b.qSpecies ∧
          s.m = b.mSpecies ∧ ∀ i, s.x i = (b.ph i).x ∧ s.y i = (b.ph i).y ∧
            s.z i + s.zOff = (b.ph i).xi + (c * time + d.zPos) ∧
            s.px i = b.mSpecies * c * (b.ph i).px ∧ s.py i = b.mSpecies * c * (b.ph i).py ∧
            s.pz i = b.mSpecies * c * (b.ph i).pz := by
  unfold Diag.Diag.write at h ⊢
  split_ifs at h ⊢ with hd
  · refine ⟨_, rfl, ?_, rfl, by simp, fun k b hb => ?_⟩
    · show c * (time + d.zPos / c) = _
      field_simp
    · refine ⟨speciesData c b (time + d.zPos / c), ?_, rfl, rfl, rfl, rfl, rfl, fun i => ?_⟩
      · simp [hb]
      · refine ⟨rfl, rfl, ?_, ?_, ?_, ?_⟩ <;> simp only [speciesData] <;> field_simp

/-- Both outcomes occur. -/
example : ∃ b : Bunch, ((Diag.Diag.new.write 1 0 1 [b, b]).2 = false ∧ (Diag.Diag.new.write 1 0 1 [b]).2 = true) := by
  refine ⟨single 0 1, ?_, ?_⟩
  · rw [(write_atomic _ _ _ _ _).1]
    simp
  · by_contra h
    rw [Bool.not_eq_true, (write_atomic _ _ _ _ _).1] at h
    simp at h

/-! ### C44 -/

section generic

variable {σ ε α : Type}

theorem lineLoop_acc (items : List (Item σ ε α)) (w : σ) (acc : List α) :
    lineLoop items w acc = ((lineLoop items w []).1, (lineLoop items w []).2.map (acc ++ ·)) := by
  induction items generalizing w acc with
  | nil => simp [lineLoop, Except.map]
  | cons it its ih =>
    rw [lineLoop, lineLoop]
    rcases h : it w with ⟨w', _ | outs⟩
    · rfl
    · simp only
      rw [ih w' (acc ++ outs), ih w' ([] ++ outs)]
      simp only [List.nil_append, Prod.mk.injEq, true_and]
      rcases (lineLoop its w' []).2 with _ | r <;> simp [Except.map]

/-- A beamline of one element is the element. -/
theorem line_single (it : Item σ ε α) (w : σ) : lineTrack [it] w = it w := by
  unfold lineTrack
  rw [lineLoop]
  rcases h : it w with ⟨w', _ | outs⟩
  · rfl
  · simp [lineLoop]

/-- Tracking through a beamline is tracking through its parts one after another: if the
first part raises, so does the beamline and the second part is not tracked; otherwise the
outputs are those of the first part followed by those of the second part. -/
theorem line_append (xs ys : List (Item σ ε α)) (w : σ) :
    lineTrack (xs ++ ys) w =
      match lineTrack xs w with
      | (w', .error e) => (w', .error e)
      | (w', .ok outs) => ((lineTrack ys w').1, (lineTrack ys w').2.map (outs ++ ·)) := by
  unfold lineTrack
  induction xs generalizing w with
  | nil =>
    simp only [List.nil_append]
    rw [show lineLoop ([] : List (Item σ ε α)) w [] = (w, .ok []) from rfl]
    rcases h : (lineLoop ys w []) with ⟨w', _ | r⟩ <;> simp [Except.map, h]
  | cons it its ih =>
    rw [List.cons_append, lineLoop, lineLoop]
    rcases h : it w with ⟨w', _ | outs⟩
    · rfl
    · simp only
      rw [lineLoop_acc (its ++ ys), lineLoop_acc its, ih w']
      rcases h1 : lineLoop its w' [] with ⟨w1, _ | o1⟩
      · simp [Except.map]
      · simp only [Except.map]
        rcases h2 : lineLoop ys w1 [] with ⟨w2, _ | o2⟩ <;> simp

end generic

/-- What the diagnostics record while the bunch moves from `b` to `b'` and returns `outs`:
one record per output, numbered consecutively, at the time that belongs to the position of
the output, with its data; the recorded position advances with the bunch. -/
structure Recorded (c : ℝ) (d d' : Diag) (b b' : Bunch) (outs : List Bunch) : Prop where
  index : d'.index = d.index + outs.length
  zPos : d'.zPos = d.zPos + (b'.propDistance - b.propDistance)
  written : ∃ new, d'.written = d.written ++ new ∧ new.length = outs.length ∧
    ∀ k r o, new[k]? = some r → outs[k]? = some o → r.index = d.index + k ∧
      r.time = (d.zPos + (o.propDistance - b.propDistance)) / c ∧
      r.species = [speciesData c o r.time]

theorem Recorded.refl (c : ℝ) (d : Diag) (b : Bunch) : Recorded c d d b b [] :=
  ⟨by simp, by simp, [], by simp, rfl, by simp⟩

theorem Recorded.trans {c : ℝ} {d1 d2 d3 : Diag} {b1 b2 b3 : Bunch} {o1 o2 : List Bunch}
    (h1 : Recorded c d1 d2 b1 b2 o1) (h2 : Recorded c d2 d3 b2 b3 o2) :
    Recorded c d1 d3 b1 b3 (o1 ++ o2) := by
  obtain ⟨n1, e1, l1, p1⟩ := h1.written
  obtain ⟨n2, e2, l2, p2⟩ := h2.written
  refine ⟨by rw [h2.index, h1.index, List.length_append, Nat.add_assoc], ?_, n1 ++ n2, ?_, ?_, ?_⟩
  · rw [h2.zPos, h1.zPos]; ring
  · rw [e2, e1, List.append_assoc]
  · simp [l1, l2]
  · intro k r o hr ho
    by_cases hk : k < n1.length
    · rw [List.getElem?_append_left hk] at hr
      rw [List.getElem?_append_left (l1 ▸ hk)] at ho
      exact p1 k r o hr ho
    · push Not at hk
      rw [List.getElem?_append_right hk] at hr
      rw [List.getElem?_append_right (l1 ▸ hk), ← l1] at ho
      obtain ⟨a1, a2, a3⟩ := p2 _ r o hr ho
      refine ⟨?_, ?_, a3⟩
      · rw [a1, h1.index, ← l1]; omega
      · rw [a2, h1.zPos]
        congr 1
        ring

theorem write_one (c : ℝ) (d : Diag) (time dt : ℝ) (b : Bunch) :
    (d.write c time dt [b]).1 = { d with index := d.index + 1, written := d.written ++
      [⟨d.index, time + d.zPos / c, dt, [speciesData c b (time + d.zPos / c)]⟩] } := by
  simp [Diag.Diag.write, duplicate]

/-- Records of the loop. -/
theorem loop_recorded (env : Env) (csr : Calc) (e : Elem) (g : ℝ) (b : Bunch) (st : ℝ × ℕ × ℕ) (d : Diag)
    (M : Cols) (n : ℕ) :
    ∃ d', (trackLoop env csr e g b false st n ⟨M, [], some d⟩).diag = some d' ∧ d'.zPos = d.zPos ∧
      Recorded env.c { d with zPos := d.zPos } { d' with zPos := d'.zPos } b b
        (trackLoop env csr e g b false st n ⟨M, [], some d⟩).outs := by
  induction n with
  | zero => exact ⟨d, rfl, rfl, Recorded.refl _ _ _⟩
  | succ n ih =>
    obtain ⟨d', h1, h2, h3⟩ := ih
    rw [trackLoop]
    set s := trackLoop env csr e g b false st n ⟨M, [], some d⟩ with hs
    unfold trackStep
    dsimp only
    by_cases ho : isOutput st.2.1 st.2.2 n = true
    · simp only [if_pos ho]
      rw [h1]
      simp only [writeOne, Option.map_some]
      rw [write_one]
      refine ⟨_, rfl, h2, ?_⟩
      · refine h3.trans ⟨?_, ?_, ?_⟩
        · rfl
        · simp
        · refine ⟨_, rfl, rfl, ?_⟩
          intro k r o hr ho
          rcases k with _ | k
          · simp only [List.getElem?_cons_zero, Option.some.injEq] at hr ho
            subst hr ho
            refine ⟨rfl, ?_, rfl⟩
            have : ∀ M x, (createBunch e b M x).propDistance = b.propDistance + x := fun M x => rfl
            rw [this]
            simp only [Bool.false_eq_true, if_false, mul_one]
            ring
          · simp at hr
    · simp only [if_neg ho]
      exact ⟨d', h1, h2, h3⟩

/-- What is recorded while a bunch is tracked through a transfer-map element: positions are
relative to the position of the diagnostics, which then advances by the length. -/
theorem track_diag (env : Env) (csr : Calc) (e : Elem) (b : Bunch) (d : Diag) (bar : Bool)
    (ht : Trackable e ⟨false, false, bar⟩) :
    ∃ outs d', (track env e csr b (some d) ⟨false, false, bar⟩).out = .ok outs ∧
      (track env e csr b (some d) ⟨false, false, bar⟩).diag = some (d'.increaseZ e.length) ∧
      d'.zPos = d.zPos ∧ Recorded env.c d d' b b outs := by
  let e' : Elem := { e with gammaRef := some (gammaOf e b) }
  let csr' : Calc := if e.csrOn then csr.add e' else csr.clear
  let st := determineSteps env csr' e'
  obtain ⟨d', h1, h2, h3⟩ := loop_recorded env csr' e' (gammaOf e b) b st d
    (fun i => TransferMatrix.toOcelot (gammaOf e b) (localCols b i)) st.2.1
  let s := trackLoop env csr' e' (gammaOf e b) b false st st.2.1
    ⟨fun i => TransferMatrix.toOcelot (gammaOf e b) (localCols b i), [], some d⟩
  have hn : ¬ (e.nOut = some 0 ∨ e.length = 0) := by
    push Not
    exact ⟨ht.nOut, ht.length⟩
  have hb : ¬ ((bar && !e.prints) = true) := by
    simp only [Bool.and_eq_true, Bool.not_eq_true', not_and, Bool.not_eq_false]
    exact ht.bar
  have key : (track env e csr b (some d) ⟨false, false, bar⟩).out = .ok s.outs ∧
      (track env e csr b (some d) ⟨false, false, bar⟩).diag = s.diag.map fun d => d.increaseZ e.length := by
    unfold track
    dsimp only
    rw [if_neg hn, if_neg hb]
    exact ⟨rfl, rfl⟩
  refine ⟨s.outs, d', key.1, ?_, h2, h3⟩
  rw [key.2]
  change (Option.map _ (trackLoop env csr' e' (gammaOf e b) b false st st.2.1 _).diag) = _
  rw [h1]
  rfl

/-- What is recorded while a bunch is tracked through a transfer-map element. -/
theorem track_recorded (env : Env) (csr : Calc) (e : Elem) (b : Bunch) (d : Diag) (bar : Bool)
    (ht : Trackable e ⟨false, false, bar⟩) (hcsr : e.csrOn = false) :
    ∃ outs d', (track env e csr b (some d) ⟨false, false, bar⟩).out = .ok outs ∧
      (track env e csr b (some d) ⟨false, false, bar⟩).diag = some d' ∧
      (track env e csr b (some d) ⟨false, false, bar⟩).bunch.propDistance = b.propDistance + e.length ∧
      Recorded env.c d d' b (track env e csr b (some d) ⟨false, false, bar⟩).bunch outs := by
  have hp := (bunch_updated_partial env csr e b (some d) ⟨false, false, bar⟩ ht (stepFits_of_off hcsr) rfl
    (fun _ => rfl)).1
  obtain ⟨outs, d', k1, k2, h2, h3⟩ := track_diag env csr e b d bar ht
  refine ⟨outs, d'.increaseZ e.length, k1, k2, hp, h3.index, ?_, h3.written⟩
  rw [hp]
  simp only [Diag.Diag.increaseZ, h2]
  ring

/-- Elements keep everything but the reference energy. -/
theorem tm_elems (env : Env) (bar : Bool) (i : ℕ) (w : World) (j : ℕ) :
    ((tm env bar i w).1.elems j).length = (w.elems j).length ∧
    ((tm env bar i w).1.elems j).csrOn = (w.elems j).csrOn ∧
    ((tm env bar i w).1.elems j).nOut = (w.elems j).nOut ∧
    ((tm env bar i w).1.elems j).prints = (w.elems j).prints := by
  unfold tm
  dsimp only
  by_cases hj : j = i
  · subst hj
    rw [Function.update_self, track_elem]
    exact ⟨rfl, rfl, rfl, rfl⟩
  · rw [Function.update_of_ne hj]
    exact ⟨rfl, rfl, rfl, rfl⟩

/-- Iteration numbers are consecutive over the whole line, there is one record for every
returned bunch, and the recorded position advances by the sum of the lengths, whatever the
elements (also with CSR effects). -/
theorem line_numbered (env : Env) (bar : Bool) (ids : List ℕ) (w : World) (d : Diag) (hd : w.diag = some d)
    (ht : ∀ i ∈ ids, Trackable (w.elems i) ⟨false, false, bar⟩) :
    ∃ w' outs d', lineTrack (ids.map (tm env bar)) w = (w', .ok outs) ∧ w'.diag = some d' ∧
      d'.index = d.index + outs.length ∧
      d'.zPos = d.zPos + (ids.map fun i => (w.elems i).length).sum ∧
      d'.written.map Record.index =
        d.written.map Record.index ++ (List.range outs.length).map (d.index + ·) := by
  induction ids generalizing w d with
  | nil => exact ⟨w, [], d, rfl, hd, by simp, by simp, by simp⟩
  | cons i ids ih =>
    obtain ⟨o1, d1, h1, h2, h3, h4⟩ := track_diag env w.csr (w.elems i) w.bunch d bar (ht i (by simp))
    obtain ⟨w1, hw1⟩ : ∃ w1, w1 = (tm env bar i w).1 := ⟨_, rfl⟩
    have htm : tm env bar i w = (w1, .ok o1) := by
      rw [hw1]
      unfold tm
      rw [hd]
      dsimp only
      rw [h1]
    have hel := tm_elems env bar i w
    rw [← hw1] at hel
    have hd1 : w1.diag = some (d1.increaseZ (w.elems i).length) := by
      rw [hw1, ← h2]
      unfold tm
      rw [hd]
    obtain ⟨w', o2, d', g1, g2, g3, g4, g5⟩ := ih w1 _ hd1
      (fun j hj => by
        have := ht j (List.mem_cons_of_mem _ hj)
        obtain ⟨a1, -, a3, a4⟩ := hel j
        exact ⟨by rw [a1]; exact this.length, by rw [a3]; exact this.nOut, by rw [a4]; exact this.bar⟩)
    refine ⟨w', o1 ++ o2, d', ?_, g2, ?_, ?_, ?_⟩
    · have := line_append [tm env bar i] (ids.map (tm env bar)) w
      rw [line_single, htm] at this
      simp only [List.singleton_append] at this
      rw [List.map_cons, this, g1]
      rfl
    · rw [g3, List.length_append]
      have : (d1.increaseZ (w.elems i).length).index = d1.index := rfl
      rw [this, h4.index]
      omega
    · rw [g4, List.map_cons, List.sum_cons]
      simp only [(hel _).1, Diag.Diag.increaseZ, h3]
      ring
    · rw [g5]
      obtain ⟨new, e1, e2, e3⟩ := h4.written
      have a1 : (d1.increaseZ (w.elems i).length).written = d.written ++ new := e1
      have a2 : (d1.increaseZ (w.elems i).length).index = d.index + o1.length := h4.index
      rw [a1, a2, List.map_append, List.append_assoc, List.length_append, List.range_add, List.map_append,
        List.map_map]
      have a3 : new.map Record.index = (List.range o1.length).map (d.index + ·) := by
        apply List.ext_getElem
        · simp [e2]
        · intro k hk hk'
          simp only [List.length_map] at hk
          rw [List.getElem_map, List.getElem_map, List.getElem_range]
          exact (e3 k _ _ (List.getElem?_eq_getElem hk) (List.getElem?_eq_getElem (e2 ▸ hk))).1
      rw [a3]
      congr 2
      apply List.map_congr_left
      intro k _
      simp only [Function.comp_apply]
      omega

/-- Tracking through a beamline of transfer-map elements (without CSR; the same object may
occur several times): the line returns, the bunch advances by the sum of the lengths, and
there is one record per returned bunch, numbered consecutively over the whole line, with
its data and the time that belongs to its position. -/
theorem line_recorded (env : Env) (bar : Bool) (ids : List ℕ) (w : World) (d : Diag) (hd : w.diag = some d)
    (ht : ∀ i ∈ ids, Trackable (w.elems i) ⟨false, false, bar⟩) (hcsr : ∀ i ∈ ids, (w.elems i).csrOn = false) :
    ∃ w' outs d', lineTrack (ids.map (tm env bar)) w = (w', .ok outs) ∧ w'.diag = some d' ∧
      w'.bunch.propDistance = w.bunch.propDistance + (ids.map fun i => (w.elems i).length).sum ∧
      Recorded env.c d d' w.bunch w'.bunch outs := by
  induction ids generalizing w d with
  | nil => exact ⟨w, [], d, rfl, hd, by simp, Recorded.refl _ _ _⟩
  | cons i ids ih =>
    obtain ⟨o1, d1, h1, h2, h3, h4⟩ := track_recorded env w.csr (w.elems i) w.bunch d bar
      (ht i (by simp)) (hcsr i (by simp))
    set r := track env (w.elems i) w.csr w.bunch (some d) ⟨false, false, bar⟩ with hr
    set w1 : World := { elems := Function.update w.elems i r.elem, csr := r.csr, bunch := r.bunch, diag := r.diag }
      with hw1
    have htm : tm env bar i w = (w1, .ok o1) := by
      unfold tm
      rw [hd]
      dsimp only
      rw [← hr, h1]
    have hel : ∀ j, (w1.elems j).length = (w.elems j).length ∧ (w1.elems j).csrOn = (w.elems j).csrOn ∧
        (w1.elems j).nOut = (w.elems j).nOut ∧ (w1.elems j).prints = (w.elems j).prints := by
      intro j
      have he : w1.elems j = Function.update w.elems i r.elem j := rfl
      rw [he]
      by_cases hj : j = i
      · subst hj
        rw [Function.update_self, hr, track_elem]
        exact ⟨rfl, rfl, rfl, rfl⟩
      · rw [Function.update_of_ne hj]
        exact ⟨rfl, rfl, rfl, rfl⟩
    obtain ⟨w', o2, d', g1, g2, g3, g4⟩ := ih w1 d1 h2
      (fun j hj => by
        have := ht j (List.mem_cons_of_mem _ hj)
        obtain ⟨a1, -, a3, a4⟩ := hel j
        exact ⟨by rw [a1]; exact this.length, by rw [a3]; exact this.nOut, by rw [a4]; exact this.bar⟩)
      (fun j hj => by rw [(hel j).2.1]; exact hcsr j (List.mem_cons_of_mem _ hj))
    refine ⟨w', o1 ++ o2, d', ?_, g2, ?_, h4.trans g4⟩
    · have := line_append [tm env bar i] (ids.map (tm env bar)) w
      rw [line_single, htm] at this
      simp only [List.singleton_append] at this
      rw [List.map_cons, this, g1]
      rfl
    · rw [g3, List.map_cons, List.sum_cons]
      have : w1.bunch = r.bunch := rfl
      rw [this, h3]
      simp only [(hel _).1]
      ring

/-- With new diagnostics: iterations are numbered from zero, and a record is taken at the
distance that its bunch has travelled since the beginning of the line. -/
theorem line_from_zero (env : Env) (bar : Bool) (ids : List ℕ) (w : World)
    (ht : ∀ i ∈ ids, Trackable (w.elems i) ⟨false, false, bar⟩) (hcsr : ∀ i ∈ ids, (w.elems i).csrOn = false) :
    ∃ w' outs d', trackLine env bar ids w true none = (w', .ok outs) ∧ w'.diag = some d' ∧
      d'.zPos = (ids.map fun i => (w.elems i).length).sum ∧
      d'.written.map Record.index = List.range outs.length ∧
      ∀ (k : ℕ) (r : Record) (o : Bunch), d'.written[k]? = some r → outs[k]? = some o →
        r.time = (o.propDistance - w.bunch.propDistance) / env.c ∧ r.species = [speciesData env.c o r.time] := by
  obtain ⟨w', outs, d', h1, h2, h3, h4⟩ := line_recorded env bar ids { w with diag := some Diag.Diag.new }
    Diag.Diag.new rfl ht hcsr
  obtain ⟨new, e1, e2, e3⟩ := h4.written
  have e4 : d'.written = new := by rw [e1]; rfl
  refine ⟨w', outs, d', h1, h2, ?_, ?_, ?_⟩
  · rw [h4.zPos, h3]
    simp [Diag.Diag.new]
  · rw [e4]
    apply List.ext_getElem?
    intro k
    by_cases hk : k < new.length
    · have hk' : k < outs.length := e2 ▸ hk
      rw [List.getElem?_map, List.getElem?_eq_getElem hk, List.getElem?_range hk']
      have := (e3 k _ _ (List.getElem?_eq_getElem hk) (List.getElem?_eq_getElem hk')).1
      simpa [Diag.Diag.new] using this
    · rw [List.getElem?_eq_none (by simpa using hk), List.getElem?_eq_none (by rw [List.length_range, ← e2]; omega)]
  · intro k r o hr ho
    rw [e4] at hr
    obtain ⟨-, a2, a3⟩ := e3 k r o hr ho
    refine ⟨?_, a3⟩
    rw [a2]
    simp [Diag.Diag.new]

/-- With diagnostics of an earlier tracking: the earlier records stay, the numbering and the
position go on. -/
theorem line_continues (env : Env) (bar : Bool) (ids : List ℕ) (w : World) (d : Diag)
    (ht : ∀ i ∈ ids, Trackable (w.elems i) ⟨false, false, bar⟩) (hcsr : ∀ i ∈ ids, (w.elems i).csrOn = false) :
    ∃ w' outs d', trackLine env bar ids w true (some d) = (w', .ok outs) ∧ w'.diag = some d' ∧
      w'.bunch.propDistance = w.bunch.propDistance + (ids.map fun i => (w.elems i).length).sum ∧
      Recorded env.c d d' w.bunch w'.bunch outs :=
  line_recorded env bar ids { w with diag := some d } d rfl ht hcsr

/-- A line that passes the same quadrupole twice, with outputs. -/
example : ∃ w : World, (∀ i ∈ [0, 1, 0], Trackable (w.elems i) ⟨false, false, true⟩) ∧
    (∀ i ∈ [0, 1, 0], (w.elems i).csrOn = false) :=
  ⟨⟨fun _ => { quad with nOut := some 2 }, Calc.new 1 1, single 0 1, none⟩,
    fun _ _ => ⟨by norm_num [quad], by simp, fun _ => rfl⟩, fun _ _ => rfl⟩

/-! ### C84: several bunches -/

/-- Partial: with a single bunch (elements return lists of bunches) a line of `k` elements with `m` outputs each
returns all of them.  Missing: several bunches, see `several_bunches_violated`. -/
theorem line_outputs_partial {σ ε α : Type} (items : List (Item σ ε α)) (m : ℕ)
    (h : ∀ it ∈ items, ∀ w, ∃ w' outs, it w = (w', .ok outs) ∧ outs.length = m) (w : σ) :
    ∃ w' outs, lineTrack items w = (w', .ok outs) ∧ outs.length = items.length * m := by
  induction items generalizing w with
  | nil => exact ⟨w, [], rfl, by simp⟩
  | cons it its ih =>
    obtain ⟨w1, o1, h1, l1⟩ := h it (by simp) w
    obtain ⟨w2, o2, h2, l2⟩ := ih (fun i hi => h i (List.mem_cons_of_mem _ hi)) w1
    refine ⟨w2, o1 ++ o2, ?_, ?_⟩
    · have := line_append [it] its w
      rw [line_single, h1] at this
      simp only [List.singleton_append] at this
      rw [this, h2]
      rfl
    · rw [List.length_append, l1, l2, List.length_cons]
      ring

/-- Elements that track two bunches return one list per bunch; a line of two such elements
returns four lists, not one list per bunch with the outputs of the whole line. -/
theorem several_bunches_violated {σ ε β : Type} (e1 e2 : Item σ ε (List β)) (w w1 w2 : σ) (a b a' b' : List β)
    (h1 : e1 w = (w1, .ok [a, b])) (h2 : e2 w1 = (w2, .ok [a', b'])) :
    lineTrack [e1, e2] w = (w2, .ok [a, b, a', b']) := by
  simp [lineTrack, lineLoop, h1, h2]

example : ∃ (e1 e2 : Item Unit Unit (List ℕ)), e1 () = ((), .ok [[1], [2]]) ∧ e2 () = ((), .ok [[3], [4]]) ∧
    lineTrack [e1, e2] () ≠ ((), .ok [[1, 3], [2, 4]]) :=
  ⟨fun _ => ((), .ok [[1], [2]]), fun _ => ((), .ok [[3], [4]]), rfl, rfl, by simp [lineTrack, lineLoop]⟩

end WakeT.Beamline
