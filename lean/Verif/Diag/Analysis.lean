import Verif.Bunch.Model
import Verif.Base.Tactics

/-! # Analysis of bunches

`wake_t/diagnostics/bunch_analysis.py`.  The statistics of the package `aptools` are parameters. -/

set_option linter.unusedSectionVars false

namespace WakeT.Diag

open Bunch

/-- The functions of `aptools.data_analysis.beam_diagnostics` (calls in bunch_analysis.py 112-136), with the arguments in the order of
the calls.  Results that are not used are left out. -/
structure Stats where
  twiss : List ℝ → List ℝ → List ℝ → List ℝ → List ℝ → ℝ × ℝ × ℝ
  meanEnergy : List ℝ → List ℝ → List ℝ → List ℝ → ℝ
  spread : List ℝ → List ℝ → List ℝ → List ℝ → ℝ
  sliceSpread : List ℝ → List ℝ → List ℝ → List ℝ → List ℝ → ℕ → Option ℝ → ℝ
  emittance : List ℝ → List ℝ → List ℝ → List ℝ → List ℝ → ℝ
  sliceEmittance : List ℝ → List ℝ → List ℝ → List ℝ → List ℝ → List ℝ → ℕ → Option ℝ → ℝ
  rmsLength : List ℝ → List ℝ → ℝ
  rmsSize : List ℝ → List ℝ → ℝ
  peakCurrent : List ℝ → List ℝ → ℕ → Option ℝ → ℝ

/-- `np.average(x, weights=q)` (bunch_analysis.py 130-133); `none` is the `ZeroDivisionError` for weights that sum up to zero. -/
noncomputable def average (x q : List ℝ) : Option ℝ :=
  if q.sum = 0 then none else some ((List.zipWith (· * ·) x q).sum / q.sum)

/-- `_get_distribution_parameters` (bunch_analysis.py 111-140): the returned tuple. -/
noncomputable def distribution (A : Stats) (x y z px py pz q : List ℝ) (nSlices : ℕ) (lenSlice : Option ℝ) : Option (List ℝ) :=
  let tx := A.twiss x px pz py q                                        -- 112
  let ty := A.twiss y py pz px q                                        -- 113
  let ene := A.meanEnergy px py pz q                                    -- 114
  let eneSp := A.spread px py pz q                                      -- 115
  let eneSpSlAvg := A.sliceSpread z px py pz q nSlices lenSlice         -- 116-118
  let emX := A.emittance x px py pz q                                   -- 119
  let emY := A.emittance y py px pz q                                   -- 120
  let emXSlAvg := A.sliceEmittance z x px py pz q nSlices lenSlice      -- 121-123
  let emYSlAvg := A.sliceEmittance z y py px pz q nSlices lenSlice      -- 124-126
  let sZ := A.rmsLength z q                                             -- 127
  let sX := A.rmsSize x q                                               -- 128
  let sY := A.rmsSize y q                                               -- 129
  match average x q, average y q, average px q, average py q with       -- 130-133
  | some xAvg, some yAvg, some pxAvg, some pyAvg =>
    let thetaX := pxAvg / ene                                           -- 134
    let thetaY := pyAvg / ene                                           -- 135
    let iPeak := A.peakCurrent z q nSlices lenSlice                     -- 136
    let qTot := q.sum                                                   -- 137
    some [thetaX, thetaY, xAvg, yAvg, sX, sY, tx.1, ty.1, tx.2.1, ty.2.1, tx.2.2, ty.2.2, emX, emY, emXSlAvg, emYSlAvg, ene, eneSp,
      eneSpSlAvg, iPeak, sZ, qTot]                                      -- 138-140
  | _, _, _, _ => none

/-- `_store_bunch_parameters_into_dict` (bunch_analysis.py 143-172), called with positional arguments; `none` is the `TypeError`
for a wrong number of arguments. -/
def store {α : Type} (dist : α) : List α → Option (List (String × α))
  | [thetaX, thetaY, xAvg, yAvg, sX, sY, aX, aY, bX, bY, gX, gY, emX, emY, emXSlAvg, emYSlAvg, ene, eneSp, eneSpSlAvg, iPeak, sZ, qTot] => some [
      ("prop_dist", dist), ("theta_x", thetaX), ("theta_y", thetaY), ("x_avg", xAvg), ("y_avg", yAvg),
      ("sigma_x", sX), ("sigma_y", sY), ("sigma_z", sZ), ("alpha_x", aX), ("alpha_y", aY), ("beta_x", bX),
      ("beta_y", bY), ("gamma_x", gX), ("gamma_y", gY), ("emitt_x", emX), ("emitt_y", emY),
      ("avg_slice_emitt_x", emXSlAvg), ("avg_slice_emitt_y", emYSlAvg), ("avg_ene", ene), ("rel_ene_spread",
      eneSp), ("avg_slice_rel_ene_spread", eneSpSlAvg), ("i_peak", iPeak), ("q_tot", qTot)]
  | _ => none

/-- Coordinates of the particles of a bunch (bunch_analysis.py 22, 64). -/
def coord (b : Bunch) (f : Push.Ph → ℝ) : List ℝ := (List.range b.n).map fun i => f (b.ph i)

/-- `_get_distribution_parameters` called with a bunch (bunch_analysis.py 21-23, 63-65). -/
noncomputable def distributionOf (A : Stats) (nSlices : ℕ) (lenSlice : Option ℝ) (b : Bunch) : Option (List ℝ) :=
  distribution A (coord b (·.x)) (coord b (·.y)) (coord b (·.xi)) (coord b (·.px)) (coord b (·.py)) (coord b (·.pz))
    ((List.range b.n).map b.q) nSlices lenSlice

/-- `analyze_bunch` (bunch_analysis.py 14-27). -/
noncomputable def analyze (A : Stats) (nSlices : ℕ) (lenSlice : Option ℝ) (b : Bunch) : Option (List (String × ℝ)) :=
  (distributionOf A nSlices lenSlice b).bind (store b.propDistance)

/-- One item for each of the arrays of `analyze_bunch_list` (bunch_analysis.py 37-58). -/
structure Items (α : Type) where
  dist : α
  thetaX : α
  thetaY : α
  xAvg : α
  yAvg : α
  sX : α
  sY : α
  aX : α
  aY : α
  bX : α
  bY : α
  gX : α
  gY : α
  emX : α
  emY : α
  emXSlAvg : α
  emYSlAvg : α
  ene : α
  eneSp : α
  eneSpSlAvg : α
  iPeak : α
  sZ : α
  qTot : α

/-- The assignment to the tuple of array items (bunch_analysis.py 66-69) for the loop index `i`: `arr[i] = value`; `none` is the
`ValueError` for a wrong number of values. -/
def Items.assign (a : Items (List ℝ)) (i : ℕ) : List ℝ → Option (Items (List ℝ))
  | [thetaX, thetaY, xAvg, yAvg, sX, sY, aX, aY, bX, bY, gX, gY, emX, emY, emXSlAvg, emYSlAvg, ene, eneSp, eneSpSlAvg, iPeak, sZ, qTot] => some {
      dist := a.dist
      thetaX := a.thetaX.set i thetaX
      thetaY := a.thetaY.set i thetaY
      xAvg := a.xAvg.set i xAvg
      yAvg := a.yAvg.set i yAvg
      sX := a.sX.set i sX
      sY := a.sY.set i sY
      aX := a.aX.set i aX
      aY := a.aY.set i aY
      bX := a.bX.set i bX
      bY := a.bY.set i bY
      gX := a.gX.set i gX
      gY := a.gY.set i gY
      emX := a.emX.set i emX
      emY := a.emY.set i emY
      emXSlAvg := a.emXSlAvg.set i emXSlAvg
      emYSlAvg := a.emYSlAvg.set i emYSlAvg
      ene := a.ene.set i ene
      eneSp := a.eneSp.set i eneSp
      eneSpSlAvg := a.eneSpSlAvg.set i eneSpSlAvg
      iPeak := a.iPeak.set i iPeak
      sZ := a.sZ.set i sZ
      qTot := a.qTot.set i qTot }
  | _ => none

/-- The body of the loop (bunch_analysis.py 62-69). -/
noncomputable def Items.iter (A : Stats) (nSlices : ℕ) (lenSlice : Option ℝ) (a : Items (List ℝ)) (i : ℕ) (b : Bunch) :
    Option (Items (List ℝ)) :=
  let a := { a with dist := a.dist.set i b.propDistance }
  (distributionOf A nSlices lenSlice b).bind (a.assign i)

/-- The loop (bunch_analysis.py 61). -/
noncomputable def Items.loop (A : Stats) (nSlices : ℕ) (lenSlice : Option ℝ) (a : Items (List ℝ)) : ℕ → List Bunch → Option (Items (List ℝ))
  | _, [] => some a
  | i, b :: bs => (a.iter A nSlices lenSlice i b).bind fun a => Items.loop A nSlices lenSlice a (i + 1) bs

/-- `analyze_bunch_list` (bunch_analysis.py 30-76). -/
noncomputable def analyzeList (A : Stats) (nSlices : ℕ) (lenSlice : Option ℝ) (bs : List Bunch) : Option (List (String × List ℝ)) :=
  let z := List.replicate bs.length (0 : ℝ)
  (Items.loop A nSlices lenSlice ⟨z, z, z, z, z, z, z, z, z, z, z, z, z, z, z, z, z, z, z, z, z, z, z⟩ 0 bs).bind fun a =>
    store a.dist [a.thetaX, a.thetaY, a.xAvg, a.yAvg, a.sX, a.sY, a.aX, a.aY, a.bX, a.bY, a.gX, a.gY, a.emX, a.emY, a.emXSlAvg, a.emYSlAvg, a.ene, a.eneSp, a.eneSpSlAvg, a.iPeak, a.sZ, a.qTot]

/-! ### Lists of bunches (C138) -/

/-- The items in the order of the tuple. -/
def Items.values {α : Type} (x : Items α) : List α := [x.thetaX, x.thetaY, x.xAvg, x.yAvg, x.sX, x.sY, x.aX, x.aY, x.bX, x.bY, x.gX, x.gY, x.emX, x.emY, x.emXSlAvg, x.emYSlAvg, x.ene, x.eneSp, x.eneSpSlAvg, x.iPeak, x.sZ, x.qTot]

/-- All items by number. -/
def Items.get {α : Type} (x : Items α) (k : Fin 23) : α := (x.dist :: x.values).get k

/-- The numbers of the items of the keys of the dictionary. -/
def table : List (String × Fin 23) :=
  [("prop_dist", 0), ("theta_x", 1), ("theta_y", 2), ("x_avg", 3), ("y_avg", 4), ("sigma_x", 5), ("sigma_y", 6), ("sigma_z", 21), ("alpha_x", 7), ("alpha_y", 8), ("beta_x", 9), ("beta_y", 10), ("gamma_x", 11), ("gamma_y", 12), ("emitt_x", 13), ("emitt_y", 14), ("avg_slice_emitt_x", 15), ("avg_slice_emitt_y", 16), ("avg_ene", 17), ("rel_ene_spread", 18), ("avg_slice_rel_ene_spread", 19), ("i_peak", 20), ("q_tot", 22)]

theorem store_values {α : Type} (x : Items α) : store x.dist x.values = some (table.map fun p => (p.1, x.get p.2)) := rfl

/-- All items of one bunch. -/
noncomputable def itemsOf (A : Stats) (n : ℕ) (l : Option ℝ) (b : Bunch) : Option (Items ℝ) :=
  (distributionOf A n l b).bind fun
    | [thetaX, thetaY, xAvg, yAvg, sX, sY, aX, aY, bX, bY, gX, gY, emX, emY, emXSlAvg, emYSlAvg, ene, eneSp, eneSpSlAvg, iPeak, sZ, qTot] => some ⟨b.propDistance, thetaX, thetaY, xAvg, yAvg, sX, sY, aX, aY, bX, bY, gX, gY, emX, emY, emXSlAvg, emYSlAvg, ene, eneSp, eneSpSlAvg, iPeak, sZ, qTot⟩
    | _ => none

/-- All arrays with the item `i` replaced. -/
def Items.setAll (a : Items (List ℝ)) (i : ℕ) (v : Items ℝ) : Items (List ℝ) :=
  ⟨a.dist.set i v.dist, a.thetaX.set i v.thetaX, a.thetaY.set i v.thetaY, a.xAvg.set i v.xAvg, a.yAvg.set i v.yAvg, a.sX.set i v.sX, a.sY.set i v.sY, a.aX.set i v.aX, a.aY.set i v.aY, a.bX.set i v.bX, a.bY.set i v.bY, a.gX.set i v.gX, a.gY.set i v.gY, a.emX.set i v.emX, a.emY.set i v.emY, a.emXSlAvg.set i v.emXSlAvg, a.emYSlAvg.set i v.emYSlAvg, a.ene.set i v.ene, a.eneSp.set i v.eneSp, a.eneSpSlAvg.set i v.eneSpSlAvg, a.iPeak.set i v.iPeak, a.sZ.set i v.sZ, a.qTot.set i v.qTot⟩

theorem setAll_get (a : Items (List ℝ)) (i : ℕ) (v : Items ℝ) (k : Fin 23) : (a.setAll i v).get k = (a.get k).set i (v.get k) := by
  fin_cases k <;> rfl

theorem distribution_cases (A : Stats) (n : ℕ) (l : Option ℝ) (b : Bunch) :
    (distributionOf A n l b = none ∧ itemsOf A n l b = none) ∨
    ∃ v, distributionOf A n l b = some v.values ∧ itemsOf A n l b = some v ∧ v.dist = b.propDistance := by
  cases h : distributionOf A n l b with
  | none => left; exact ⟨rfl, by unfold itemsOf; rw [h]; rfl⟩
  | some r =>
    right
    have h' := h
    unfold distributionOf distribution at h
    dsimp only at h
    split at h
    · have hr := (Option.some.inj h).symm
      unfold itemsOf
      rw [h', hr]
      exact ⟨_, rfl, rfl, rfl⟩
    · cases h

theorem iter_eq (A : Stats) (n : ℕ) (l : Option ℝ) (a : Items (List ℝ)) (i : ℕ) (b : Bunch) :
    a.iter A n l i b = (itemsOf A n l b).map (a.setAll i) := by
  unfold Items.iter
  rcases distribution_cases A n l b with ⟨h1, h2⟩ | ⟨v, h1, h2, h3⟩
  · rw [h1, h2]; rfl
  · rw [h1, h2]
    show _ = some (a.setAll i v)
    dsimp only [Option.bind_some, Items.values, Items.assign, Items.setAll]
    rw [h3]

theorem analyze_eq (A : Stats) (n : ℕ) (l : Option ℝ) (b : Bunch) :
    analyze A n l b = (itemsOf A n l b).map fun v => table.map fun p => (p.1, v.get p.2) := by
  unfold analyze
  rcases distribution_cases A n l b with ⟨h1, h2⟩ | ⟨v, h1, h2, h3⟩
  · rw [h1, h2]; rfl
  · rw [h1, h2]
    show store b.propDistance v.values = _
    rw [← h3, store_values]
    rfl

/-- Assignments to consecutive items of an array. -/
def write (a : List ℝ) (i : ℕ) : List ℝ → List ℝ
  | [] => a
  | v :: vs => write (a.set i v) (i + 1) vs

theorem write_eq (pre rest vs : List ℝ) (h : rest.length = vs.length) : write (pre ++ rest) pre.length vs = pre ++ vs := by
  induction vs generalizing pre rest with
  | nil => rw [List.length_eq_zero_iff.mp h]; rfl
  | cons v vs ih =>
    cases rest with
    | nil => cases h
    | cons r rest =>
      show write ((pre ++ r :: rest).set pre.length v) (pre.length + 1) vs = _
      have e : (pre ++ r :: rest).set pre.length v = (pre ++ [v]) ++ rest := by
        rw [List.set_append_right _ _ (le_refl _), Nat.sub_self, List.set_cons_zero, List.append_assoc]; rfl
      have hl : pre.length + 1 = (pre ++ [v]).length := by simp
      rw [e, hl, ih (pre ++ [v]) rest (by simpa using h), List.append_assoc]
      rfl

theorem loop_eq (A : Stats) (n : ℕ) (l : Option ℝ) (bs : List Bunch) (a : Items (List ℝ)) (i : ℕ) :
    (Items.loop A n l a i bs = none ∧ ∃ b ∈ bs, itemsOf A n l b = none) ∨
    ∃ vs a', Items.loop A n l a i bs = some a' ∧ List.Forall₂ (fun b v => itemsOf A n l b = some v) bs vs ∧
      ∀ k, a'.get k = write (a.get k) i (vs.map (·.get k)) := by
  induction bs generalizing a i with
  | nil => right; exact ⟨[], a, rfl, .nil, fun _ => rfl⟩
  | cons b bs ih =>
    cases hb : itemsOf A n l b with
    | none =>
      left
      refine ⟨?_, b, List.mem_cons_self .., hb⟩
      unfold Items.loop
      rw [iter_eq, hb]; rfl
    | some v =>
      have e : Items.loop A n l a i (b :: bs) = Items.loop A n l (a.setAll i v) (i + 1) bs := by
        rw [Items.loop, iter_eq, hb]; rfl
      rw [e]
      rcases ih (a.setAll i v) (i + 1) with ⟨h1, b', h2, h3⟩ | ⟨vs, a', h1, h2, h3⟩
      · exact .inl ⟨h1, b', List.mem_cons_of_mem _ h2, h3⟩
      · refine .inr ⟨v :: vs, a', h1, .cons hb h2, fun k => ?_⟩
        rw [h3, setAll_get]; rfl

theorem list_eq (A : Stats) (n : ℕ) (l : Option ℝ) (bs : List Bunch) :
    (analyzeList A n l bs = none ∧ ∃ b ∈ bs, itemsOf A n l b = none) ∨
    ∃ vs, List.Forall₂ (fun b v => itemsOf A n l b = some v) bs vs ∧
      analyzeList A n l bs = some (table.map fun p => (p.1, vs.map (·.get p.2))) := by
  unfold analyzeList
  dsimp only
  generalize ha : (⟨_, _, _, _, _, _, _, _, _, _, _, _, _, _, _, _, _, _, _, _, _, _, _⟩ : Items (List ℝ)) = a
  have hget : ∀ k, a.get k = List.replicate bs.length (0 : ℝ) := by
    intro k; rw [← ha]; fin_cases k <;> rfl
  rcases loop_eq A n l bs a 0 with ⟨h1, h2⟩ | ⟨vs, a', h1, h2, h3⟩
  · rw [h1]; exact .inl ⟨rfl, h2⟩
  · refine .inr ⟨vs, h2, ?_⟩
    rw [h1]
    show store a'.dist a'.values = _
    rw [store_values]
    congr 1
    refine List.map_congr_left fun p _ => ?_
    have h := write_eq [] (List.replicate bs.length 0) (vs.map (·.get p.2)) (by simp [h2.length_eq])
    rw [h3, hget]
    exact congrArg _ h

theorem lookup_map {α β : Type} (t : List (String × α)) (f : α → β) (key : String) :
    (t.map fun p => (p.1, f p.2)).lookup key = (t.lookup key).map f := by
  induction t with
  | nil => rfl
  | cons p t ih =>
    obtain ⟨s, a⟩ := p
    rw [List.map_cons, List.lookup_cons, List.lookup_cons, ih]
    cases key == s <;> rfl

/-- **C138.** The dictionary of a list of bunches has, for every key, an array with one item per bunch; item `i` is the value of that key
in the dictionary of bunch `i`. -/
theorem list_items (A : Stats) (n : ℕ) (l : Option ℝ) (bs : List Bunch) {d : List (String × List ℝ)} (h : analyzeList A n l bs = some d)
    (i : ℕ) (b : Bunch) (hb : bs[i]? = some b) : ∃ e, analyze A n l b = some e ∧ e.map Prod.fst = d.map Prod.fst ∧
      ∀ key v, e.lookup key = some v → ∃ arr, d.lookup key = some arr ∧ arr.length = bs.length ∧ arr[i]? = some v := by
  rcases list_eq A n l bs with ⟨h1, -⟩ | ⟨vs, h1, h2⟩
  · rw [h] at h1; cases h1
  · rw [h] at h2
    obtain rfl := Option.some.inj h2
    obtain ⟨v, hv, hvs⟩ : ∃ v, itemsOf A n l b = some v ∧ vs[i]? = some v := by
      have hi : i < bs.length := (List.getElem?_eq_some_iff.mp hb).1
      have hi' : i < vs.length := h1.length_eq ▸ hi
      refine ⟨vs[i], ?_, List.getElem?_eq_getElem hi'⟩
      rw [← (List.getElem?_eq_some_iff.mp hb).2]
      exact h1.get hi hi'
    refine ⟨_, by rw [analyze_eq, hv]; rfl, ?_, ?_⟩
    · rw [List.map_map, List.map_map]; rfl
    · intro key u hu
      rw [lookup_map] at hu
      rw [lookup_map table fun k => vs.map (·.get k)]
      obtain ⟨k, hk, rfl⟩ := Option.map_eq_some_iff.mp hu
      refine ⟨vs.map (·.get k), by rw [hk]; rfl, by rw [List.length_map, h1.length_eq], ?_⟩
      rw [List.getElem?_map, hvs]; rfl

/-- **C138.** The analysis of a list fails only if that of one of its bunches fails. -/
theorem list_fails (A : Stats) (n : ℕ) (l : Option ℝ) (bs : List Bunch) :
    analyzeList A n l bs = none ↔ ∃ b ∈ bs, analyze A n l b = none := by
  have he : ∀ b, analyze A n l b = none ↔ itemsOf A n l b = none := by
    intro b; rw [analyze_eq, Option.map_eq_none_iff]
  simp only [he]
  rcases list_eq A n l bs with ⟨h1, h2⟩ | ⟨vs, h1, h2⟩
  · exact ⟨fun _ => h2, fun _ => h1⟩
  · constructor
    · intro h; rw [h] at h2; cases h2
    · rintro ⟨b, hb, h⟩
      obtain ⟨v, -, hv⟩ : ∃ v ∈ vs, itemsOf A n l b = some v := by
        clear h2
        induction h1 with
        | nil => cases hb
        | cons h _ ih =>
          rcases List.mem_cons.mp hb with rfl | hb
          · exact ⟨_, List.mem_cons_self .., h⟩
          · obtain ⟨v, hv, hv'⟩ := ih hb
            exact ⟨v, List.mem_cons_of_mem _ hv, hv'⟩
      rw [h] at hv; cases hv

/-! ### The values -/

/-- Mean of a quantity, weighted with the charges of the particles. -/
noncomputable def mean (b : Bunch) (f : Push.Ph → ℝ) : ℝ :=
  (∑ i ∈ Finset.range b.n, f (b.ph i) * b.q i) / ∑ i ∈ Finset.range b.n, b.q i

theorem sum_q (b : Bunch) : ((List.range b.n).map b.q).sum = ∑ i ∈ Finset.range b.n, b.q i := by
  rw [← Finset.sum_map_val]; rfl

theorem average_eq (b : Bunch) (f : Push.Ph → ℝ) : average (coord b f) ((List.range b.n).map b.q) =
    if ∑ i ∈ Finset.range b.n, b.q i = 0 then none else some (mean b f) := by
  unfold average coord mean
  rw [sum_q, List.zipWith_map, List.zipWith_self, ← Finset.sum_map_val]
  rfl

/-- **C138.** The keys of the dictionary of one bunch.  The analysis fails only for bunches without charge. -/
theorem analyze_values (A : Stats) (n : ℕ) (l : Option ℝ) (b : Bunch) (hq : ∑ i ∈ Finset.range b.n, b.q i ≠ 0) :
    let x := coord b (·.x)
    let y := coord b (·.y)
    let z := coord b (·.xi)
    let px := coord b (·.px)
    let py := coord b (·.py)
    let pz := coord b (·.pz)
    let q := (List.range b.n).map b.q
    ∃ e, analyze A n l b = some e ∧
      e.lookup "prop_dist" = some b.propDistance ∧
      e.lookup "theta_x" = some (mean b (·.px) / A.meanEnergy px py pz q) ∧
      e.lookup "theta_y" = some (mean b (·.py) / A.meanEnergy px py pz q) ∧
      e.lookup "x_avg" = some (mean b (·.x)) ∧
      e.lookup "y_avg" = some (mean b (·.y)) ∧
      e.lookup "sigma_x" = some (A.rmsSize x q) ∧
      e.lookup "sigma_y" = some (A.rmsSize y q) ∧
      e.lookup "sigma_z" = some (A.rmsLength z q) ∧
      e.lookup "alpha_x" = some (A.twiss x px pz py q).1 ∧
      e.lookup "alpha_y" = some (A.twiss y py pz px q).1 ∧
      e.lookup "beta_x" = some (A.twiss x px pz py q).2.1 ∧
      e.lookup "beta_y" = some (A.twiss y py pz px q).2.1 ∧
      e.lookup "gamma_x" = some (A.twiss x px pz py q).2.2 ∧
      e.lookup "gamma_y" = some (A.twiss y py pz px q).2.2 ∧
      e.lookup "emitt_x" = some (A.emittance x px py pz q) ∧
      e.lookup "emitt_y" = some (A.emittance y py px pz q) ∧
      e.lookup "avg_slice_emitt_x" = some (A.sliceEmittance z x px py pz q n l) ∧
      e.lookup "avg_slice_emitt_y" = some (A.sliceEmittance z y py px pz q n l) ∧
      e.lookup "avg_ene" = some (A.meanEnergy px py pz q) ∧
      e.lookup "rel_ene_spread" = some (A.spread px py pz q) ∧
      e.lookup "avg_slice_rel_ene_spread" = some (A.sliceSpread z px py pz q n l) ∧
      e.lookup "i_peak" = some (A.peakCurrent z q n l) ∧
      e.lookup "q_tot" = some (∑ i ∈ Finset.range b.n, b.q i) := by
  intro x y z px py pz q
  unfold analyze distributionOf distribution
  dsimp only
  simp only [average_eq, if_neg hq, sum_q]
  exact ⟨_, rfl, rfl, rfl, rfl, rfl, rfl, rfl, rfl, rfl, rfl, rfl, rfl, rfl, rfl, rfl, rfl, rfl, rfl, rfl, rfl, rfl, rfl, rfl, rfl⟩

/-- The bunch with the two transverse planes exchanged. -/
def exchange (b : Bunch) : Bunch :=
  { b with ph := fun i => ⟨(b.ph i).y, (b.ph i).x, (b.ph i).xi, (b.ph i).py, (b.ph i).px, (b.ph i).pz⟩ }

/-- Pairs of keys for the two planes. -/
def planes : List (String × String) :=
  [("theta_x", "theta_y"), ("x_avg", "y_avg"), ("sigma_x", "sigma_y"), ("alpha_x", "alpha_y"), ("beta_x", "beta_y"),
    ("gamma_x", "gamma_y"), ("emitt_x", "emitt_y"), ("avg_slice_emitt_x", "avg_slice_emitt_y")]

/-- **C138.** If the energies are computed symmetrically in the two transverse momenta, exchanging the planes of a bunch exchanges the values
of the keys for the two planes, and changes no other value. -/
theorem exchange_planes (A : Stats) (h1 : ∀ a b c q, A.meanEnergy a b c q = A.meanEnergy b a c q)
    (h2 : ∀ a b c q, A.spread a b c q = A.spread b a c q)
    (h3 : ∀ z a b c q n l, A.sliceSpread z a b c q n l = A.sliceSpread z b a c q n l) (n : ℕ) (l : Option ℝ) (b : Bunch)
    (hq : ∑ i ∈ Finset.range b.n, b.q i ≠ 0) :
    ∃ e e', analyze A n l b = some e ∧ analyze A n l (exchange b) = some e' ∧
      (∀ p ∈ planes, e'.lookup p.1 = e.lookup p.2 ∧ e'.lookup p.2 = e.lookup p.1) ∧
      ∀ key ∈ e.map Prod.fst, (∀ p ∈ planes, key ≠ p.1 ∧ key ≠ p.2) → e'.lookup key = e.lookup key := by
  have hq' : ∑ i ∈ Finset.range (exchange b).n, (exchange b).q i ≠ 0 := hq
  unfold analyze distributionOf distribution
  dsimp only
  simp only [average_eq, if_neg hq, if_neg hq', sum_q]
  refine ⟨_, _, rfl, rfl, ?_, ?_⟩
  · have hm := h1 (coord b (·.px)) (coord b (·.py)) (coord b (·.pz)) ((List.range b.n).map b.q)
    intro p hp
    simp only [planes, List.mem_cons, List.not_mem_nil, or_false] at hp
    rcases hp with rfl | rfl | rfl | rfl | rfl | rfl | rfl | rfl
    · constructor
      · show some (mean b (·.py) / A.meanEnergy (coord b (·.py)) (coord b (·.px)) (coord b (·.pz)) ((List.range b.n).map b.q)) =
          some (mean b (·.py) / A.meanEnergy (coord b (·.px)) (coord b (·.py)) (coord b (·.pz)) ((List.range b.n).map b.q))
        rw [hm]
      · show some (mean b (·.px) / A.meanEnergy (coord b (·.py)) (coord b (·.px)) (coord b (·.pz)) ((List.range b.n).map b.q)) =
          some (mean b (·.px) / A.meanEnergy (coord b (·.px)) (coord b (·.py)) (coord b (·.pz)) ((List.range b.n).map b.q))
        rw [hm]
    all_goals exact ⟨rfl, rfl⟩
  · intro key hk hp
    simp only [planes, List.mem_cons, List.not_mem_nil, or_false, forall_eq_or_imp, forall_eq] at hp
    obtain ⟨p1, p2, p3, p4, p5, p6, p7, p8⟩ := hp
    have hk : key ∈ table.map Prod.fst := hk
    simp only [table, List.map_cons, List.map_nil, List.mem_cons, List.not_mem_nil, or_false] at hk
    rcases hk with h | h | h | h | h | h | h | h | h | h | h | h | h | h | h | h | h | h | h | h | h | h | h <;> subst h
    all_goals first
      | rfl
      | exact absurd rfl p1.1
      | exact absurd rfl p1.2
      | exact absurd rfl p2.1
      | exact absurd rfl p2.2
      | exact absurd rfl p3.1
      | exact absurd rfl p3.2
      | exact absurd rfl p4.1
      | exact absurd rfl p4.2
      | exact absurd rfl p5.1
      | exact absurd rfl p5.2
      | exact absurd rfl p6.1
      | exact absurd rfl p6.2
      | exact absurd rfl p7.1
      | exact absurd rfl p7.2
      | exact absurd rfl p8.1
      | exact absurd rfl p8.2
      | exact congrArg some (h1 _ _ _ _)
      | exact congrArg some (h2 _ _ _ _)
      | exact congrArg some (h3 _ _ _ _ _ _ _)

/-! ### Files (C139) -/

/-- `save_parameters_to_file` (bunch_analysis.py 79-85): the data sets of the file. -/
def saveParameters {α : Type} (d : List (String × α)) : List (String × α) :=
  d.foldl (fun file p => file ++ [(p.1, p.2)]) []

/-- `read_parameters_from_file` (bunch_analysis.py 88-93): the keys of a file are in alphabetical order.  `hasValue` says whether data
sets have the attribute `value`; `h5py` removed it in version 3.0, and `none` is the `AttributeError`. -/
def readParameters {α : Type} (hasValue : Bool) (file : List (String × α)) : Option (List (String × α)) :=
  (file.mergeSort fun a b => decide (a.1 ≤ b.1)).mapM fun p => if hasValue then some p else none

theorem save_eq {α : Type} (d : List (String × α)) : saveParameters d = d := by
  have : ∀ (l acc : List (String × α)), l.foldl (fun file p => file ++ [(p.1, p.2)]) acc = acc ++ l := by
    intro l
    induction l with
    | nil => intro acc; simp
    | cons p l ih => intro acc; rw [List.foldl_cons, ih, List.append_assoc]; rfl
  exact (this d []).trans (List.nil_append d)

theorem lookup_perm {α : Type} {l l' : List (String × α)} (h : l.Perm l') (hn : (l.map Prod.fst).Nodup) (key : String) :
    l.lookup key = l'.lookup key := by
  induction h with
  | nil => rfl
  | cons p _ ih =>
    rw [List.map_cons, List.nodup_cons] at hn
    obtain ⟨s, a⟩ := p
    rw [List.lookup_cons, List.lookup_cons, ih hn.2]
  | swap p q l =>
    obtain ⟨s, a⟩ := p
    obtain ⟨t, b⟩ := q
    simp only [List.map_cons, List.nodup_cons, List.mem_cons, not_or] at hn
    simp only [List.lookup_cons]
    by_cases h1 : key = s
    · have h2 : key ≠ t := fun h => hn.1.1 (h.symm.trans h1)
      rw [beq_eq_false_iff_ne.mpr h2]
    · rw [beq_eq_false_iff_ne.mpr h1]
  | trans h1 _ ih1 ih2 => rw [ih1 hn, ih2 ((h1.map Prod.fst).nodup_iff.mp hn)]

/-- **C139, partial.** With `h5py` before version 3.0, the parameters that are read are those that were saved. -/
theorem read_saved_partial {α : Type} (d : List (String × α)) (hn : (d.map Prod.fst).Nodup) :
    ∃ d', readParameters true (saveParameters d) = some d' ∧ ∀ key, d'.lookup key = d.lookup key := by
  refine ⟨d.mergeSort fun a b => decide (a.1 ≤ b.1), ?_, fun key =>
    (lookup_perm (List.mergeSort_perm d _).symm hn key).symm⟩
  unfold readParameters
  rw [save_eq]
  generalize d.mergeSort _ = l
  induction l with
  | nil => rfl
  | cons p l ih =>
    rw [List.mapM_cons, ih]
    rfl

/-- **C139, violated.** With `h5py` from version 3.0 on, no file with parameters can be read. -/
theorem read_saved_violated {α : Type} (d : List (String × α)) (hd : d ≠ []) : readParameters false (saveParameters d) = none := by
  unfold readParameters
  rw [save_eq]
  have hl : d.mergeSort (fun a b => decide (a.1 ≤ b.1)) ≠ [] := by
    intro h
    have := (List.mergeSort_perm d fun a b => decide (a.1 ≤ b.1)).length_eq
    rw [h] at this
    exact hd (List.length_eq_zero_iff.mp this.symm)
  generalize d.mergeSort _ = l at hl
  cases l with
  | nil => exact absurd rfl hl
  | cons p l => rfl

/-- **C139.** The dictionaries of the analysis can be saved: their keys are different. -/
theorem keys_nodup (A : Stats) (n : ℕ) (l : Option ℝ) (bs : List Bunch) {d : List (String × List ℝ)} (h : analyzeList A n l bs = some d) :
    (d.map Prod.fst).Nodup ∧ d ≠ [] := by
  rcases list_eq A n l bs with ⟨h1, -⟩ | ⟨vs, -, h2⟩
  · rw [h] at h1; cases h1
  · rw [h] at h2
    obtain rfl := Option.some.inj h2
    refine ⟨?_, by simp [table]⟩
    rw [List.map_map]
    show (table.map Prod.fst).Nodup
    decide

/-! ### An instance -/

/-- Two particles of different charge. -/
noncomputable def demoBunch : Bunch :=
  ⟨2, fun i => ⟨i, 2 * i, -i, 1, 3, 10 + i⟩, fun i => i + 1, none, 7, 0, none, 0, 0, "demo", -1, 1, none, none⟩

/-- Statistics that show their arguments. -/
noncomputable def demoStats : Stats where
  twiss x px _ _ _ := (x.sum, px.sum, 1)
  meanEnergy px py pz _ := pz.sum + px.sum * py.sum
  spread px py _ _ := px.sum + py.sum
  sliceSpread _ px py _ _ _ _ := px.sum + py.sum
  emittance x px _ _ _ := x.sum * px.sum
  sliceEmittance _ x px _ _ _ _ _ := x.sum * px.sum
  rmsLength z _ := z.sum
  rmsSize x _ := x.sum
  peakCurrent _ q _ _ := q.sum

theorem demoBunch_charge : ∑ i ∈ Finset.range demoBunch.n, demoBunch.q i = -3 := by
  show ∑ i ∈ Finset.range 2, demoBunch.q i = -3
  rw [Finset.sum_range_succ, Finset.sum_range_one]
  norm_num [Bunch.q, demoBunch]

/-- The hypotheses of the theorems hold, and the values of the two planes differ. -/
example : ∃ e, analyze demoStats 50 none demoBunch = some e ∧ e.lookup "x_avg" = some (2 / 3) ∧ e.lookup "y_avg" = some (4 / 3) ∧
    ∃ d, analyzeList demoStats 50 none [exchange demoBunch, demoBunch] = some d ∧ ∃ arr, d.lookup "x_avg" = some arr ∧ arr[1]? = some (2 / 3) := by
  have hq : ∑ i ∈ Finset.range demoBunch.n, demoBunch.q i ≠ 0 := by rw [demoBunch_charge]; norm_num
  obtain ⟨e, he, -, -, -, hx, hy, -⟩ := analyze_values demoStats 50 none demoBunch hq
  obtain ⟨e', he', -⟩ := analyze_values demoStats 50 none (exchange demoBunch) hq
  have m1 : mean demoBunch (·.x) = 2 / 3 := by
    unfold mean
    rw [demoBunch_charge]
    show (∑ i ∈ Finset.range 2, (demoBunch.ph i).x * demoBunch.q i) / -3 = _
    rw [Finset.sum_range_succ, Finset.sum_range_one]
    norm_num [Bunch.q, demoBunch]
  have m2 : mean demoBunch (·.y) = 4 / 3 := by
    unfold mean
    rw [demoBunch_charge]
    show (∑ i ∈ Finset.range 2, (demoBunch.ph i).y * demoBunch.q i) / -3 = _
    rw [Finset.sum_range_succ, Finset.sum_range_one]
    norm_num [Bunch.q, demoBunch]
  rw [m1] at hx
  rw [m2] at hy
  refine ⟨e, he, hx, hy, ?_⟩
  cases hd : analyzeList demoStats 50 none [exchange demoBunch, demoBunch] with
  | none =>
    obtain ⟨b, hb, hb'⟩ := (list_fails _ _ _ _).mp hd
    simp only [List.mem_cons, List.not_mem_nil, or_false] at hb
    rcases hb with rfl | rfl
    · rw [he'] at hb'; cases hb'
    · rw [he] at hb'; cases hb'
  | some d =>
    obtain ⟨e2, h1, -, h2⟩ := list_items _ _ _ _ hd 1 demoBunch rfl
    rw [he] at h1
    obtain rfl := Option.some.inj h1
    obtain ⟨arr, h3, -, h4⟩ := h2 _ _ hx
    exact ⟨d, rfl, arr, h3, h4⟩

/-- The statistics of the instance are symmetric in the transverse momenta. -/
example : (∀ a b c q, demoStats.meanEnergy a b c q = demoStats.meanEnergy b a c q) ∧
    (∀ a b c q, demoStats.spread a b c q = demoStats.spread b a c q) ∧
    ∀ z a b c q n l, demoStats.sliceSpread z a b c q n l = demoStats.sliceSpread z b a c q n l := by
  refine ⟨fun a b c q => ?_, fun a b c q => add_comm _ _, fun z a b c q n l => add_comm _ _⟩
  show c.sum + a.sum * b.sum = c.sum + b.sum * a.sum
  rw [mul_comm]

end WakeT.Diag
