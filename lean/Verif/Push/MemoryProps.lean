import Verif.Push.Memory
import Verif.Push.Lemmas

/-! # Bunches with arrays of their own -/

set_option linter.unusedSectionVars false

namespace WakeT.Push

open Fields (EB)
open Base

/-- None of the arrays `a` is one of `b`. -/
def Ids.Apart (a b : Ids) : Prop := ∀ u ∈ a.list, u ∉ b.list

theorem Ids.Apart.symm {a b : Ids} (h : a.Apart b) : b.Apart a := fun u hb ha => h u ha hb

private theorem put_other (a : Ids) (p : Ph) (e : Row) {u : ℕ} (h : u ∉ a.list) : a.put p e u = e u := by
  simp only [Ids.list, List.mem_cons, List.not_mem_nil, or_false, not_or] at h
  simp [Ids.put, Row.set, h]

private theorem putEB_other (a : Ids) (v : EB ℝ) (e : Row) {u : ℕ} (h : u ∉ a.list) : a.putEB v e u = e u := by
  simp only [Ids.list, List.mem_cons, List.not_mem_nil, or_false, not_or] at h
  simp [Ids.putEB, Row.set, h]

private theorem get_put {a : Ids} (h : a.list.Nodup) (p : Ph) (e : Row) : a.get (a.put p e) = p := by
  simp only [Ids.list, List.nodup_cons, List.mem_cons, List.not_mem_nil, or_false, not_or] at h
  simp [Ids.put, Ids.get, Row.set, h]

private theorem getEB_putEB {a : Ids} (h : a.list.Nodup) (v : EB ℝ) (e : Row) : a.getEB (a.putEB v e) = v := by
  simp only [Ids.list, List.nodup_cons, List.mem_cons, List.not_mem_nil, or_false, not_or] at h
  simp [Ids.putEB, Ids.getEB, Row.set, h]

private theorem get_of_eq {a : Ids} {e e' : Row} (h : ∀ u ∈ a.list, e u = e' u) : a.get e = a.get e' := by
  simp only [Ids.list, List.forall_mem_cons] at h
  simp [Ids.get, h]

private theorem getEB_of_eq {a : Ids} {e e' : Row} (h : ∀ u ∈ a.list, e u = e' u) : a.getEB e = a.getEB e' := by
  simp only [Ids.list, List.forall_mem_cons] at h
  simp [Ids.getEB, h]

private theorem putEB_putEB (a : Ids) (v w : EB ℝ) (e : Row) : a.putEB w (a.putEB v e) = a.putEB w e := by
  funext u
  by_cases h : u ∈ a.list
  · simp only [Ids.list, List.mem_cons, List.not_mem_nil, or_false] at h
    unfold Ids.putEB Row.set
    split_ifs <;> simp_all
  · simp only [putEB_other _ _ _ h]

private theorem gatherRow_eq (fields : List PField) (t : ℝ) (x y xi : ℕ) {eb : Ids} (he : eb.list.Nodup) (hx : x ∉ eb.list) (hy : y ∉ eb.list)
    (hxi : xi ∉ eb.list) (e : Row) :
    gatherRow fields t x y xi eb e = eb.putEB (fields.foldl (fun v f => f t (e x) (e y) (e xi) v) ⟨0, 0, 0, 0, 0, 0⟩) e := by
  unfold gatherRow
  generalize (⟨0, 0, 0, 0, 0, 0⟩ : EB ℝ) = v
  induction fields generalizing v with
  | nil => rfl
  | cons f l ih =>
    rw [List.foldl_cons, List.foldl_cons, ← ih, putEB_other _ _ _ hx, putEB_other _ _ _ hy, putEB_other _ _ _ hxi, getEB_putEB he, putEB_putEB]

private theorem updateCoordsRow_eq {x x0 ks : Ids} (h0 : x0.Apart x) (hk : ks.Apart x) (dt fac : ℝ) (e : Row) :
    updateCoordsRow x x0 dt ks fac e = x.put ((x0.get e).shift (dt * fac) (ks.get e)) e := by
  simp only [Ids.Apart, Ids.list, List.forall_mem_cons, List.mem_cons, List.not_mem_nil, or_false, not_or] at h0 hk
  have c : ∀ a b : ℝ, a + dt * b * fac = a + dt * fac * b := fun a b => by ring
  simp [updateCoordsRow, Ids.put, Ids.get, Ph.shift, Row.set, h0, hk, c]

private theorem initPushRow_eq {d ks : Ids} (hk : ks.Apart d) (fac : ℝ) (e : Row) :
    initPushRow d ks fac e = d.put ((⟨0, 0, 0, 0, 0, 0⟩ : Ph).shift fac (ks.get e)) e := by
  simp only [Ids.Apart, Ids.list, List.forall_mem_cons, List.mem_cons, List.not_mem_nil, or_false, not_or] at hk
  simp [initPushRow, Ids.put, Ids.get, Ph.shift, Row.set, hk, mul_comm]

private theorem updatePushRow_eq {d ks : Ids} (hd : d.list.Nodup) (hk : ks.Apart d) (fac : ℝ) (e : Row) :
    updatePushRow d ks fac e = d.put ((d.get e).shift fac (ks.get e)) e := by
  simp only [Ids.Apart, Ids.list, List.forall_mem_cons, List.mem_cons, List.not_mem_nil, or_false, not_or] at hk
  simp only [Ids.list, List.nodup_cons, List.mem_cons, List.not_mem_nil, or_false, not_or] at hd
  have hd' : d.y ≠ d.x ∧ d.xi ≠ d.x ∧ d.px ≠ d.x ∧ d.py ≠ d.x ∧ d.pz ≠ d.x ∧ d.xi ≠ d.y ∧ d.px ≠ d.y ∧ d.py ≠ d.y ∧ d.pz ≠ d.y ∧
      d.px ≠ d.xi ∧ d.py ≠ d.xi ∧ d.pz ≠ d.xi ∧ d.py ≠ d.px ∧ d.pz ≠ d.px ∧ d.pz ≠ d.py := by
    refine ⟨?_, ?_, ?_, ?_, ?_, ?_, ?_, ?_, ?_, ?_, ?_, ?_, ?_, ?_, ?_⟩ <;> rintro h <;> simp [h] at hd
  simp [updatePushRow, Ids.put, Ids.get, Ph.shift, Row.set, hk, hd', mul_comm]

private theorem applyPushRow_eq {b d : Ids} (hb : b.list.Nodup) (hd : d.Apart b) (dt : ℝ) (e : Row) :
    applyPushRow b dt d e = b.put ((b.get e).shift dt (d.get e)) e := by
  simp only [Ids.Apart, Ids.list, List.forall_mem_cons, List.mem_cons, List.not_mem_nil, or_false, not_or] at hd
  simp only [Ids.list, List.nodup_cons, List.mem_cons, List.not_mem_nil, or_false, not_or] at hb
  have hb' : b.y ≠ b.x ∧ b.xi ≠ b.x ∧ b.px ≠ b.x ∧ b.py ≠ b.x ∧ b.pz ≠ b.x ∧ b.xi ≠ b.y ∧ b.px ≠ b.y ∧ b.py ≠ b.y ∧ b.pz ≠ b.y ∧
      b.px ≠ b.xi ∧ b.py ≠ b.xi ∧ b.pz ≠ b.xi ∧ b.py ≠ b.px ∧ b.pz ≠ b.px ∧ b.pz ≠ b.py := by
    refine ⟨?_, ?_, ?_, ?_, ?_, ?_, ?_, ?_, ?_, ?_, ?_, ?_, ?_, ?_, ?_⟩ <;> rintro h <;> simp [h] at hb
  simp [applyPushRow, Ids.put, Ids.get, Ph.shift, Row.set, hd, hb']

/-- Arrays of a bunch `b` and of the pushers: `x` shifted coordinates, `d` push, `ks` slopes, `eb` fields; all different. -/
private structure Sep (b x d ks eb : Ids) : Prop where
  nb : b.list.Nodup
  nx : x.list.Nodup
  nd : d.list.Nodup
  nks : ks.list.Nodup
  neb : eb.list.Nodup
  bx : b.Apart x
  bd : b.Apart d
  bk : b.Apart ks
  be : b.Apart eb
  xd : x.Apart d
  xk : x.Apart ks
  xe : x.Apart eb
  dk : d.Apart ks
  de : d.Apart eb
  ke : ks.Apart eb

private theorem get_put_apart {a b : Ids} (h : b.Apart a) (p : Ph) (e : Row) : b.get (a.put p e) = b.get e :=
  get_of_eq fun u hu => put_other _ _ _ (h u hu)

private theorem get_putEB_apart {a b : Ids} (h : b.Apart a) (v : EB ℝ) (e : Row) : b.get (a.putEB v e) = b.get e :=
  get_of_eq fun u hu => putEB_other _ _ _ (h u hu)

private theorem gather_felt (fields : List PField) (t : ℝ) {p eb : Ids} (he : eb.list.Nodup) (h : p.Apart eb) (e : Row) :
    gatherRow fields t p.x p.y p.xi eb e = eb.putEB (felt fields t (p.get e)) e :=
  gatherRow_eq fields t _ _ _ he (h _ (by simp [Ids.list])) (h _ (by simp [Ids.list])) (h _ (by simp [Ids.list])) e

variable {k : Const} {fields : List PField} {t dt : ℝ} {b x d ks eb : Ids}

private theorem stage0 (s : Sep b x d ks eb) (e : Row) :
    let e' := stageRow k fields t dt b x d ks eb 0 e
    b.get e' = b.get e ∧ ks.get e' = motion k fields t (b.get e) ∧
      d.get e' = (⟨0, 0, 0, 0, 0, 0⟩ : Ph).shift (1 / 6) (motion k fields t (b.get e)) ∧
      ∀ u, u ∉ d.list → u ∉ ks.list → u ∉ eb.list → e' u = e u := by
  simp only [stageRow, factors, true_or, if_true]
  norm_num only [if_false]
  rw [gather_felt _ _ s.neb s.be, calcKRow, getEB_putEB s.neb, get_putEB_apart s.be, calcK1_motion, initPushRow_eq s.dk.symm]
  refine ⟨?_, ?_, ?_, fun u h1 h2 h3 => ?_⟩
  · rw [get_put_apart s.bd, get_put_apart s.bk, get_putEB_apart s.be]
  · rw [get_put_apart s.dk.symm, get_put s.nks]
  · rw [get_put s.nd, get_put s.nks]
  · rw [put_other _ _ _ h1, put_other _ _ _ h2, putEB_other _ _ _ h3]

private theorem stageN (s : Sep b x d ks eb) {i : ℕ} (hi : i ≠ 0) (e : Row) :
    let e' := stageRow k fields t dt b x d ks eb i e
    let k' := motion k fields (factors i t dt).2.2 ((b.get e).shift (dt * (factors i t dt).1) (ks.get e))
    b.get e' = b.get e ∧ ks.get e' = k' ∧ d.get e' = (d.get e).shift (factors i t dt).2.1 k' ∧
      ∀ u, u ∉ x.list → u ∉ d.list → u ∉ ks.list → u ∉ eb.list → e' u = e u := by
  simp only [stageRow, hi, if_false]
  rw [updateCoordsRow_eq s.bx s.xk.symm, gather_felt _ _ s.neb s.xe, get_put s.nx, calcKRow, getEB_putEB s.neb, get_putEB_apart s.xe, get_put s.nx,
    calcK1_motion, updatePushRow_eq s.nd s.dk.symm]
  refine ⟨?_, ?_, ?_, fun u h0 h1 h2 h3 => ?_⟩
  · rw [get_put_apart s.bd, get_put_apart s.bk, get_putEB_apart s.be, get_put_apart s.bx]
  · rw [get_put_apart s.dk.symm, get_put s.nks]
  · rw [get_put s.nd, get_put s.nks, get_put_apart s.dk, get_putEB_apart s.de, get_put_apart s.xd.symm]
  · rw [put_other _ _ _ h1, put_other _ _ _ h2, putEB_other _ _ _ h3, put_other _ _ _ h0]

private theorem rk4Row_eq (s : Sep b x d ks eb) (e : Row) :
    b.get (rk4Row k fields t dt b x d ks eb e) = classicalRK4 (motion k fields) t dt (b.get e) ∧
      ∀ u, u ∉ b.list → u ∉ x.list → u ∉ d.list → u ∉ ks.list → u ∉ eb.list → rk4Row k fields t dt b x d ks eb e u = e u := by
  unfold rk4Row
  simp only [List.range, List.range.loop, List.foldl_cons, List.foldl_nil]
  obtain ⟨b0, k0, d0, u0⟩ := stage0 (k := k) (fields := fields) (t := t) (dt := dt) s e
  generalize stageRow k fields t dt b x d ks eb 0 e = e0 at *
  obtain ⟨b1, k1, d1, u1⟩ := stageN (k := k) (fields := fields) (t := t) (dt := dt) s (i := 1) (by norm_num) e0
  generalize stageRow k fields t dt b x d ks eb 1 e0 = e1 at *
  obtain ⟨b2, k2, d2, u2⟩ := stageN (k := k) (fields := fields) (t := t) (dt := dt) s (i := 2) (by norm_num) e1
  generalize stageRow k fields t dt b x d ks eb 2 e1 = e2 at *
  obtain ⟨b3, k3, d3, u3⟩ := stageN (k := k) (fields := fields) (t := t) (dt := dt) s (i := 3) (by norm_num) e2
  generalize stageRow k fields t dt b x d ks eb 3 e2 = e3 at *
  rw [applyPushRow_eq s.nb s.bd.symm]
  refine ⟨?_, fun u h0 h1 h2 h3 h4 => ?_⟩
  · have f1 : factors 1 t dt = (1 / 2, 2 / 6, t + dt / 2) := by simp [factors]
    have f2 : factors 2 t dt = (1 / 2, 2 / 6, t + dt / 2) := by simp [factors]
    have f3 : factors 3 t dt = (1, 1 / 6, t + dt) := by simp [factors]
    rw [get_put s.nb, b3, b2, b1, b0, d3, d2, d1, d0, k2, k1, k0, b2, b1, b0, f1, f2, f3]
    unfold classicalRK4
    dsimp only
    rw [show dt * (1 / 2 : ℝ) = dt / 2 by ring, mul_one]
    generalize motion k fields t (b.get e) = m1
    generalize motion k fields (t + dt / 2) ((b.get e).shift (dt / 2) m1) = m2
    generalize motion k fields (t + dt / 2) ((b.get e).shift (dt / 2) m2) = m3
    generalize motion k fields (t + dt) ((b.get e).shift dt m3) = m4
    unfold Ph.shift
    ext <;> simp only <;> ring
  · rw [put_other _ _ _ h0, u3 u h1 h2 h3 h4, u2 u h1 h2 h3 h4, u1 u h1 h2 h3 h4, u0 u h2 h3 h4]

private theorem halfPushRow_eq (hb : b.list.Nodup) (e : Row) : halfPushRow k b dt e = b.put (halfPush1 k dt (b.get e)) e := by
  simp only [Ids.list, List.nodup_cons, List.mem_cons, List.not_mem_nil, or_false, not_or] at hb
  funext u
  simp only [halfPushRow, halfPush1, Ids.put, Ids.get, Row.set]
  split_ifs <;> simp_all

private theorem pushMomentumRow_eq (hb : b.list.Nodup) (e : Row) :
    pushMomentumRow k b eb dt e = b.put (pushMomentum1 k dt (eb.getEB e) (b.get e)) e := by
  simp only [Ids.list, List.nodup_cons, List.mem_cons, List.not_mem_nil, or_false, not_or] at hb
  funext u
  have h : (pushMomentum1 k dt (eb.getEB e) (b.get e)).x = e b.x ∧ (pushMomentum1 k dt (eb.getEB e) (b.get e)).y = e b.y ∧
      (pushMomentum1 k dt (eb.getEB e) (b.get e)).xi = e b.xi := ⟨rfl, rfl, rfl⟩
  unfold pushMomentumRow
  generalize pushMomentum1 k dt (eb.getEB e) (b.get e) = q at h
  simp only [Ids.put, Row.set, h]
  split_ifs <;> simp_all

private theorem borisRow_eq (hb : b.list.Nodup) (he : eb.list.Nodup) (h : b.Apart eb) (e : Row) :
    b.get (borisRow k fields t dt b eb e) = borisStep k fields t dt (b.get e) ∧
      ∀ u, u ∉ b.list → u ∉ eb.list → borisRow k fields t dt b eb e u = e u := by
  unfold borisRow
  dsimp only
  rw [halfPushRow_eq hb, pushMomentumRow_eq hb, gather_felt _ _ he h, halfPushRow_eq hb]
  refine ⟨?_, fun u h0 h1 => ?_⟩
  · rw [get_put hb, get_put hb, getEB_putEB he, get_putEB_apart h, get_put hb]
    rfl
  · rw [put_other _ _ _ h0, put_other _ _ _ h0, putEB_other _ _ _ h1, put_other _ _ _ h0]

/-! ### Bunches in the memory -/

/-- The array `u` is one of the bunch: of its coordinates or one of those preallocated for it. -/
def BunchRef.Owns (r : BunchRef) (u : ℕ) : Prop :=
  u ∈ r.b.list ∨ (∃ n, r.fieldArr = some n ∧ n ≤ u ∧ u < n + 6) ∨ ∃ n, r.rk4Arr = some n ∧ n ≤ u ∧ u < n + 18

/-- The six coordinates of the bunch are in different arrays, which exist and are none of the preallocated ones. -/
structure BunchRef.Proper (r : BunchRef) (h : Heap) : Prop where
  nodup : r.b.list.Nodup
  below : ∀ u, r.Owns u → u < h.next
  field : ∀ n, r.fieldArr = some n → ∀ u ∈ r.b.list, u < n ∨ n + 6 ≤ u
  rk4 : ∀ n, r.rk4Arr = some n → ∀ u ∈ r.b.list, u < n ∨ n + 18 ≤ u
  both : ∀ n f, r.rk4Arr = some n → r.fieldArr = some f → f + 6 ≤ n ∨ n + 18 ≤ f

/-- What a push does to a particle: a classical Runge-Kutta step, or a Boris step. -/
noncomputable def stepOf (p : PusherName) (k : Const) (fields : List PField) (t dt : ℝ) : Ph → Ph :=
  match p with
  | .rk4 => classicalRK4 (motion k fields) t dt
  | .boris => borisStep k fields t dt

private theorem mem_block {n u : ℕ} : u ∈ (Ids.block n).list ↔ n ≤ u ∧ u < n + 6 := by
  simp only [Ids.block, Ids.list, List.mem_cons, List.not_mem_nil, or_false]
  omega

private theorem block_nodup (n : ℕ) : (Ids.block n).list.Nodup := by simp [Ids.block, Ids.list]

private theorem zerosN_next (n : ℕ) (h : Heap) : (zerosN n h).next = h.next + n := by
  induction n generalizing h with
  | zero => rfl
  | succ n ih => show ((zeros (zerosN n h)).2).next = _; rw [zeros, newArray, ih]; rfl

private theorem zerosN_mem (n : ℕ) (h : Heap) (i : ℕ) {u : ℕ} (hu : u < h.next) : (zerosN n h).mem i u = h.mem i u := by
  induction n generalizing h with
  | zero => rfl
  | succ n ih =>
    show ((zeros (zerosN n h)).2).mem i u = _
    have hn := zerosN_next n h
    rw [← ih h hu]
    exact set_ne _ _ (by omega)

private theorem getFieldArrays_spec {r : BunchRef} {h : Heap} (w : r.Proper h) :
    let f := (r.getFieldArrays h).1
    let h' := (r.getFieldArrays h).2
    let r' := { r with fieldArr := some f }
    r'.Proper h' ∧ h.next ≤ h'.next ∧ (∀ u, r'.Owns u → r.Owns u ∨ h.next ≤ u) ∧ ∀ i u, u < h.next → h'.mem i u = h.mem i u := by
  unfold BunchRef.getFieldArrays
  cases hf : r.fieldArr with
  | some f =>
    have hr : { r with fieldArr := some f } = r := by rw [← hf]
    simp only [hr]
    exact ⟨w, le_refl _, fun u hu => .inl hu, fun i u _ => trivial⟩
  | none =>
    have hn := zerosN_next 6 h
    have hb : ∀ u ∈ r.b.list, u < h.next := fun u hu => w.below u (.inl hu)
    have hk : ∀ n, r.rk4Arr = some n → n + 18 ≤ h.next := fun n h' => by
      have := w.below (n + 17) (.inr (.inr ⟨n, h', by omega, by omega⟩)); omega
    refine ⟨⟨w.nodup, ?_, ?_, w.rk4, ?_⟩, by simp only [hn]; omega, ?_, fun i u hu => zerosN_mem 6 h i hu⟩
    · rintro u (hu | ⟨n, h1, h2⟩ | ⟨n, h1, h2⟩)
      · have := hb u hu; simp only [hn]; omega
      · simp only [Option.some.injEq] at h1; simp only [hn]; omega
      · have := hk n h1; simp only [hn]; omega
    · rintro n h1 u hu
      simp only [Option.some.injEq] at h1
      have := hb u hu; omega
    · rintro n f h1 h2
      simp only [Option.some.injEq] at h2
      have := hk n h1; omega
    · rintro u (hu | ⟨n, h1, h2⟩ | ⟨n, h1, h2⟩)
      · exact .inl (.inl hu)
      · simp only [Option.some.injEq] at h1; right; omega
      · exact .inl (.inr (.inr ⟨n, h1, h2⟩))

private theorem getRk4Arrays_spec {r : BunchRef} {h : Heap} (w : r.Proper h) :
    let n := (r.getRk4Arrays h).1
    let h' := (r.getRk4Arrays h).2
    let r' := { r with rk4Arr := some n }
    r'.Proper h' ∧ h.next ≤ h'.next ∧ (∀ u, r'.Owns u → r.Owns u ∨ h.next ≤ u) ∧ ∀ i u, u < h.next → h'.mem i u = h.mem i u := by
  unfold BunchRef.getRk4Arrays
  cases hf : r.rk4Arr with
  | some n =>
    have hr : { r with rk4Arr := some n } = r := by rw [← hf]
    simp only [hr]
    exact ⟨w, le_refl _, fun u hu => .inl hu, fun i u _ => trivial⟩
  | none =>
    have hn := zerosN_next 18 h
    have hb : ∀ u ∈ r.b.list, u < h.next := fun u hu => w.below u (.inl hu)
    have hk : ∀ n, r.fieldArr = some n → n + 6 ≤ h.next := fun n h' => by
      have := w.below (n + 5) (.inr (.inl ⟨n, h', by omega, by omega⟩)); omega
    refine ⟨⟨w.nodup, ?_, w.field, ?_, ?_⟩, by simp only [hn]; omega, ?_, fun i u hu => zerosN_mem 18 h i hu⟩
    · rintro u (hu | ⟨n, h1, h2⟩ | ⟨n, h1, h2⟩)
      · have := hb u hu; simp only [hn]; omega
      · have := hk n h1; simp only [hn]; omega
      · simp only [Option.some.injEq] at h1; simp only [hn]; omega
    · rintro n h1 u hu
      simp only [Option.some.injEq] at h1
      have := hb u hu; omega
    · rintro n f h1 h2
      simp only [Option.some.injEq] at h1
      have := hk f h2; omega
    · rintro u (hu | ⟨n, h1, h2⟩ | ⟨n, h1, h2⟩)
      · exact .inl (.inl hu)
      · exact .inl (.inr (.inl ⟨n, h1, h2⟩))
      · simp only [Option.some.injEq] at h1; right; omega

private theorem coords_congr {r : BunchRef} {h h' : Heap} (w : ∀ u ∈ r.b.list, ∀ i, h'.mem i u = h.mem i u) (i : ℕ) :
    r.b.get (h'.mem i) = r.b.get (h.mem i) := get_of_eq fun u hu => w u hu i

/-- A push of a bunch whose coordinates are in arrays of their own moves every particle as it should and changes no other array. -/
theorem evolve_own {r : BunchRef} {h : Heap} (w : r.Proper h) (p : PusherName) (fields : List PField) (t dt : ℝ) :
    let r' := (r.evolve p fields t dt h).1
    let h' := (r.evolve p fields t dt h).2
    (∀ i, r'.coords h' i = stepOf p r.k fields t dt (r.coords h i)) ∧ r'.b = r.b ∧ r'.k = r.k ∧ r'.Proper h' ∧ h.next ≤ h'.next ∧
      (∀ u, r'.Owns u → r.Owns u ∨ h.next ≤ u) ∧ ∀ i u, u < h.next → ¬ r.Owns u → h'.mem i u = h.mem i u := by
  cases p with
  | rk4 =>
    obtain ⟨w1, l1, o1, m1⟩ := getRk4Arrays_spec w
    obtain ⟨w2, l2, o2, m2⟩ := getFieldArrays_spec w1
    unfold BunchRef.evolve
    dsimp only at *
    have e : ∀ n h1, ({ r with rk4Arr := some n } : BunchRef).getFieldArrays h1 = r.getFieldArrays h1 := fun _ _ => rfl
    simp only [e] at w2 l2 o2 m2
    generalize (r.getFieldArrays (r.getRk4Arrays h).2).2 = h2 at *
    generalize (r.getFieldArrays (r.getRk4Arrays h).2).1 = f at *
    generalize (r.getRk4Arrays h).2 = h1 at *
    generalize (r.getRk4Arrays h).1 = n at *
    have hk := w2.rk4 n rfl
    have hf := w2.field f rfl
    have hkf := w2.both n f rfl rfl
    have s : Sep r.b (.block (n + 6)) (.block (n + 12)) (.block n) (.block f) := by
      refine ⟨w.nodup, block_nodup _, block_nodup _, block_nodup _, block_nodup _, ?_, ?_, ?_, ?_, ?_, ?_, ?_, ?_, ?_, ?_⟩
      · intro u hu h'; rw [mem_block] at h'; have := hk u hu; omega
      · intro u hu h'; rw [mem_block] at h'; have := hk u hu; omega
      · intro u hu h'; rw [mem_block] at h'; have := hk u hu; omega
      · intro u hu h'; rw [mem_block] at h'; have := hf u hu; omega
      all_goals
        intro u hu h'
        rw [mem_block] at hu h'
        omega
    have hm : ∀ i u, u < h.next → h2.mem i u = h.mem i u := fun i u hu => (m2 i u (by omega)).trans (m1 i u hu)
    refine ⟨fun i => ?_, rfl, rfl, ⟨w2.nodup, w2.below, w2.field, w2.rk4, w2.both⟩, by omega, fun u hu => ?_, fun i u hu ho => ?_⟩
    · have := (rk4Row_eq (k := r.k) (fields := fields) (t := t) (dt := dt) s (h2.mem i)).1
      refine this.trans ?_
      rw [coords_congr (h := h) (h' := h2) (fun u hu i => hm i u (w.below u (.inl hu)))]
      rfl
    · rcases o2 u hu with h' | h'
      · exact o1 u h'
      · right; omega
    · have hno : ¬ (u ∈ r.b.list) := fun h' => ho (.inl h')
      have h1' : ¬ (n ≤ u ∧ u < n + 18) := fun h' => by
        rcases o1 u (.inr (.inr ⟨n, rfl, h'⟩)) with h'' | h''
        · exact ho h''
        · omega
      have h2' : ¬ (f ≤ u ∧ u < f + 6) := fun h' => by
        rcases o2 u (.inr (.inl ⟨f, rfl, h'⟩)) with h'' | h''
        · rcases o1 u h'' with h3 | h3
          · exact ho h3
          · omega
        · omega
      have := (rk4Row_eq (k := r.k) (fields := fields) (t := t) (dt := dt) s (h2.mem i)).2 u hno (by rw [mem_block]; omega)
        (by rw [mem_block]; omega) (by rw [mem_block]; omega) (by rw [mem_block]; omega)
      exact this.trans (hm i u hu)
  | boris =>
    obtain ⟨w1, l1, o1, m1⟩ := getFieldArrays_spec w
    unfold BunchRef.evolve
    dsimp only at *
    generalize (r.getFieldArrays h).2 = h1 at *
    generalize (r.getFieldArrays h).1 = f at *
    have hf := w1.field f rfl
    have ha : r.b.Apart (.block f) := by
      intro u hu h'; rw [mem_block] at h'; have := hf u hu; omega
    refine ⟨fun i => ?_, rfl, rfl, ⟨w1.nodup, w1.below, w1.field, w1.rk4, w1.both⟩, by omega, o1, fun i u hu ho => ?_⟩
    · have := (borisRow_eq (k := r.k) (fields := fields) (t := t) (dt := dt) w.nodup (block_nodup f) ha (h1.mem i)).1
      refine this.trans ?_
      rw [coords_congr (h := h) (h' := h1) (fun u hu i => m1 i u (w.below u (.inl hu)))]
      rfl
    · have h2' : ¬ (f ≤ u ∧ u < f + 6) := fun h' => by
        rcases o1 u (.inr (.inl ⟨f, rfl, h'⟩)) with h'' | h''
        · exact ho h''
        · omega
      have := (borisRow_eq (k := r.k) (fields := fields) (t := t) (dt := dt) w.nodup (block_nodup f) ha (h1.mem i)).2 u
        (fun h' => ho (.inl h')) (by rw [mem_block]; omega)
      exact this.trans (m1 i u hu)

/-- A copy has the same coordinates, in new arrays, and no other array is changed. -/
theorem copy_own {r : BunchRef} {h : Heap} (hr : ∀ u ∈ r.b.list, u < h.next) :
    let r' := (r.copy h).1
    let h' := (r.copy h).2
    (∀ i, r'.coords h' i = r.coords h i) ∧ r'.k = r.k ∧ r'.Proper h' ∧ h.next ≤ h'.next ∧ (∀ u, r'.Owns u → h.next ≤ u) ∧
      ∀ i u, u < h.next → h'.mem i u = h.mem i u := by
  simp only [Ids.list, List.forall_mem_cons] at hr
  obtain ⟨h0, h1, h2, h3, h4, h5, -⟩ := hr
  unfold BunchRef.copy
  simp only [newArray, BunchRef.new, BunchRef.coords, Ids.get]
  have own : ∀ u, BunchRef.Owns ⟨⟨h.next, h.next + 1, h.next + 1 + 1, h.next + 1 + 1 + 1, h.next + 1 + 1 + 1 + 1,
      h.next + 1 + 1 + 1 + 1 + 1⟩, r.k, none, none⟩ u → h.next ≤ u ∧ u < h.next + 6 := by
    rintro u (hu | ⟨n, hn, -⟩ | ⟨n, hn, -⟩)
    · simp only [Ids.list, List.mem_cons, List.not_mem_nil, or_false] at hu
      omega
    · cases hn
    · cases hn
  refine ⟨fun i => ?_, trivial, ⟨?_, fun u hu => ?_, ?_, ?_, ?_⟩, by omega, fun u hu => (own u hu).1, fun i u hu => ?_⟩
  · simp only [Mem.write, Mem.arr]
    simp (disch := omega) only [set_self, set_ne]
  · simp [Ids.list]
    omega
  · have := (own u hu).2
    show u < h.next + 1 + 1 + 1 + 1 + 1 + 1
    omega
  · intro n hn; cases hn
  · intro n hn; cases hn
  · intro n f hn; cases hn
  · simp only [Mem.write]
    simp (disch := omega) only [set_ne]

private theorem newIds_spec (v : ℕ → Ph) (h : Heap) :
    (∀ i, (newIds v h).1.get ((newIds v h).2.mem i) = v i) ∧ (newIds v h).1.list.Nodup ∧
      (∀ u ∈ (newIds v h).1.list, h.next ≤ u ∧ u < (newIds v h).2.next) ∧ h.next ≤ (newIds v h).2.next ∧
      ∀ i u, u < h.next → (newIds v h).2.mem i u = h.mem i u := by
  unfold newIds
  simp only [newArray, Ids.get]
  refine ⟨fun i => ?_, ?_, fun u hu => ?_, by omega, fun i u hu => ?_⟩
  · simp only [Mem.write]
    simp (disch := omega) only [set_self, set_ne]
  · simp [Ids.list]
    omega
  · simp only [Ids.list, List.mem_cons, List.not_mem_nil, or_false] at hu
    omega
  · simp only [Mem.write]
    simp (disch := omega) only [set_ne]

/-! ## Specification: bunches as values -/

/-- Bunches whose particles are values: nothing can be shared. -/
structure Values where
  n : ℕ
  k : ℕ → Const
  part : ℕ → ℕ → Ph

/-- One more bunch. -/
def Values.add (v : Values) (k : Const) (p : ℕ → Ph) : Values :=
  ⟨v.n + 1, Function.update v.k v.n k, Function.update v.part v.n p⟩

/-- A call changes the particles of one bunch, or adds bunches. -/
noncomputable def Values.call (v : Values) : Op → Values
  | .evolve j p fields t dt =>
    if j < v.n then { v with part := Function.update v.part j fun i => stepOf p (v.k j) fields t dt (v.part j i) } else v
  | .copy j => if j < v.n then v.add (v.k j) (v.part j) else v
  | .addXi j dxi =>
    if j < v.n then { v with part := Function.update v.part j fun i => { v.part j i with xi := (v.part j i).xi + dxi } } else v
  | .element j outs last =>
    if j < v.n then
      let w := outs.foldl (fun w g => w.add (v.k j) (g (v.part j))) v
      { w with part := Function.update w.part j ((outs.getLast?.getD last) (v.part j)) }
    else v

/-- The coordinates a script sees. -/
def World.values (w : World) : Values := ⟨w.n, fun j => (w.bunch j).k, fun j i => (w.bunch j).coords w.heap i⟩

/-- The same bunches with the same particles. -/
def Values.Same (u v : Values) : Prop := u.n = v.n ∧ ∀ j < u.n, u.k j = v.k j ∧ ∀ i, u.part j i = v.part j i

/-- Each bunch has arrays of its own. -/
structure World.Separate (w : World) : Prop where
  proper : ∀ j < w.n, (w.bunch j).Proper w.heap
  apart : ∀ j < w.n, ∀ l < w.n, j ≠ l → ∀ u, (w.bunch j).Owns u → ¬ (w.bunch l).Owns u

/-- What was there before stays proper if the memory only grows. -/
private theorem BunchRef.Proper.mono {r : BunchRef} {h h' : Heap} (w : r.Proper h) (l : h.next ≤ h'.next) : r.Proper h' :=
  ⟨w.nodup, fun u hu => lt_of_lt_of_le (w.below u hu) l, w.field, w.rk4, w.both⟩

private theorem add_separate {w : World} (s : w.Separate) (k : Const) (v : ℕ → Ph) :
    (w.add k v).Separate ∧ (w.add k v).values.Same (w.values.add k v) := by
  obtain ⟨c, nd, rg, nx, fr⟩ := newIds_spec v w.heap
  unfold World.add Values.add
  simp only
  generalize (newIds v w.heap).1 = b at *
  generalize (newIds v w.heap).2 = h at *
  have lt : ∀ l, l < w.n + 1 → l ≠ w.n → l < w.n := fun l h1 h2 => by omega
  have ow : ∀ u, (BunchRef.new k b).Owns u → h.next > u ∧ w.heap.next ≤ u := by
    rintro u (hu | ⟨m, hm, -⟩ | ⟨m, hm, -⟩)
    · exact ⟨(rg u hu).2, (rg u hu).1⟩
    · cases hm
    · cases hm
  refine ⟨⟨fun l hl => ?_, fun l hl l' hl' hne u hu hu' => ?_⟩, rfl, fun l hl => ⟨?_, fun i => ?_⟩⟩
  · by_cases e : l = w.n
    · subst e
      simp only [Function.update_self]
      exact ⟨nd, fun u hu => (ow u hu).1, (fun n hn => by cases hn), (fun n hn => by cases hn), fun n f hn => by cases hn⟩
    · simpa [Function.update_of_ne e] using (s.proper l (lt l hl e)).mono nx
  · simp only at hu hu' hl hl'
    by_cases e : l = w.n
    · subst e
      rw [Function.update_self] at hu
      rw [Function.update_of_ne (Ne.symm hne)] at hu'
      have := (s.proper l' (lt l' hl' (Ne.symm hne))).below u hu'
      have := (ow u hu).2
      omega
    · rw [Function.update_of_ne e] at hu
      by_cases e' : l' = w.n
      · subst e'
        rw [Function.update_self] at hu'
        have := (s.proper l (lt l hl e)).below u hu
        have := (ow u hu').2
        omega
      · rw [Function.update_of_ne e'] at hu'
        exact s.apart l (lt l hl e) l' (lt l' hl' e') hne u hu hu'
  · by_cases e : l = w.n
    · subst e; simp [World.values, BunchRef.new]
    · simp [World.values, Function.update_of_ne e]
  · by_cases e : l = w.n
    · subst e; simpa [World.values, BunchRef.new, BunchRef.coords] using c i
    · simp only [World.values, Function.update_of_ne e]
      exact coords_congr (fun u hu i => fr i u ((s.proper l (lt l hl e)).below u (.inl hu))) i

private theorem rebind_separate {w : World} (s : w.Separate) {j : ℕ} (hj : j < w.n) (v : ℕ → Ph) :
    (w.rebind j v).Separate ∧ (w.rebind j v).values.Same { w.values with part := Function.update w.values.part j v } := by
  obtain ⟨c, nd, rg, nx, fr⟩ := newIds_spec v w.heap
  unfold World.rebind
  simp only
  generalize (newIds v w.heap).1 = b at *
  generalize (newIds v w.heap).2 = h at *
  have pj := s.proper j hj
  have ow : ∀ u, BunchRef.Owns { w.bunch j with b := b } u → (w.bunch j).Owns u ∨ (w.heap.next ≤ u ∧ u < h.next) := by
    rintro u (hu | hu | hu)
    · exact .inr (rg u hu)
    · exact .inl (.inr (.inl hu))
    · exact .inl (.inr (.inr hu))
  refine ⟨⟨fun l hl => ?_, fun l hl l' hl' hne u hu hu' => ?_⟩, rfl, fun l hl => ⟨?_, fun i => ?_⟩⟩
  · by_cases e : l = j
    · subst e
      simp only [Function.update_self]
      refine ⟨nd, fun u hu => ?_, fun n hn u hu => ?_, fun n hn u hu => ?_, pj.both⟩
      · rcases ow u hu with h' | h'
        · exact lt_of_lt_of_le (pj.below u h') nx
        · exact h'.2
      · have := pj.below (n + 5) (.inr (.inl ⟨n, hn, by omega, by omega⟩))
        have := (rg u hu).1
        right; omega
      · have := pj.below (n + 17) (.inr (.inr ⟨n, hn, by omega, by omega⟩))
        have := (rg u hu).1
        right; omega
    · simpa [Function.update_of_ne e] using (s.proper l hl).mono nx
  · simp only at hu hu' hl hl'
    by_cases e : l = j
    · subst e
      rw [Function.update_self] at hu
      rw [Function.update_of_ne (Ne.symm hne)] at hu'
      rcases ow u hu with h' | h'
      · exact s.apart l hj l' hl' hne u h' hu'
      · have := (s.proper l' hl').below u hu'; omega
    · rw [Function.update_of_ne e] at hu
      by_cases e' : l' = j
      · subst e'
        rw [Function.update_self] at hu'
        rcases ow u hu' with h' | h'
        · exact s.apart l hl l' hj hne u hu h'
        · have := (s.proper l hl).below u hu; omega
      · rw [Function.update_of_ne e'] at hu'
        exact s.apart l hl l' hl' hne u hu hu'
  · by_cases e : l = j
    · subst e; simp [World.values]
    · simp [World.values, Function.update_of_ne e]
  · by_cases e : l = j
    · subst e; simpa [World.values, BunchRef.coords] using c i
    · simp only [World.values, Function.update_of_ne e]
      exact coords_congr (fun u hu i => fr i u ((s.proper l hl).below u (.inl hu))) i

private theorem Same.trans {a b c : Values} (h : a.Same b) (h' : b.Same c) : a.Same c :=
  ⟨h.1.trans h'.1, fun j hj =>
    ⟨(h.2 j hj).1.trans (h'.2 j (h.1 ▸ hj)).1, fun i => ((h.2 j hj).2 i).trans ((h'.2 j (h.1 ▸ hj)).2 i)⟩⟩

private theorem Same.add {a b : Values} (h : a.Same b) {k k' : Const} (hk : k = k') {p p' : ℕ → Ph} (hp : ∀ i, p i = p' i) :
    (a.add k p).Same (b.add k' p') := by
  obtain rfl : p = p' := funext hp
  subst hk
  unfold Values.add
  obtain ⟨hn, h⟩ := h
  refine ⟨congrArg (· + 1) hn, fun l hl => ?_⟩
  rw [← hn]
  by_cases e : l = a.n
  · subst e; simp
  · simp only [Function.update_of_ne e]
    exact h l (by simp only at hl; omega)

private theorem outs_separate {w : World} (s : w.Separate) {v : Values} (h : w.values.Same v) (k : Const) (mat : ℕ → Ph)
    (outs : List ((ℕ → Ph) → ℕ → Ph)) :
    (outs.foldl (fun w' g => w'.add k (g mat)) w).Separate ∧
      (outs.foldl (fun w' g => w'.add k (g mat)) w).values.Same (outs.foldl (fun v g => v.add k (g mat)) v) ∧
      (outs.foldl (fun w' g => w'.add k (g mat)) w).n = w.n + outs.length := by
  induction outs generalizing w v with
  | nil => exact ⟨s, h, rfl⟩
  | cons g outs ih =>
    obtain ⟨s', h'⟩ := add_separate s k (g mat)
    obtain ⟨a, b, c⟩ := ih s' (v := v.add k (g mat)) (Same.trans h' (Same.add h rfl fun _ => rfl))
    refine ⟨a, b, c.trans ?_⟩
    rw [List.length_cons]
    show w.n + 1 + outs.length = _
    omega

private theorem outs_n (v : Values) (k : Const) (mat : ℕ → Ph) (outs : List ((ℕ → Ph) → ℕ → Ph)) :
    (outs.foldl (fun v g => v.add k (g mat)) v).n = v.n + outs.length := by
  induction outs generalizing v with
  | nil => rfl
  | cons g outs ih => exact (ih _).trans (by rw [List.length_cons]; show v.n + 1 + outs.length = _; omega)

private theorem outs_last (v : Values) (k : Const) (mat : ℕ → Ph) (g : (ℕ → Ph) → ℕ → Ph) (outs : List ((ℕ → Ph) → ℕ → Ph)) :
    ((outs ++ [g]).foldl (fun v g => v.add k (g mat)) v).part (v.n + outs.length) = g mat := by
  rw [List.foldl_append, ← outs_n v k mat]
  exact Function.update_self ..

/-- Every call changes the particles as if bunches were values, and the bunches keep arrays of their own. -/
theorem call_separate {w : World} (s : w.Separate) (o : Op) : (w.call o).Separate ∧ (w.call o).values.Same (w.values.call o) := by
  cases o with
  | evolve j p fields t dt =>
    unfold World.call Values.call
    have hn : w.values.n = w.n := rfl
    by_cases hj : j < w.n
    · simp only [hn, if_pos hj]
      obtain ⟨c, eb, ek, pr, nx, ow, fr⟩ := evolve_own (s.proper j hj) p fields t dt
      generalize ((w.bunch j).evolve p fields t dt w.heap).1 = r at *
      generalize ((w.bunch j).evolve p fields t dt w.heap).2 = h at *
      refine ⟨⟨fun l hl => ?_, fun l hl l' hl' hne u hu hu' => ?_⟩, rfl, fun l hl => ⟨?_, fun i => ?_⟩⟩
      · by_cases e : l = j
        · subst e; simpa using pr
        · simpa [Function.update_of_ne e] using (s.proper l hl).mono nx
      · simp only at hu hu' hl hl'
        by_cases e : l = j
        · subst e
          rw [Function.update_self] at hu
          rw [Function.update_of_ne (Ne.symm hne)] at hu'
          rcases ow u hu with h' | h'
          · exact s.apart l hj l' hl' hne u h' hu'
          · have := (s.proper l' hl').below u hu'; omega
        · rw [Function.update_of_ne e] at hu
          by_cases e' : l' = j
          · subst e'
            rw [Function.update_self] at hu'
            rcases ow u hu' with h' | h'
            · exact s.apart l hl l' hj hne u hu h'
            · have := (s.proper l hl).below u hu; omega
          · rw [Function.update_of_ne e'] at hu'
            exact s.apart l hl l' hl' hne u hu hu'
      · by_cases e : l = j
        · subst e; simpa [World.values] using ek
        · simp [World.values, Function.update_of_ne e]
      · by_cases e : l = j
        · subst e; simpa [World.values] using c i
        · simp only [World.values, Function.update_of_ne e]
          exact coords_congr (fun u hu i => fr i u ((s.proper l hl).below u (.inl hu)) (s.apart l hl j hj e u (.inl hu))) i
    · simp only [hn, if_neg hj]
      exact ⟨s, rfl, fun l _ => ⟨rfl, fun i => rfl⟩⟩
  | copy j =>
    unfold World.call Values.call Values.add
    have hn : w.values.n = w.n := rfl
    by_cases hj : j < w.n
    · simp only [hn, if_pos hj]
      obtain ⟨c, ek, pr, nx, ow, fr⟩ := copy_own (r := w.bunch j) (h := w.heap) fun u hu => (s.proper j hj).below u (.inl hu)
      generalize ((w.bunch j).copy w.heap).1 = r at *
      generalize ((w.bunch j).copy w.heap).2 = h at *
      have lt : ∀ l, l < w.n + 1 → l ≠ w.n → l < w.n := fun l h1 h2 => by omega
      refine ⟨⟨fun l hl => ?_, fun l hl l' hl' hne u hu hu' => ?_⟩, rfl, fun l hl => ⟨?_, fun i => ?_⟩⟩
      · by_cases e : l = w.n
        · subst e; simpa using pr
        · simpa [Function.update_of_ne e] using (s.proper l (lt l hl e)).mono nx
      · simp only at hu hu' hl hl'
        by_cases e : l = w.n
        · subst e
          rw [Function.update_self] at hu
          rw [Function.update_of_ne (Ne.symm hne)] at hu'
          have := (s.proper l' (lt l' hl' (Ne.symm hne))).below u hu'
          have := ow u hu
          omega
        · rw [Function.update_of_ne e] at hu
          by_cases e' : l' = w.n
          · subst e'
            rw [Function.update_self] at hu'
            have := (s.proper l (lt l hl e)).below u hu
            have := ow u hu'
            omega
          · rw [Function.update_of_ne e'] at hu'
            exact s.apart l (lt l hl e) l' (lt l' hl' e') hne u hu hu'
      · by_cases e : l = w.n
        · subst e; simpa [World.values] using ek
        · simp [World.values, Function.update_of_ne e]
      · by_cases e : l = w.n
        · subst e; simpa [World.values] using c i
        · simp only [World.values, Function.update_of_ne e]
          exact coords_congr (fun u hu i => fr i u ((s.proper l (lt l hl e)).below u (.inl hu))) i
    · simp only [hn, if_neg hj]
      exact ⟨s, rfl, fun l _ => ⟨rfl, fun i => rfl⟩⟩
  | addXi j dxi =>
    unfold World.call Values.call
    have hn : w.values.n = w.n := rfl
    by_cases hj : j < w.n
    · simp only [hn, if_pos hj]
      refine ⟨⟨fun l hl => (s.proper l hl).mono le_rfl, s.apart⟩, rfl, fun l hl => ⟨rfl, fun i => ?_⟩⟩
      by_cases e : l = j
      · subst e
        have nd := (s.proper l hj).nodup
        simp only [Ids.list, List.nodup_cons, List.mem_cons, List.not_mem_nil, or_false, not_or] at nd
        simp [World.values, BunchRef.coords, BunchRef.addXi, Ids.get, Row.set, nd, Ne.symm nd.2.2.1.1, Ne.symm nd.2.2.1.2.1,
          Ne.symm nd.2.2.1.2.2]
      · simp only [World.values, Function.update_of_ne e]
        refine coords_congr (fun u hu i => set_ne _ _ fun e' => ?_) i
        exact s.apart l hl j hj e u (.inl hu) (.inl (by simp [e', Ids.list]))
    · simp only [hn, if_neg hj]
      exact ⟨s, rfl, fun l _ => ⟨rfl, fun i => rfl⟩⟩
  | element j outs last =>
    unfold World.call Values.call
    have hn : w.values.n = w.n := rfl
    by_cases hj : j < w.n
    · simp only [hn, if_pos hj]
      obtain ⟨s', h', n'⟩ := outs_separate s (v := w.values) ⟨rfl, fun _ _ => ⟨rfl, fun _ => rfl⟩⟩ (w.bunch j).k
        ((w.bunch j).coords w.heap) outs
      have fin : ∀ (w' : World) (v' : Values) (p p' : ℕ → Ph), w'.Separate → w'.values.Same v' → j < w'.n → (∀ i, p i = p' i) →
          (w'.rebind j p).Separate ∧ (w'.rebind j p).values.Same { v' with part := Function.update v'.part j p' } := by
        intro w' v' p p' a b c d
        obtain rfl : p = p' := funext d
        obtain ⟨e, f⟩ := rebind_separate a c p
        refine ⟨e, Same.trans f ⟨b.1, fun l hl => ⟨(b.2 l hl).1, fun i => ?_⟩⟩⟩
        by_cases el : l = j
        · subst el; simp
        · simp only [Function.update_of_ne el]; exact (b.2 l hl).2 i
      rcases List.eq_nil_or_concat outs with rfl | ⟨o, g, rfl⟩
      · exact fin w w.values _ _ s' h' hj fun _ => rfl
      · rw [List.concat_eq_append] at *
        rw [if_neg (by simp), List.getLast?_append]
        refine fin _ _ _ _ s' h' (by rw [n']; omega) fun i => ?_
        have := (h'.2 (w.n + o.length) (by
          show _ < (((o ++ [g]).foldl (fun w' g => w'.add (w.bunch j).k (g ((w.bunch j).coords w.heap))) w).n)
          rw [n']; simp)).2 i
        have hl := outs_last w.values (w.bunch j).k ((w.bunch j).coords w.heap) g o
        refine Eq.trans ?_ (this.trans (congrFun hl i))
        rw [n', List.length_append]
        rfl
    · simp only [hn, if_neg hj]
      exact ⟨s, rfl, fun l _ => ⟨rfl, fun i => rfl⟩⟩

private theorem Same.call {u v : Values} (h : u.Same v) (o : Op) : (u.call o).Same (v.call o) := by
  obtain ⟨hn, h⟩ := h
  cases o with
  | evolve j p fields t dt =>
    unfold Values.call
    by_cases hj : j < u.n
    · simp only [← hn, if_pos hj]
      refine ⟨rfl, fun l hl => ⟨(h l hl).1, fun i => ?_⟩⟩
      by_cases e : l = j
      · subst e; simp [(h l hj).1, (h l hj).2 i]
      · simp only [Function.update_of_ne e]; exact (h l hl).2 i
    · simp only [← hn, if_neg hj]
      exact ⟨hn, h⟩
  | copy j =>
    unfold Values.call
    by_cases hj : j < u.n
    · simp only [← hn, if_pos hj]
      exact Same.add ⟨hn, h⟩ (h j hj).1 (h j hj).2
    · simp only [← hn, if_neg hj]
      exact ⟨hn, h⟩
  | addXi j dxi =>
    unfold Values.call
    by_cases hj : j < u.n
    · simp only [← hn, if_pos hj]
      refine ⟨rfl, fun l hl => ⟨(h l hl).1, fun i => ?_⟩⟩
      by_cases e : l = j
      · subst e; simp [(h l hj).2 i]
      · simp only [Function.update_of_ne e]; exact (h l hl).2 i
    · simp only [← hn, if_neg hj]
      exact ⟨hn, h⟩
  | element j outs last =>
    unfold Values.call
    by_cases hj : j < u.n
    · simp only [← hn, if_pos hj]
      obtain ⟨hk, hp⟩ := h j hj
      have hp : u.part j = v.part j := funext hp
      rw [hk, hp]
      have : ∀ (a b : Values), a.Same b → (outs.foldl (fun w g => w.add (v.k j) (g (v.part j))) a).Same
          (outs.foldl (fun w g => w.add (v.k j) (g (v.part j))) b) := by
        induction outs with
        | nil => exact fun a b h => h
        | cons g outs ih => exact fun a b h => ih _ _ (Same.add h rfl fun _ => rfl)
      obtain ⟨an, ah⟩ := this u v ⟨hn, h⟩
      refine ⟨an, fun l hl => ⟨(ah l hl).1, fun i => ?_⟩⟩
      by_cases e : l = j
      · subst e; simp
      · simp only [Function.update_of_ne e]; exact (ah l hl).2 i
    · simp only [← hn, if_neg hj]
      exact ⟨hn, h⟩

/-- C194: if each bunch has arrays of its own, then after any sequence of pushes, copies, translations and elements the particles of all bunches
are the same as if the bunches were values: what is done to one bunch is not seen by another, the copies included, and nothing that a
push leaves in the preallocated arrays matters.  It is required that the bunches have arrays of their own to begin with, see
`shared_violated` and `same_array_violated`. -/
theorem calls_separate_partial {w : World} (s : w.Separate) (os : List Op) :
    (os.foldl World.call w).Separate ∧ (os.foldl World.call w).values.Same (os.foldl Values.call w.values) := by
  suffices h : ∀ v : Values, w.values.Same v → (os.foldl World.call w).Separate ∧ (os.foldl World.call w).values.Same (os.foldl Values.call v)
    from h _ ⟨rfl, fun j _ => ⟨rfl, fun i => rfl⟩⟩
  induction os generalizing w with
  | nil => exact fun v h => ⟨s, h⟩
  | cons o os ih =>
    intro v h
    obtain ⟨s', h'⟩ := call_separate s o
    exact ih s' _ (Same.trans h' (Same.call h o))

/-- Bunches made by the constructor from arrays that occur only once have arrays of their own. -/
theorem new_separate {n : ℕ} {k : ℕ → Const} {b : ℕ → Ids} {h : Heap} (nd : ∀ j < n, (b j).list.Nodup)
    (lt : ∀ j < n, ∀ u ∈ (b j).list, u < h.next) (ap : ∀ j < n, ∀ l < n, j ≠ l → (b j).Apart (b l)) :
    (⟨n, fun j => .new (k j) (b j), h⟩ : World).Separate := by
  have ow : ∀ j u, (BunchRef.new (k j) (b j)).Owns u → u ∈ (b j).list := by
    rintro j u (hu | ⟨m, hm, -⟩ | ⟨m, hm, -⟩)
    · exact hu
    · cases hm
    · cases hm
  refine ⟨fun j hj => ⟨nd j hj, fun u hu => lt j hj u (ow j u hu), ?_, ?_, ?_⟩, fun j hj l hl hne u hu hu' =>
    ap j hj l hl hne u (ow j u hu) (ow l u hu')⟩
  · intro m hm; cases hm
  · intro m hm; cases hm
  · intro m f hm; cases hm

/-- Two bunches in arrays of their own. -/
example : (⟨2, fun j => .new ⟨1, 1, 1⟩ (.block (6 * j)), ⟨12, fun _ _ => 1⟩⟩ : World).Separate :=
  new_separate (k := fun _ => ⟨1, 1, 1⟩) (b := fun j => .block (6 * j)) (fun _ _ => block_nodup _)
    (fun j hj u hu => by rw [mem_block] at hu; show u < 12; omega)
    (fun j hj l hl hne u hu hu' => by rw [mem_block] at hu hu'; omega)

/-- A particle at rest falls behind. -/
private theorem rest_step (q : ℝ) : stepOf .boris ⟨1, q, 1⟩ [] 0 1 ⟨0, 0, 0, 0, 0, 0⟩ = ⟨0, 0, -1, 0, 0, 0⟩ := by
  simp [stepOf, borisStep, halfPush1, pushMomentum1, felt]
  norm_num

/-- Two bunches made by the constructor from the same arrays: a push of the first also moves the second. -/
theorem shared_violated : ∃ w : World, w.n = 2 ∧ (∀ j < 2, (w.bunch j).Proper w.heap) ∧ ∃ o : Op,
    ¬ (w.call o).values.Same (w.values.call o) := by
  have pr : (BunchRef.new ⟨1, 1, 1⟩ (.block 0)).Proper ⟨6, fun _ _ => 0⟩ :=
    (new_separate (n := 1) (k := fun _ => ⟨1, 1, 1⟩) (b := fun _ => .block 0) (h := ⟨6, fun _ _ => 0⟩) (fun _ _ => block_nodup _)
      (fun j hj u hu => by rw [mem_block] at hu; show u < 6; omega) (fun j hj l hl hne => by omega)).proper 0 (by norm_num)
  refine ⟨⟨2, fun _ => .new ⟨1, 1, 1⟩ (.block 0), ⟨6, fun _ _ => 0⟩⟩, rfl, fun _ _ => pr, .evolve 0 .boris [] 0 1, fun h => ?_⟩
  obtain ⟨c, eb, -⟩ := evolve_own pr .boris [] 0 1
  have h1 := (h.2 1 (by simp [World.values, World.call])).2 0
  have c0 := c 0
  simp only [BunchRef.coords, eb] at c0
  have e1 : (World.call ⟨2, fun _ => .new ⟨1, 1, 1⟩ (.block 0), ⟨6, fun _ _ => 0⟩⟩ (.evolve 0 .boris [] 0 1)).values.part 1 0 =
      ⟨0, 0, -1, 0, 0, 0⟩ := c0.trans (rest_step 1)
  rw [e1] at h1
  have := congrArg Ph.xi h1
  simp [Values.call, World.values, BunchRef.coords, BunchRef.new, Ids.get] at this

/-- A bunch made by the constructor with the same array for `x` and `xi`, e.g. the same array of zeros: the push changes `x` although
the particle moves only along `xi`. -/
theorem same_array_violated : ∃ (r : BunchRef) (h : Heap), (∀ u ∈ r.b.list, u < h.next) ∧ r.fieldArr = none ∧ r.rk4Arr = none ∧
    let e := r.evolve .boris [] 0 1 h
    (stepOf .boris r.k [] 0 1 (r.coords h 0)).x = 0 ∧ (e.1.coords e.2 0).x ≠ 0 := by
  refine ⟨.new ⟨1, 1, 1⟩ ⟨0, 1, 0, 2, 3, 4⟩, ⟨5, fun _ _ => 0⟩, by decide, rfl, rfl, ?_, ?_⟩
  · have := congrArg Ph.x (rest_step 1)
    exact this
  · simp [BunchRef.evolve, BunchRef.getFieldArrays, BunchRef.new, BunchRef.coords, zerosN, zeros, newArray, borisRow, halfPushRow,
      gatherRow, pushMomentumRow, pushMomentum1, Ids.block, Ids.get, Ids.getEB, Ids.putEB, Row.set, Mem.write, Nat.repeat]

end WakeT.Push
