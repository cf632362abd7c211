import Verif.Push.Lemmas

/-! # Properties of the pushers: C11, C28 - C33, C74 -/

set_option linter.unusedSectionVars false

namespace WakeT.Push

open Fields (EB)

variable (k : Const) (fields : List PField) {sch sch' : Sched} {n : ℕ}

/-! ### C11 -/

private theorem prange_canon {P : Type*} (hs : sch.Valid n) (a b : ℕ) (f : ℕ → P → P) (s : ℕ → P) :
    prange (sch a b) (at1 f) s = prange (List.range n) (at1 f) s := by
  funext i
  rw [prange_schedule f (hs a b), prange_schedule f (isSchedule_range n)]

private theorem boris_canon (hs : sch.Valid n) (t dt : ℝ) (b : ℕ → Ph) (eb : ℕ → EB ℝ) :
    boris k fields sch t dt b eb = boris k fields (fun _ _ => List.range n) t dt b eb := by
  simp only [boris, gatherFields, prange_canon hs]

/-- **C11** for the Boris pusher: coordinates and field arrays after a push do not
depend on the order in which the iterations of any of its loops are executed. -/
theorem boris_schedule_irrelevant (hs : sch.Valid n) (hs' : sch'.Valid n) (t dt : ℝ)
    (b : ℕ → Ph) (eb : ℕ → EB ℝ) :
    boris k fields sch t dt b eb = boris k fields sch' t dt b eb := by
  rw [boris_canon k fields hs, boris_canon k fields hs']

private theorem rk4_canon (hs : sch.Valid n) (t dt : ℝ) (b : ℕ → Ph) (bu : Bufs)
    (eb : ℕ → EB ℝ) :
    rk4 k fields sch t dt b bu eb = rk4 k fields (fun _ _ => List.range n) t dt b bu eb := by
  simp only [rk4, rk4Stage, applyPush, updatePush, initPush, updateCoords, calculateK,
    gatherFields, prange_canon hs]

/-- **C11** for the Runge-Kutta pusher: coordinates, buffers and field arrays. -/
theorem rk4_schedule_irrelevant (hs : sch.Valid n) (hs' : sch'.Valid n) (t dt : ℝ)
    (b : ℕ → Ph) (bu : Bufs) (eb : ℕ → EB ℝ) :
    rk4 k fields sch t dt b bu eb = rk4 k fields sch' t dt b bu eb := by
  rw [rk4_canon k fields hs, rk4_canon k fields hs']

/-- Non-vacuity: two different orders for three particles. -/
example : Sched.Valid (fun _ _ => [2, 0, 1]) 3 ∧ Sched.Valid (fun _ _ => [0, 1, 2]) 3 :=
  ⟨fun _ _ => show [2, 0, 1].Perm (List.range 3) by decide,
    fun _ _ => show [0, 1, 2].Perm (List.range 3) by decide⟩

/-! ### C31 -/

/-- **C31** The buffered Runge-Kutta pusher moves every particle by the classical
Runge-Kutta step of its equation of motion, whatever the buffers and field arrays
contained before, and touches no entry beyond the bunch. -/
theorem rk4_is_classical (hs : sch.Valid n) (t dt : ℝ) (b : ℕ → Ph) (bu : Bufs)
    (eb : ℕ → EB ℝ) (i : ℕ) :
    (rk4 k fields sch t dt b bu eb).1 i =
      if i < n then classicalRK4 (motion k fields) t dt (b i) else b i :=
  rk4_apply k fields hs t dt b bu eb i

/-! ### C28 -/

private theorem pushMomentum1_momentum (dt : ℝ) (f : EB ℝ) (p : Ph) :
    (pushMomentum1 k dt f p).x = p.x ∧ (pushMomentum1 k dt f p).y = p.y ∧
      (pushMomentum1 k dt f p).xi = p.xi := ⟨rfl, rfl, rfl⟩

/-- Rotation by the vector `t` as in `push_momentum`. -/
private noncomputable def rot (tx ty tz px py pz : ℝ) : ℝ × ℝ × ℝ :=
  let cs := 2 / (1 + tx ^ 2 + ty ^ 2 + tz ^ 2)
  let pxc := px + py * tz - pz * ty
  let pyc := py + pz * tx - px * tz
  let pzc := pz + px * ty - py * tx
  (px + pyc * (cs * tz) - pzc * (cs * ty), py + pzc * (cs * tx) - pxc * (cs * tz),
    pz + pxc * (cs * ty) - pyc * (cs * tx))

private theorem rot_norm (tx ty tz px py pz : ℝ) :
    (rot tx ty tz px py pz).1 ^ 2 + (rot tx ty tz px py pz).2.1 ^ 2 +
      (rot tx ty tz px py pz).2.2 ^ 2 = px ^ 2 + py ^ 2 + pz ^ 2 := by
  have h : (1 + tx ^ 2 + ty ^ 2 + tz ^ 2) ≠ 0 := by positivity
  unfold rot
  field_simp
  ring

private theorem rot_inv (tx ty tz px py pz : ℝ) :
    rot (-tx) (-ty) (-tz) (rot tx ty tz px py pz).1 (rot tx ty tz px py pz).2.1
      (rot tx ty tz px py pz).2.2 = (px, py, pz) := by
  have h : (1 + tx ^ 2 + ty ^ 2 + tz ^ 2) ≠ 0 := by positivity
  have h' : (1 + (-tx) ^ 2 + (-ty) ^ 2 + (-tz) ^ 2) = 1 + tx ^ 2 + ty ^ 2 + tz ^ 2 := by ring
  unfold rot
  dsimp only
  rw [h']
  refine Prod.ext ?_ (Prod.ext ?_ ?_) <;> dsimp only <;> field_simp <;> ring

private theorem pushMomentum1_rot (dt : ℝ) (f : EB ℝ) (p : Ph) :
    pushMomentum1 k dt f p =
      (let a := k.qmc * dt / 2
       let mx := p.px + a * f.ex
       let my := p.py + a * f.ey
       let mz := p.pz + a * f.ez
       let g := k.c / √(1 + (mx ^ 2 + my ^ 2 + mz ^ 2))
       let r := rot (a * g * f.bx) (a * g * f.b_y) (a * g * f.bz) mx my mz
       { p with px := r.1 + a * f.ex, py := r.2.1 + a * f.ey, pz := r.2.2 + a * f.ez }) := rfl

private theorem pushMomentum1_magnetic (dt : ℝ) (f : EB ℝ) (p : Ph)
    (h : f.ex = 0 ∧ f.ey = 0 ∧ f.ez = 0) :
    (pushMomentum1 k dt f p).px ^ 2 + (pushMomentum1 k dt f p).py ^ 2 +
      (pushMomentum1 k dt f p).pz ^ 2 = p.px ^ 2 + p.py ^ 2 + p.pz ^ 2 := by
  rw [pushMomentum1_rot]
  simp only [h, mul_zero, add_zero]
  exact rot_norm ..

/-- **C28** If the fields at the time of the momentum push are purely magnetic, one
Boris step leaves the magnitude of the momentum and the Lorentz factor of every
particle exactly as they were. -/
theorem boris_magnetic_no_work (hs : sch.Valid n) (t dt : ℝ) (b : ℕ → Ph) (eb : ℕ → EB ℝ)
    (hB : ∀ p, (felt fields (t + dt / 2) p).ex = 0 ∧ (felt fields (t + dt / 2) p).ey = 0 ∧
      (felt fields (t + dt / 2) p).ez = 0) (i : ℕ) :
    let b' := (boris k fields sch t dt b eb).1
    (b' i).px ^ 2 + (b' i).py ^ 2 + (b' i).pz ^ 2 =
        (b i).px ^ 2 + (b i).py ^ 2 + (b i).pz ^ 2 ∧
      (b' i).gamma = (b i).gamma := by
  dsimp only
  have h : ((boris k fields sch t dt b eb).1 i).px ^ 2 +
      ((boris k fields sch t dt b eb).1 i).py ^ 2 + ((boris k fields sch t dt b eb).1 i).pz ^ 2 =
      (b i).px ^ 2 + (b i).py ^ 2 + (b i).pz ^ 2 := by
    rw [boris_apply k fields hs]
    split_ifs with hi
    · exact pushMomentum1_magnetic k dt _ (halfPush1 k dt (b i)) (hB _)
    · rfl
  refine ⟨h, ?_⟩
  unfold Ph.gamma
  congr 1
  linarith

/-- Non-vacuity: a quadrupole field, which depends on the position. -/
example (t dt : ℝ) (p : Ph) :
    let fields : List PField := [fun _ x y _ v => { v with bx := v.bx + 3 * y, b_y := v.b_y + 3 * x }]
    (felt fields (t + dt / 2) p).ex = 0 ∧ (felt fields (t + dt / 2) p).ey = 0 ∧
      (felt fields (t + dt / 2) p).ez = 0 := ⟨rfl, rfl, rfl⟩

/-! ### C29 -/

private theorem pushMomentum1_inv (dt : ℝ) (f : EB ℝ) (p : Ph) :
    pushMomentum1 k (-dt) f (pushMomentum1 k dt f p) = p := by
  rw [pushMomentum1_rot k (-dt), pushMomentum1_rot k dt]
  dsimp only
  have ha : k.qmc * -dt / 2 = -(k.qmc * dt / 2) := by ring
  rw [ha]
  generalize k.qmc * dt / 2 = a
  generalize hmx : p.px + a * f.ex = mx
  generalize hmy : p.py + a * f.ey = my
  generalize hmz : p.pz + a * f.ez = mz
  generalize hg : k.c / √(1 + (mx ^ 2 + my ^ 2 + mz ^ 2)) = g
  have h1 : ∀ u e : ℝ, u + a * e + -a * e = u := fun u e => by ring
  simp only [h1, rot_norm, hg]
  have h2 : ∀ u : ℝ, -a * g * u = -(a * g * u) := fun u => by ring
  simp only [h2, rot_inv]
  ext <;> simp only <;> linarith

private theorem halfPush1_inv (dt : ℝ) (p : Ph) : halfPush1 k (-dt) (halfPush1 k dt p) = p := by
  unfold halfPush1
  ext <;> simp only <;> ring

/-- **C29** In static fields a Boris step by `dt` followed by one by `-dt`, at any
times, returns all coordinates exactly. -/
theorem boris_reversible (hs : sch.Valid n) (hs' : sch'.Valid n) (t t' dt : ℝ)
    (b : ℕ → Ph) (eb eb' : ℕ → EB ℝ) (hstat : ∀ t t' p, felt fields t p = felt fields t' p) :
    (boris k fields sch' t' (-dt) (boris k fields sch t dt b eb).1 eb').1 = b := by
  funext i
  rw [boris_apply k fields hs', boris_apply k fields hs]
  split_ifs with hi
  · unfold borisStep
    dsimp only
    have := halfPush1_inv k
    rw [this, hstat (t' + -dt / 2) (t + dt / 2)]
    generalize hq : halfPush1 k dt (b i) = q
    have hf : felt fields (t + dt / 2) (pushMomentum1 k dt (felt fields (t + dt / 2) q) q) =
        felt fields (t + dt / 2) q := rfl
    rw [hf, pushMomentum1_inv, ← hq, this]
  · rfl

/-- Non-vacuity: a static electric and magnetic field. -/
example : ∀ t t' p,
    felt [fun _ x y xi v => { v with ex := v.ex + x, b_y := v.b_y + 2 * xi }] t p =
    felt [fun _ x y xi v => { v with ex := v.ex + x, b_y := v.b_y + 2 * xi }] t' p :=
  fun _ _ _ => rfl

/-! ### C30 -/

private theorem gamma_eq (p : Ph) :
    √(1 + (p.px ^ 2 + p.py ^ 2 + p.pz ^ 2)) = p.gamma := by
  unfold Ph.gamma; congr 1; ring

theorem gamma_pos (p : Ph) : 0 < p.gamma := Real.sqrt_pos.mpr (by positivity)

private theorem pushMomentum1_zero (dt : ℝ) (p : Ph) :
    pushMomentum1 k dt ⟨0, 0, 0, 0, 0, 0⟩ p = p := by
  unfold pushMomentum1
  ext <;> simp

private theorem halfPush1_drift (dt : ℝ) (p : Ph) : halfPush1 k dt p = p.drift k (dt / 2) := by
  unfold halfPush1 Ph.drift
  rw [gamma_eq]
  ext <;> simp only <;> ring

private theorem drift_add (p : Ph) (d e : ℝ) : (p.drift k d).drift k e = p.drift k (d + e) := by
  unfold Ph.drift Ph.gamma
  ext <;> simp only <;> ring

/-- **C30** Without fields both pushers move every particle in a straight line by
its velocity times `dt`, with unchanged momentum. -/
theorem free_drift (hs : sch.Valid n) (t dt : ℝ) (b : ℕ → Ph) (bu : Bufs) (eb : ℕ → EB ℝ)
    (h0 : ∀ t p, felt fields t p = ⟨0, 0, 0, 0, 0, 0⟩) (i : ℕ) (hi : i < n) :
    (boris k fields sch t dt b eb).1 i = (b i).drift k dt ∧
    (rk4 k fields sch t dt b bu eb).1 i = (b i).drift k dt := by
  rw [boris_apply k fields hs, rk4_apply k fields hs, if_pos hi, if_pos hi]
  constructor
  · unfold borisStep
    dsimp only
    rw [h0, pushMomentum1_zero, halfPush1_drift, halfPush1_drift, drift_add, add_halves]
  · have hm : ∀ t p, motion k fields t p = ⟨k.c * p.px / p.gamma, k.c * p.py / p.gamma,
        k.c * p.pz / p.gamma - k.c, 0, 0, 0⟩ := by
      intro t p
      unfold motion
      rw [h0]
      ext <;> simp
    have hsh : ∀ (p : Ph) (h a b c : ℝ), (p.shift h ⟨a, b, c, 0, 0, 0⟩).gamma = p.gamma ∧
        (p.shift h ⟨a, b, c, 0, 0, 0⟩).px = p.px ∧ (p.shift h ⟨a, b, c, 0, 0, 0⟩).py = p.py ∧
        (p.shift h ⟨a, b, c, 0, 0, 0⟩).pz = p.pz := by
      intro p h a b c
      simp [Ph.shift, Ph.gamma]
    unfold classicalRK4
    simp only [hm, hsh]
    unfold Ph.shift Ph.drift
    ext <;> simp only <;> ring

private theorem pz_lt_gamma (p : Ph) : p.pz < p.gamma := by
  unfold Ph.gamma
  refine lt_of_le_of_lt (le_abs_self _) ?_
  rw [← Real.sqrt_sq_eq_abs]
  exact Real.sqrt_lt_sqrt (sq_nonneg _) (by nlinarith [sq_nonneg p.px, sq_nonneg p.py])

/-- **C30** A free particle falls behind the frame moving with the speed of light,
strictly if time passes, and moves forward by less than `c dt`. -/
theorem drift_slower_than_light (hc : 0 < k.c) (p : Ph) (dt : ℝ) :
    (0 ≤ dt → (p.drift k dt).xi ≤ p.xi) ∧ (0 < dt → (p.drift k dt).xi < p.xi) := by
  have h : k.c * p.pz / p.gamma - k.c < 0 := by
    have := mul_lt_mul_of_pos_left (pz_lt_gamma p) hc
    rw [← div_lt_iff₀ (gamma_pos p)] at this
    linarith
  unfold Ph.drift
  dsimp only
  exact ⟨fun hd => by nlinarith [mul_nonneg hd (neg_nonneg.mpr h.le)],
    fun hd => by nlinarith [mul_pos hd (neg_pos.mpr h)]⟩

/-- **C30** Both pushers: `xi` of a free particle never increases. -/
theorem free_xi_antitone (hc : 0 < k.c) (hs : sch.Valid n) (t dt : ℝ) (hdt : 0 ≤ dt)
    (b : ℕ → Ph) (bu : Bufs) (eb : ℕ → EB ℝ)
    (h0 : ∀ t p, felt fields t p = ⟨0, 0, 0, 0, 0, 0⟩) (i : ℕ) :
    ((boris k fields sch t dt b eb).1 i).xi ≤ (b i).xi ∧
    ((rk4 k fields sch t dt b bu eb).1 i).xi ≤ (b i).xi := by
  by_cases hi : i < n
  · have h := free_drift k fields hs t dt b bu eb h0 i hi
    rw [h.1, h.2]
    exact ⟨(drift_slower_than_light k hc _ _).1 hdt, (drift_slower_than_light k hc _ _).1 hdt⟩
  · rw [boris_apply k fields hs, rk4_apply k fields hs, if_neg hi, if_neg hi]
    exact ⟨le_refl _, le_refl _⟩

/-- Non-vacuity: no fields. -/
example : ∀ t p, felt [] t p = ⟨0, 0, 0, 0, 0, 0⟩ := fun _ _ => rfl

/-! ### C32 -/

private theorem drift_zero (p : Ph) : p.drift k 0 = p := by
  unfold Ph.drift; ext <;> simp

/-- **C32** A push by zero time changes no coordinate, whatever the fields. -/
theorem push_zero (hs : sch.Valid n) (t : ℝ) (b : ℕ → Ph) (bu : Bufs) (eb : ℕ → EB ℝ) :
    (boris k fields sch t 0 b eb).1 = b ∧ (rk4 k fields sch t 0 b bu eb).1 = b := by
  constructor
  · funext i
    rw [boris_apply k fields hs]
    split_ifs
    · unfold borisStep
      dsimp only
      have : ∀ f p, pushMomentum1 k 0 f p = p := by
        intro f p
        unfold pushMomentum1
        ext <;> simp
      rw [this, halfPush1_drift, halfPush1_drift, zero_div, drift_zero, drift_zero]
    · rfl
  · funext i
    rw [rk4_apply k fields hs]
    split_ifs
    · unfold classicalRK4 Ph.shift
      ext <;> simp
    · rfl

/-! ### C33 -/

/-- **C33** In a uniform constant electric field, any sequence of Boris and
Runge-Kutta pushes changes the momentum of every particle by `q E / (m c)` times
the total time, however this is divided into steps. -/
theorem uniform_electric_exact (ex ey ez : ℝ)
    (hE : ∀ t p, felt fields t p = ⟨ex, ey, ez, 0, 0, 0⟩) (calls : List Call)
    (hv : ∀ cl ∈ calls, cl.sch.Valid n) (s : (ℕ → Ph) × Bufs × (ℕ → EB ℝ)) (i : ℕ) (hi : i < n) :
    let T := (calls.map Call.dt).sum
    let p' := (calls.foldl (fun s cl => cl.run k fields s) s).1 i
    p'.px = (s.1 i).px + k.q * ex * T / (k.m * k.c) ∧
    p'.py = (s.1 i).py + k.q * ey * T / (k.m * k.c) ∧
    p'.pz = (s.1 i).pz + k.q * ez * T / (k.m * k.c) := by
  induction calls generalizing s with
  | nil => simp
  | cons cl l ih =>
    have h1 := ih (fun c hc => hv c (List.mem_cons_of_mem _ hc)) (cl.run k fields s)
    dsimp only at h1 ⊢
    rw [List.foldl_cons, List.map_cons, List.sum_cons, h1.1, h1.2.1, h1.2.2]
    have hs := hv cl List.mem_cons_self
    have h2 : ((cl.run k fields s).1 i).px = (s.1 i).px + k.q * ex * cl.dt / (k.m * k.c) ∧
        ((cl.run k fields s).1 i).py = (s.1 i).py + k.q * ey * cl.dt / (k.m * k.c) ∧
        ((cl.run k fields s).1 i).pz = (s.1 i).pz + k.q * ez * cl.dt / (k.m * k.c) := by
      unfold Call.run
      split
      · rw [rk4_apply k fields hs, if_pos hi]
        unfold classicalRK4 motion Ph.shift
        simp only [hE]
        refine ⟨?_, ?_, ?_⟩ <;> ring
      · dsimp only
        rw [boris_apply k fields hs, if_pos hi]
        unfold borisStep halfPush1 pushMomentum1
        dsimp only
        rw [hE]
        simp only [mul_zero, ne_eq, OfNat.ofNat_ne_zero, not_false_eq_true, zero_pow, add_zero,
          sub_zero, Const.qmc]
        refine ⟨?_, ?_, ?_⟩ <;> ring
    rw [h2.1, h2.2.1, h2.2.2]
    refine ⟨?_, ?_, ?_⟩ <;> ring

/-- Non-vacuity: a single uniform field. -/
example : ∀ t p, felt [fun _ _ _ _ v => { v with ez := v.ez + 7 }] t p = ⟨0, 0, 0 + 7, 0, 0, 0⟩ :=
  fun _ _ => rfl

/-! ### C74 -/

/-- **C74** The Boris step in arbitrary fields: half of a drift with the old
momentum, then a momentum satisfying the centred equation of motion in the field
felt there at half the time step, then half of a drift with the new momentum. -/
theorem boris_centred (hs : sch.Valid n) (t dt : ℝ) (b : ℕ → Ph) (eb : ℕ → EB ℝ) (i : ℕ)
    (hi : i < n) : ∃ p' : Ph,
    let mid := (b i).drift k (dt / 2)
    (p'.x = mid.x ∧ p'.y = mid.y ∧ p'.xi = mid.xi) ∧
    Centred k dt (felt fields (t + dt / 2) mid) mid p' ∧
    (boris k fields sch t dt b eb).1 i = p'.drift k (dt / 2) := by
  rw [boris_apply k fields hs, if_pos hi]
  unfold borisStep
  dsimp only
  rw [halfPush1_drift k dt (b i)]
  generalize (b i).drift k (dt / 2) = q
  generalize felt fields (t + dt / 2) q = f
  refine ⟨pushMomentum1 k dt f q, ⟨rfl, rfl, rfl⟩, ?_, halfPush1_drift ..⟩
  rw [pushMomentum1_rot]
  unfold Centred
  dsimp only
  have ha : k.q * dt / (k.m * k.c) / 2 = k.qmc * dt / 2 := by unfold Const.qmc; ring
  have ha' : k.q * dt / (k.m * k.c) = 2 * (k.qmc * dt / 2) := by unfold Const.qmc; ring
  rw [ha, ha']
  generalize k.qmc * dt / 2 = a
  have hg : 0 < √(1 + ((q.px + a * f.ex) ^ 2 + (q.py + a * f.ey) ^ 2 + (q.pz + a * f.ez) ^ 2)) :=
    Real.sqrt_pos.mpr (by positivity)
  rw [show 1 + (q.px + a * f.ex) ^ 2 + (q.py + a * f.ey) ^ 2 + (q.pz + a * f.ez) ^ 2 =
    1 + ((q.px + a * f.ex) ^ 2 + (q.py + a * f.ey) ^ 2 + (q.pz + a * f.ez) ^ 2) by ring]
  generalize hgg : √(1 + ((q.px + a * f.ex) ^ 2 + (q.py + a * f.ey) ^ 2 +
    (q.pz + a * f.ez) ^ 2)) = g at hg ⊢
  have hg' : g ≠ 0 := hg.ne'
  generalize hh : k.c / g = h
  have hcg : k.c = h * g := by rw [← hh]; field_simp
  have hdiv : ∀ u : ℝ, h * g * u / (2 * g) = h * u / 2 := fun u => by field_simp
  rw [hcg]
  simp only [hdiv]
  unfold rot
  have hD : (1 + (a * h * f.bx) ^ 2 + (a * h * f.b_y) ^ 2 + (a * h * f.bz) ^ 2) ≠ 0 := by
    positivity
  refine ⟨?_, ?_, ?_⟩ <;> dsimp only <;> field_simp <;> ring

/-- **C74** The centred equation determines the new momentum. -/
theorem centred_unique (dt : ℝ) (f : EB ℝ) (p p' p'' : Ph) (h' : Centred k dt f p p')
    (h'' : Centred k dt f p p'') :
    p'.px = p''.px ∧ p'.py = p''.py ∧ p'.pz = p''.pz := by
  unfold Centred at h' h''
  dsimp only at h' h''
  generalize k.q * dt / (k.m * k.c) = a at h' h''
  generalize √(1 + (p.px + a / 2 * f.ex) ^ 2 + (p.py + a / 2 * f.ey) ^ 2 +
    (p.pz + a / 2 * f.ez) ^ 2) = g at h' h''
  have e : ∀ u : ℝ, k.c * u / (2 * g) = (k.c / (2 * g)) * u := fun u => by ring
  simp only [e] at h' h''
  generalize k.c / (2 * g) = h at h' h''
  obtain ⟨a1, a2, a3⟩ := h'
  obtain ⟨b1, b2, b3⟩ := h''
  have d1 : p'.px - p''.px = a * h * ((p'.py - p''.py) * f.bz - (p'.pz - p''.pz) * f.b_y) := by
    linear_combination a1 - b1
  have d2 : p'.py - p''.py = a * h * ((p'.pz - p''.pz) * f.bx - (p'.px - p''.px) * f.bz) := by
    linear_combination a2 - b2
  have d3 : p'.pz - p''.pz = a * h * ((p'.px - p''.px) * f.b_y - (p'.py - p''.py) * f.bx) := by
    linear_combination a3 - b3
  have hsum : (p'.px - p''.px) ^ 2 + (p'.py - p''.py) ^ 2 + (p'.pz - p''.pz) ^ 2 = 0 := by
    linear_combination (p'.px - p''.px) * d1 + (p'.py - p''.py) * d2 + (p'.pz - p''.pz) * d3
  have s1 := sq_nonneg (p'.px - p''.px)
  have s2 := sq_nonneg (p'.py - p''.py)
  have s3 := sq_nonneg (p'.pz - p''.pz)
  refine ⟨?_, ?_, ?_⟩
  · exact sub_eq_zero.mp (pow_eq_zero_iff two_ne_zero |>.mp (by linarith))
  · exact sub_eq_zero.mp (pow_eq_zero_iff two_ne_zero |>.mp (by linarith))
  · exact sub_eq_zero.mp (pow_eq_zero_iff two_ne_zero |>.mp (by linarith))

end WakeT.Push
