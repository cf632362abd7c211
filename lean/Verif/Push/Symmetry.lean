import Verif.Push.Props
import Verif.Interp.Props

/-! # The pushers and rotations or reflections of the transverse plane (part of C121) -/

set_option linter.unusedSectionVars false

namespace WakeT.Push

open Fields (EB LibField)

/-- Specification: a rotation (`d = 1`) or a reflection (`d = -1`) of the transverse plane about
the axis: `x ↦ u x - d v y`, `y ↦ v x + d u y`. -/
structure Turn where
  u : ℝ
  v : ℝ
  d : ℝ
  norm : u ^ 2 + v ^ 2 = 1
  sign : d ^ 2 = 1

namespace Turn

/-- Specification: the rotation by an angle. -/
noncomputable def rotation (θ : ℝ) : Turn := ⟨Real.cos θ, Real.sin θ, 1, Real.cos_sq_add_sin_sq θ, by norm_num⟩

/-- Specification: the mirror image `y ↦ -y`. -/
def mirror : Turn := ⟨1, 0, -1, by norm_num, by norm_num⟩

variable (s : Turn)

/-- Specification: the first component of the image of a vector. -/
def fx (x y : ℝ) : ℝ := s.u * x - s.d * s.v * y

/-- Specification: the second component of the image of a vector. -/
def fy (x y : ℝ) : ℝ := s.v * x + s.d * s.u * y

/-- Specification: position and momentum of the turned particle. -/
def ph (p : Ph) : Ph := ⟨s.fx p.x p.y, s.fy p.x p.y, p.xi, s.fx p.px p.py, s.fy p.px p.py, p.pz⟩

/-- Specification: the turned fields; the electric field is a vector, the magnetic field an
axial vector, which changes sign in a reflection. -/
def eb (f : EB ℝ) : EB ℝ :=
  ⟨s.fx f.ex f.ey, s.fy f.ex f.ey, f.ez, s.d * s.fx f.bx f.b_y, s.d * s.fy f.bx f.b_y, s.d * f.bz⟩

/-- Specification: a field that is not changed by the turn. -/
def Leaves (f : PField) : Prop := ∀ t x y xi v, f t (s.fx x y) (s.fy x y) xi (s.eb v) = s.eb (f t x y xi v)

theorem sq (x y : ℝ) : s.fx x y ^ 2 + s.fy x y ^ 2 = x ^ 2 + y ^ 2 := by
  unfold fx fy
  linear_combination (x ^ 2 + s.d ^ 2 * y ^ 2) * s.norm + y ^ 2 * s.sign

theorem eb_zero : s.eb ⟨0, 0, 0, 0, 0, 0⟩ = ⟨0, 0, 0, 0, 0, 0⟩ := by
  simp [eb, fx, fy]

theorem eb_sq (f : EB ℝ) : (s.eb f).bx ^ 2 + (s.eb f).b_y ^ 2 + (s.eb f).bz ^ 2 = f.bx ^ 2 + f.b_y ^ 2 + f.bz ^ 2 := by
  have := s.sq f.bx f.b_y
  simp only [eb]
  linear_combination s.d ^ 2 * this + (f.bx ^ 2 + f.b_y ^ 2 + f.bz ^ 2) * s.sign

theorem felt {fields : List PField} (h : ∀ f ∈ fields, s.Leaves f) (t : ℝ) (p : Ph) :
    Push.felt fields t (s.ph p) = s.eb (Push.felt fields t p) := by
  unfold Push.felt
  have : ∀ (l : List PField), (∀ f ∈ l, s.Leaves f) → ∀ v : EB ℝ,
      l.foldl (fun v f => f t (s.ph p).x (s.ph p).y (s.ph p).xi v) (s.eb v) =
        s.eb (l.foldl (fun v f => f t p.x p.y p.xi v) v) := by
    intro l
    induction l with
    | nil => intros; rfl
    | cons f l ih =>
      intro hl v
      rw [List.foldl_cons, List.foldl_cons, ← ih (fun g hg => hl g (List.mem_cons_of_mem _ hg))]
      congr 1
      exact hl f List.mem_cons_self t p.x p.y p.xi v
  have h0 := this fields h ⟨0, 0, 0, 0, 0, 0⟩
  rwa [eb_zero] at h0

/-- Cross products turn with their factors. -/
theorem cross_x (px py pz bx b_y bz : ℝ) :
    s.fy px py * (s.d * bz) - pz * (s.d * s.fy bx b_y) = s.fx (py * bz - pz * b_y) (pz * bx - px * bz) := by
  unfold fx fy
  linear_combination (s.u * (py * bz - pz * b_y)) * s.sign

theorem cross_y (px py pz bx b_y bz : ℝ) :
    pz * (s.d * s.fx bx b_y) - s.fx px py * (s.d * bz) = s.fy (py * bz - pz * b_y) (pz * bx - px * bz) := by
  unfold fx fy
  linear_combination (s.v * (py * bz - pz * b_y)) * s.sign

theorem cross_z (px py bx b_y : ℝ) :
    s.fx px py * (s.d * s.fy bx b_y) - s.fy px py * (s.d * s.fx bx b_y) = px * b_y - py * bx := by
  unfold fx fy
  linear_combination (s.d ^ 2 * (px * b_y - py * bx)) * s.norm + (px * b_y - py * bx) * s.sign

theorem fx_add (a b x y : ℝ) : s.fx (a + b) (x + y) = s.fx a x + s.fx b y := by unfold fx; ring
theorem fy_add (a b x y : ℝ) : s.fy (a + b) (x + y) = s.fy a x + s.fy b y := by unfold fy; ring
theorem fx_mul (k x y : ℝ) : s.fx (k * x) (k * y) = k * s.fx x y := by unfold fx; ring
theorem fy_mul (k x y : ℝ) : s.fy (k * x) (k * y) = k * s.fy x y := by unfold fy; ring

theorem halfPush1 (k : Const) (dt : ℝ) (p : Ph) : Push.halfPush1 k dt (s.ph p) = s.ph (Push.halfPush1 k dt p) := by
  have h : (s.ph p).px ^ 2 + (s.ph p).py ^ 2 + (s.ph p).pz ^ 2 = p.px ^ 2 + p.py ^ 2 + p.pz ^ 2 := by
    have := s.sq p.px p.py
    simp only [ph]
    linear_combination this
  unfold Push.halfPush1
  dsimp only
  rw [h]
  ext <;> simp only [ph, fx, fy] <;> ring

theorem pushMomentum1 (k : Const) (dt : ℝ) (f : EB ℝ) (p : Ph) :
    Push.pushMomentum1 k dt (s.eb f) (s.ph p) = s.ph (Push.pushMomentum1 k dt f p) := by
  unfold Push.pushMomentum1
  dsimp only
  generalize k.qmc * dt / 2 = a
  have hm : ((s.ph p).px + a * (s.eb f).ex) ^ 2 + ((s.ph p).py + a * (s.eb f).ey) ^ 2 + ((s.ph p).pz + a * (s.eb f).ez) ^ 2 =
      (p.px + a * f.ex) ^ 2 + (p.py + a * f.ey) ^ 2 + (p.pz + a * f.ez) ^ 2 := by
    have := s.sq (p.px + a * f.ex) (p.py + a * f.ey)
    rw [fx_add, fy_add, fx_mul, fy_mul] at this
    simp only [ph, eb]
    linear_combination this
  rw [hm]
  generalize k.c / √(1 + ((p.px + a * f.ex) ^ 2 + (p.py + a * f.ey) ^ 2 + (p.pz + a * f.ez) ^ 2)) = g
  have ht : 1 + (a * g * (s.eb f).bx) ^ 2 + (a * g * (s.eb f).b_y) ^ 2 + (a * g * (s.eb f).bz) ^ 2 =
      1 + (a * g * f.bx) ^ 2 + (a * g * f.b_y) ^ 2 + (a * g * f.bz) ^ 2 := by
    linear_combination (a * g) ^ 2 * s.eb_sq f
  rw [ht]
  generalize 2 / (1 + (a * g * f.bx) ^ 2 + (a * g * f.b_y) ^ 2 + (a * g * f.bz) ^ 2) = cs
  have e1 : (s.ph p).px + a * (s.eb f).ex = s.fx (p.px + a * f.ex) (p.py + a * f.ey) := by
    rw [fx_add, fx_mul]; rfl
  have e2 : (s.ph p).py + a * (s.eb f).ey = s.fy (p.px + a * f.ex) (p.py + a * f.ey) := by
    rw [fy_add, fy_mul]; rfl
  have e3 : (s.ph p).pz + a * (s.eb f).ez = p.pz + a * f.ez := rfl
  rw [e1, e2, e3]
  generalize hx : p.px + a * f.ex = mx
  generalize hy : p.py + a * f.ey = my
  generalize hz : p.pz + a * f.ez = mz
  have c1 : s.fx mx my + s.fy mx my * (a * g * (s.eb f).bz) - mz * (a * g * (s.eb f).b_y) =
      s.fx (mx + my * (a * g * f.bz) - mz * (a * g * f.b_y)) (my + mz * (a * g * f.bx) - mx * (a * g * f.bz)) := by
    have := s.cross_x mx my mz f.bx f.b_y f.bz
    have h2 := s.fx_mul (a * g) (my * f.bz - mz * f.b_y) (mz * f.bx - mx * f.bz)
    have h3 := s.fx_add mx (a * g * (my * f.bz - mz * f.b_y)) my (a * g * (mz * f.bx - mx * f.bz))
    rw [show mx + my * (a * g * f.bz) - mz * (a * g * f.b_y) = mx + a * g * (my * f.bz - mz * f.b_y) by ring,
      show my + mz * (a * g * f.bx) - mx * (a * g * f.bz) = my + a * g * (mz * f.bx - mx * f.bz) by ring, h3, h2, ← this]
    simp only [eb]
    ring
  have c2 : s.fy mx my + mz * (a * g * (s.eb f).bx) - s.fx mx my * (a * g * (s.eb f).bz) =
      s.fy (mx + my * (a * g * f.bz) - mz * (a * g * f.b_y)) (my + mz * (a * g * f.bx) - mx * (a * g * f.bz)) := by
    have := s.cross_y mx my mz f.bx f.b_y f.bz
    have h2 := s.fy_mul (a * g) (my * f.bz - mz * f.b_y) (mz * f.bx - mx * f.bz)
    have h3 := s.fy_add mx (a * g * (my * f.bz - mz * f.b_y)) my (a * g * (mz * f.bx - mx * f.bz))
    rw [show mx + my * (a * g * f.bz) - mz * (a * g * f.b_y) = mx + a * g * (my * f.bz - mz * f.b_y) by ring,
      show my + mz * (a * g * f.bx) - mx * (a * g * f.bz) = my + a * g * (mz * f.bx - mx * f.bz) by ring, h3, h2, ← this]
    simp only [eb]
    ring
  have c3 : mz + s.fx mx my * (a * g * (s.eb f).b_y) - s.fy mx my * (a * g * (s.eb f).bx) =
      mz + mx * (a * g * f.b_y) - my * (a * g * f.bx) := by
    have := s.cross_z mx my f.bx f.b_y
    simp only [eb]
    linear_combination a * g * this
  rw [c1, c2, c3]
  generalize mx + my * (a * g * f.bz) - mz * (a * g * f.b_y) = nx
  generalize my + mz * (a * g * f.bx) - mx * (a * g * f.bz) = ny
  generalize mz + mx * (a * g * f.b_y) - my * (a * g * f.bx) = nz
  have k1 := s.cross_x nx ny nz f.bx f.b_y f.bz
  have k2 := s.cross_y nx ny nz f.bx f.b_y f.bz
  have k3 := s.cross_z nx ny f.bx f.b_y
  ext
  · rfl
  · rfl
  · rfl
  · simp only [ph, eb]
    simp only [fx, fy] at k1 k2 k3 ⊢
    linear_combination cs * (a * g) * k1
  · simp only [ph, eb]
    simp only [fx, fy] at k1 k2 k3 ⊢
    linear_combination cs * (a * g) * k2
  · simp only [ph, eb]
    simp only [fx, fy] at k1 k2 k3 ⊢
    linear_combination cs * (a * g) * k3

theorem borisStep {fields : List PField} (h : ∀ f ∈ fields, s.Leaves f) (k : Const) (t dt : ℝ) (p : Ph) :
    Push.borisStep k fields t dt (s.ph p) = s.ph (Push.borisStep k fields t dt p) := by
  unfold Push.borisStep
  dsimp only
  rw [s.halfPush1, s.felt h, s.pushMomentum1, s.halfPush1]

/-- Rates of change turn with the particles. -/
theorem motion {fields : List PField} (h : ∀ f ∈ fields, s.Leaves f) (k : Const) (t : ℝ) (p : Ph) :
    Push.motion k fields t (s.ph p) = s.ph (Push.motion k fields t p) := by
  have hg : (s.ph p).gamma = p.gamma := by
    unfold Ph.gamma
    congr 1
    have := s.sq p.px p.py
    simp only [ph]
    linear_combination this
  unfold Push.motion
  dsimp only
  rw [hg, s.felt h]
  generalize Push.felt fields t p = f
  generalize p.gamma = g
  generalize k.q / (k.m * k.c) = a
  have k1 := s.cross_x (k.c * p.px / g) (k.c * p.py / g) (k.c * p.pz / g) f.bx f.b_y f.bz
  have k2 := s.cross_y (k.c * p.px / g) (k.c * p.py / g) (k.c * p.pz / g) f.bx f.b_y f.bz
  have k3 := s.cross_z (k.c * p.px / g) (k.c * p.py / g) f.bx f.b_y
  ext
  · simp only [ph, fx, fy]; ring
  · simp only [ph, fx, fy]; ring
  · rfl
  · simp only [ph, eb]
    simp only [fx, fy] at k1 k2 k3 ⊢
    linear_combination a * k1
  · simp only [ph, eb]
    simp only [fx, fy] at k1 k2 k3 ⊢
    linear_combination a * k2
  · simp only [ph, eb]
    simp only [fx, fy] at k1 k2 k3 ⊢
    linear_combination a * k3

theorem shift (p q : Ph) (h : ℝ) : (s.ph p).shift h (s.ph q) = s.ph (p.shift h q) := by
  unfold Ph.shift
  ext <;> simp only [ph, fx, fy] <;> ring

theorem classicalRK4 {fields : List PField} (h : ∀ f ∈ fields, s.Leaves f) (k : Const) (t dt : ℝ) (p : Ph) :
    Push.classicalRK4 (Push.motion k fields) t dt (s.ph p) = s.ph (Push.classicalRK4 (Push.motion k fields) t dt p) := by
  unfold Push.classicalRK4
  dsimp only
  simp only [s.motion h, s.shift]

end Turn

end WakeT.Push
