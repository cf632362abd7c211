import Verif.Push.Props

/-! # The pushers and changes of scale (part of C130) -/

set_option linter.unusedSectionVars false

namespace WakeT.Push

open Fields (EB)

/-- Specification: a particle with the same momentum at `l` times the distance from the origin. -/
def Ph.scaled (l : ℝ) (p : Ph) : Ph := ⟨l * p.x, l * p.y, l * p.xi, p.px, p.py, p.pz⟩

/-- Specification: fields divided by `l`. -/
noncomputable def weaker (l : ℝ) (f : EB ℝ) : EB ℝ := ⟨f.ex / l, f.ey / l, f.ez / l, f.bx / l, f.b_y / l, f.bz / l⟩

/-- Specification: `f'` is the field `f` in which all lengths and times are multiplied and all
field strengths divided by `l`. -/
def ScaledField (l : ℝ) (f f' : PField) : Prop :=
  ∀ t x y xi v, f' (l * t) (l * x) (l * y) (l * xi) (weaker l v) = weaker l (f t x y xi v)

/-- Rates of change after the change of scale. -/
noncomputable def Ph.rate (l : ℝ) (d : Ph) : Ph := ⟨d.x, d.y, d.xi, d.px / l, d.py / l, d.pz / l⟩

variable {l : ℝ}

theorem felt_scaled {fs fs' : List PField} (h : List.Forall₂ (ScaledField l) fs fs') (t : ℝ) (p : Ph) :
    felt fs' (l * t) (p.scaled l) = weaker l (felt fs t p) := by
  unfold felt
  have h0 : (⟨0, 0, 0, 0, 0, 0⟩ : EB ℝ) = weaker l ⟨0, 0, 0, 0, 0, 0⟩ := by simp [weaker]
  rw [h0]
  generalize (⟨0, 0, 0, 0, 0, 0⟩ : EB ℝ) = v at h0
  have h1 : ∀ u : EB ℝ, fs'.foldl (fun v f => f (l * t) (p.scaled l).x (p.scaled l).y (p.scaled l).xi v) (weaker l u) =
      weaker l (fs.foldl (fun v f => f t p.x p.y p.xi v) u) := by
    induction h with
    | nil => intro u; rfl
    | cons hf _ ih =>
      intro u
      rw [List.foldl_cons, List.foldl_cons, ← ih]
      congr 1
      exact hf t p.x p.y p.xi u
  rw [h1 v, ← h0]

theorem halfPush1_scaled (k : Const) (dt : ℝ) (p : Ph) :
    halfPush1 k (l * dt) (p.scaled l) = (halfPush1 k dt p).scaled l := by
  unfold halfPush1 Ph.scaled
  ext <;> dsimp only <;> ring

theorem pushMomentum1_scaled (hl : l ≠ 0) (k : Const) (dt : ℝ) (f : EB ℝ) (p : Ph) :
    pushMomentum1 k (l * dt) (weaker l f) (p.scaled l) = (pushMomentum1 k dt f p).scaled l := by
  have h1 : ∀ e : ℝ, k.qmc * (l * dt) / 2 * (e / l) = k.qmc * dt / 2 * e := by
    intro e
    field_simp
  have h2 : ∀ g e : ℝ, k.qmc * (l * dt) / 2 * g * (e / l) = k.qmc * dt / 2 * g * e := by
    intro g e
    field_simp
  unfold pushMomentum1
  dsimp only [weaker, Ph.scaled]
  simp only [h1, h2]

theorem borisStep_scaled (hl : l ≠ 0) {fs fs' : List PField} (h : List.Forall₂ (ScaledField l) fs fs') (k : Const)
    (t dt : ℝ) (p : Ph) : borisStep k fs' (l * t) (l * dt) (p.scaled l) = (borisStep k fs t dt p).scaled l := by
  unfold borisStep
  dsimp only
  rw [halfPush1_scaled, show l * t + l * dt / 2 = l * (t + dt / 2) by ring, felt_scaled h, pushMomentum1_scaled hl,
    halfPush1_scaled]

theorem motion_scaled {fs fs' : List PField} (h : List.Forall₂ (ScaledField l) fs fs') (k : Const) (t : ℝ) (p : Ph) :
    motion k fs' (l * t) (p.scaled l) = (motion k fs t p).rate l := by
  unfold motion
  dsimp only
  rw [felt_scaled h]
  ext <;> simp only [Ph.rate, weaker, Ph.scaled, Ph.gamma] <;> ring

theorem shift_scaled (hl : l ≠ 0) (p d : Ph) (h : ℝ) : (p.scaled l).shift (l * h) (d.rate l) = (p.shift h d).scaled l := by
  unfold Ph.shift Ph.scaled Ph.rate
  ext <;> dsimp only <;> field_simp

theorem classicalRK4_scaled (hl : l ≠ 0) {fs fs' : List PField} (h : List.Forall₂ (ScaledField l) fs fs') (k : Const)
    (t dt : ℝ) (p : Ph) :
    classicalRK4 (motion k fs') (l * t) (l * dt) (p.scaled l) = (classicalRK4 (motion k fs) t dt p).scaled l := by
  unfold classicalRK4
  dsimp only
  rw [show l * t + l * dt / 2 = l * (t + dt / 2) by ring, show l * dt / 2 = l * (dt / 2) by ring,
    show l * t + l * dt = l * (t + dt) by ring, show l * dt / 6 = l * (dt / 6) by ring,
    show l * dt / 3 = l * (dt / 3) by ring]
  simp only [motion_scaled h, shift_scaled hl]

end WakeT.Push
