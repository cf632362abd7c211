import Verif.Stage.Wake

/-! # Turned bunches in a plasma stage with a wakefield (C121) -/

set_option linter.unusedSectionVars false

namespace WakeT.Stage

open Bunch FieldElement Laser
open Plasma (QS)
open Plasma.QS (Fld)
open Push (PField Sched Turn)
open Fields (NumField)

/-- Specification: the wakefield is computed by one of the two models on a grid, with any
arguments. -/
def Wake.IsModel (w : Wake) : Prop :=
  (∃ a q, w.solve = w.quasiCalc a q) ∨ ∃ a b shape, w.solve = w.coldCalc a b shape

/-- The models see charges, radii and longitudinal positions of the particles. -/
theorem partsOf_image {s : Turn} {b b' : Bunch} (h : Image s b b') (k f : ℝ) : partsOf k f b' = partsOf k f b := by
  obtain ⟨h1, h2, -, -, h5, -, -⟩ := h
  unfold partsOf
  rw [h1]
  refine List.map_congr_left fun i hi => ?_
  have hi : i < b.n := List.mem_range.mp hi
  obtain ⟨g1, g2⟩ := h2 i hi
  have hsq := s.sq (b.ph i).x (b.ph i).y
  have hr : (s.fx (b.ph i).x (b.ph i).y / k) ^ 2 + (s.fy (b.ph i).x (b.ph i).y / k) ^ 2 =
      ((b.ph i).x / k) ^ 2 + ((b.ph i).y / k) ^ 2 := by
    rw [div_pow, div_pow, div_pow, div_pow, ← add_div, ← add_div, hsq]
  have hq : b'.q i = b.q i := by
    unfold Bunch.q
    rw [g2, h5]
  rw [g1, hq]
  show (⟨_, √((s.fx (b.ph i).x (b.ph i).y / k) ^ 2 + (s.fy (b.ph i).x (b.ph i).y / k) ^ 2), _⟩ : Deposition.Part ℝ) = _
  rw [hr]
  rfl

theorem parts_image {s : Turn} {l l' : List Bunch} (h : List.Forall₂ (Image s) l l') (k f : ℝ) :
    l'.map (partsOf k f) = l.map (partsOf k f) := by
  induction h with
  | nil => rfl
  | cons hb _ ih => rw [List.map_cons, List.map_cons, ih, partsOf_image hb]

theorem solve_image {w : Wake} (hw : w.IsModel) {s : Turn} {l l' : List Bunch} (h : List.Forall₂ (Image s) l l')
    (t np : ℝ) (env : Option (String × (ℕ → ℕ → ℂ))) (f : Fld) : w.solve t np env l' f = w.solve t np env l f := by
  rcases hw with ⟨a, q, hw⟩ | ⟨a, b, shape, hw⟩
  · rw [hw]
    unfold Wake.quasiCalc
    dsimp only
    rw [parts_image h]
  · rw [hw]
    unfold Wake.coldCalc
    dsimp only
    have hh : w.beamHist shape (a.skinDepth (np / 1e6)) np l' = w.beamHist shape (a.skinDepth (np / 1e6)) np l := by
      unfold Wake.beamHist
      dsimp only
      cases h with
      | nil => rfl
      | @cons b b' m m' hb hm =>
        dsimp only
        have hfold : ∀ (g : List (Deposition.Part ℝ) → (ℤ → ℤ → ℝ) → ℤ → ℤ → ℝ) (k f : ℝ) (m m' : List Bunch),
            List.Forall₂ (Image s) m m' → ∀ x, m'.foldl (fun h b => g (partsOf k f b) h) x =
              m.foldl (fun h b => g (partsOf k f b) h) x := by
          intro g k f m m' hm
          induction hm with
          | nil => intro x; rfl
          | cons hb _ ih =>
            intro x
            rw [List.foldl_cons, List.foldl_cons, ih, partsOf_image hb]
        congr 1
        funext sh i k
        rw [hfold _ _ _ _ _ (.cons hb hm)]
    rw [hh]

theorem minGamma_image {s : Turn} {b b' : Bunch} (h : Image s b b') : minGamma b' = minGamma b := by
  unfold minGamma
  rw [h.1]
  congr 2
  refine List.map_congr_left fun i hi => ?_
  rw [(h.2.1 i (List.mem_range.mp hi)).1]
  rfl

theorem stageDt_image {s : Turn} {b b' : Bunch} (h : Image s b b') (k : Const) (density : ℝ → ℝ) (length : ℝ) :
    stageDt k density length b' = stageDt k density length b := by
  unfold stageDt
  rw [minGamma_image h, h.2.2.2.2.1, h.2.2.2.2.2.1]

variable {F : Type} [LinearOrder F]

/-- A plasma stage with a wakefield looks the same after every turn that leaves its external
fields invariant. -/
theorem stage_invariant {p : PStage F} (hm : p.wake.IsModel) {s : Turn} (hext : ∀ f ∈ p.ext, s.Leaves f)
    (hdt : ∃ g : Dt → ℝ, ∀ b, p.autoDt b = g (stageDt p.wake.k p.wake.density p.length b))
    (hsch : ∀ n, (p.sch n).Valid n) : p.elem.Invariant s where
  felt := by
    intro φ f hf
    rcases List.mem_append.mp hf with hf | hf
    · cases hp : φ.prop with
      | none => rw [hp] at hf; cases hf
      | some x =>
        rw [hp] at hf
        rw [List.mem_singleton.mp hf]
        exact leaves_grid s _ _ _ _
    · exact hext f hf
  update := by
    intro l l' h φ j
    show (if j = 0 then φ.update (p.wake.ops φ.dt) l' else φ) = if j = 0 then φ.update (p.wake.ops φ.dt) l else φ
    have hc : ∀ t, p.wake.calculateProps t l' = p.wake.calculateProps t l := by
      intro t
      funext x
      unfold Wake.calculateProps
      dsimp only
      rw [solve_image hm h]
    unfold NumField.update Wake.ops
    simp only [hc]
  autoDt := by
    intro b b' h
    obtain ⟨g, hg⟩ := hdt
    show p.autoDt b' = p.autoDt b
    rw [hg, hg, stageDt_image h]
  sch := hsch

/-- **C121** for plasma stages. The bunches are tracked through a plasma stage with a wakefield
from the quasistatic or the cold fluid model, with or without a laser.  If all of them are rotated
about the axis by the same angle, or reflected in the same plane through the axis, then the
outputs are those of the original tracking, rotated or reflected, and the wakefield and the laser
at the end are the same. -/
theorem stage_turned {p : PStage F} (hm : p.wake.IsModel) {s : Turn} (hext : ∀ f ∈ p.ext, s.Leaves f)
    (hdt : ∃ g : Dt → ℝ, ∀ b, p.autoDt b = g (stageDt p.wake.k p.wake.density p.length b))
    (hsch : ∀ n, (p.sch n).Valid n) (opmd : Bool) (fuel : ℕ) {bs bs' : List Bunch}
    (hb : Inputs s bs bs') (b0 b0' : Bunch) {r : OneOrMany (List Bunch)} {w : World (NumField ℝ (Option Props))}
    (hr : p.track opmd fuel (.many bs) b0 = .returned (r, w)) :
    ∃ r' w', p.track opmd fuel (.many bs') b0' = .returned (r', w') ∧ ImageOut s r r' ∧ w'.flds = w.flds := by
  unfold PStage.track at hr ⊢
  cases hd : p.wake.dtUpdate p.length with
  | none => rw [hd] at hr; cases hr
  | some dt =>
    rw [hd] at hr
    exact track_turned (stage_invariant hm hext hdt hsch) opmd fuel hb b0 b0' _ hr

/-- Two bunches, rotated by any angle, in the stage of the instance. -/
example (sch : ℕ → Sched) (hsch : ∀ n, (sch n).Valid n) (θ : ℝ) (b1 b2 b1' b2' : Bunch)
    (h1 : Image (Turn.rotation θ) b1 b1') (h2 : Image (Turn.rotation θ) b2 b2')
    (hf : b1.Fits ∧ b2.Fits ∧ b1'.Fits ∧ b2'.Fits) : ∃ fuel r r' w w',
    (demoStage true sch).track false fuel (.many [b1, b2]) b1 = .returned (r, w) ∧
    (demoStage true sch).track false fuel (.many [b1', b2']) b1' = .returned (r', w') ∧
    ImageOut (Turn.rotation θ) r r' ∧ w'.flds = w.flds := by
  obtain ⟨fuel, ⟨r, w⟩, hr⟩ := demo_returns true sch (.many [b1, b2]) b1
  obtain ⟨r', w', g1, g2, g3⟩ := stage_turned (p := demoStage true sch) (Or.inl ⟨_, _, rfl⟩) (s := Turn.rotation θ)
    (fun f hf => by cases hf) ⟨fun | .finite d => 1 / 5 + d ^ 2 | _ => 1, fun b => rfl⟩ hsch false fuel
    (.cons ⟨h1, hf.1, hf.2.2.1⟩ (.cons ⟨h2, hf.2.1, hf.2.2.2⟩ .nil)) b1 b1' hr
  exact ⟨fuel, r, r', w, w', hr, g1, g2, g3⟩

end WakeT.Stage
