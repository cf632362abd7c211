import Verif.Laser.Subgrid

/-! # The envelope of a laser on different scales (part of C130) -/

set_option linter.unusedSectionVars false

namespace WakeT.Laser

open Complex (I)

/-- Parameters of solvers that differ in the units of length and time only. -/
structure EnvParams.Like (p p' : EnvParams) : Prop where
  dz : p'.dz = p.dz
  dr : p'.dr = p.dr
  dtn : p'.dtn = p.dtn
  ratio : p'.k0 / p'.kp = p.k0 / p.kp
  nz : p'.nz = p.nz
  nr : p'.nr = p.nr
  nt : p'.nt = p.nt
  usePhase : p'.usePhase = p.usePhase

theorem evolve_like {p p' : EnvParams} (h : p.Like p') (centered : Bool) (chi : ℕ → ℕ → ℝ) (s : GridC × GridC) :
    p'.evolve centered chi s = p.evolve centered chi s := by
  have h1 : p'.invDt = p.invDt := by unfold EnvParams.invDt; rw [h.dtn]
  have h2 : p'.invDr = p.invDr := by unfold EnvParams.invDr; rw [h.dr]
  have h3 : p'.invDz = p.invDz := by unfold EnvParams.invDz; rw [h.dz]
  have h4 : p'.invDzdt = p.invDzdt := by unfold EnvParams.invDzdt; rw [h1, h3]
  have h5 : p'.lMinus = p.lMinus := by funext k; unfold EnvParams.lMinus; rw [h2]
  have h6 : p'.lPlus = p.lPlus := by funext k; unfold EnvParams.lPlus; rw [h2]
  have h7 : p'.theta = p.theta := by funext ph j; unfold EnvParams.theta; rw [h.usePhase]
  have h8 : p'.bigD = p.bigD := by funext th; unfold EnvParams.bigD; rw [h3]
  have h9 : (p'.k0 / p'.kp : ℂ) = p.k0 / p.kp := by rw [← Complex.ofReal_div, h.ratio, Complex.ofReal_div]
  have h10 : p'.dLower = p.dLower := by funext k; unfold EnvParams.dLower; rw [h5]
  have h11 : p'.dUpper = p.dUpper := by funext k; unfold EnvParams.dUpper; rw [h6]
  have h12 : p'.cMinus = p.cMinus := by unfold EnvParams.cMinus; rw [h1, h2, h4, h9]
  have h13 : p'.cPlus = p.cPlus := by unfold EnvParams.cPlus; rw [h1, h2, h4, h9]
  have h14 : p'.cMinusN = p.cMinusN := by unfold EnvParams.cMinusN; rw [h1, h2, h4, h9]
  have h15 : p'.cPlusN = p.cPlusN := by unfold EnvParams.cPlusN; rw [h1, h2, h4, h9]
  have h16 : p'.row = p.row := by
    funext c chi ph j a aOld new1 new2
    unfold EnvParams.row
    dsimp only
    have e1 : ∀ th, p'.dMain chi th j = p.dMain chi th j := fun th => by
      funext k; unfold EnvParams.dMain; rw [h13, h1, h8]
    have e2 : ∀ th, p'.dMainN chi th j = p.dMainN chi th j := fun th => by
      funext k; unfold EnvParams.dMainN; rw [h15, h1, h8]
    have e3 : ∀ th, p'.rhs chi th a aOld new1 new2 j = p.rhs chi th a aOld new1 new2 j := fun th => by
      funext k; unfold EnvParams.rhs; rw [h12, h1, h8, h4, h5, h6, h.nr]
    have e4 : ∀ th, p'.rhsN chi th a new1 new2 j = p.rhsN chi th a new1 new2 j := fun th => by
      funext k; unfold EnvParams.rhsN; rw [h14, h1, h8, h4, h5, h6, h.nr]
    rw [h7, h10, h11, h.nr, e1, e2, e3, e4]
  have h17 : p'.step centered chi = p.step centered chi := by
    funext s
    unfold EnvParams.step
    rw [h16, h.nz]
  unfold EnvParams.evolve
  rw [h17, h.nt]

variable {l : ℝ}

/-- The same number of nodes on a box of `l` times the size. -/
def Mesh.larger (l : ℝ) (m : Mesh) : Mesh := ⟨l * m.zMin, l * m.zMax, l * m.rMax, m.nz, m.nr⟩

theorem larger_dr (m : Mesh) : (m.larger l).dr = l * m.dr := mul_div_assoc _ _ _

theorem larger_dz (m : Mesh) : (m.larger l).dz = l * m.dz := by
  unfold Mesh.dz Mesh.larger
  dsimp only
  rw [← mul_sub, mul_div_assoc]

theorem larger_zs (m : Mesh) (i : ℕ) : (m.larger l).zs i = l * m.zs i := by
  unfold Mesh.zs linspace Mesh.larger
  dsimp only
  ring

theorem larger_rs (m : Mesh) (j : ℕ) : (m.larger l).rs j = l * m.rs j := by
  unfold Mesh.rs
  rw [larger_dr]
  unfold linspace Mesh.larger
  dsimp only
  ring

theorem regridAll_larger (hl : l ≠ 0) {V : Type} [AddCommGroup V] [Module ℝ V] (src dst : Mesh) (f : ℕ → ℕ → V) :
    regridAll (src.larger l) (dst.larger l) f = regridAll src dst f := by
  have h : ∀ i j, regrid (src.larger l) (dst.larger l) f i j = regrid src dst f i j := by
    intro i j
    have h1 : ∀ x y d : ℝ, (l * x - l * y) / (l * d) = (x - y) / d := by
      intro x y d
      rw [← mul_sub, mul_div_mul_left _ _ hl]
    unfold regrid
    rw [larger_dr, larger_dz, larger_zs, larger_rs]
    unfold Interp.interpPoint
    have e1 : (l * dst.zs i - (src.larger l).zMin) / (l * src.dz) = (dst.zs i - src.zMin) / src.dz := h1 _ _ _
    have e2 : (l * dst.rs j - l * src.dr / 2) / (l * src.dr) = (dst.rs j - src.dr / 2) / src.dr := by
      rw [mul_div_assoc l src.dr 2]
      exact h1 _ _ _
    dsimp only
    rw [e1, e2]
    rfl
  unfold regridAll
  simp only [h]
  rfl

/-- Specification: the setup for a pulse of `l` times the wavelength on a grid of `l` times the
size. -/
noncomputable def Setup.larger (l : ℝ) (s : Setup) : Setup :=
  { s with k0 := s.k0 / l, xiMin := l * s.xiMin, xiMax := l * s.xiMax, rMax := l * s.rMax, dt := l * s.dt }

theorem larger_main (s : Setup) : (s.larger l).main = s.main.larger l := rfl

theorem larger_solver (s : Setup) : (s.larger l).solver = s.solver.larger l := by
  unfold Setup.solver
  have h : (s.larger l).useSub = s.useSub := rfl
  rw [h]
  split_ifs <;> rfl

theorem output_larger (hl : l ≠ 0) (s : Setup) (a : GridC) : (s.larger l).output a = s.output a := by
  unfold Setup.output
  have h : (s.larger l).useSub = s.useSub := rfl
  rw [h, larger_main, larger_solver, regridAll_larger hl]

theorem init_larger (hl : l ≠ 0) (s : Setup) {prof prof' : ℝ → ℝ → ℂ} (hp : ∀ xi r, prof' (l * xi) (l * r) = prof xi r) :
    (s.larger l).init prof' = s.init prof := by
  unfold Setup.init
  dsimp only
  simp only [output_larger hl, larger_solver, larger_zs, larger_rs, hp]
  rfl

theorem evolve_larger (hl : l ≠ 0) (s : Setup) (chi : ℕ → ℕ → ℝ) (kp : ℝ) (e : PulseArrays) :
    (s.larger l).evolve (chi, kp / l) e = s.evolve (chi, kp) e := by
  have hlike : (s.params kp).Like ((s.larger l).params (kp / l)) := by
    have hz : (s.larger l).solver = s.solver.larger l := larger_solver s
    refine ⟨?_, ?_, ?_, ?_, ?_, ?_, rfl, rfl⟩
    · show ((s.larger l).solver.zMax - (s.larger l).solver.zMin) * (kp / l) / ((s.larger l).solver.nz - 1) =
        (s.solver.zMax - s.solver.zMin) * kp / (s.solver.nz - 1)
      rw [hz]
      show (l * s.solver.zMax - l * s.solver.zMin) * (kp / l) / (s.solver.nz - 1) = _
      congr 1
      field_simp
    · show (s.larger l).solver.rMax * (kp / l) / (s.larger l).solver.nr = s.solver.rMax * kp / s.solver.nr
      rw [hz]
      show l * s.solver.rMax * (kp / l) / s.solver.nr = _
      congr 1
      field_simp
    · show l * s.dt / s.nt * s.c * (kp / l) = s.dt / s.nt * s.c * kp
      field_simp
    · exact div_div_div_cancel_right₀ hl s.k0 kp
    · show (s.larger l).solver.nz = s.solver.nz
      rw [hz]; rfl
    · show (s.larger l).solver.nr = s.solver.nr
      rw [hz]; rfl
  have hchi : (s.larger l).solverChi chi = s.solverChi chi := by
    unfold Setup.solverChi
    have h : (s.larger l).useSub = s.useSub := rfl
    rw [h, larger_main, larger_solver, regridAll_larger hl]
  unfold Setup.evolve
  dsimp only
  simp only [hchi, evolve_like hlike, output_larger hl]

end WakeT.Laser
