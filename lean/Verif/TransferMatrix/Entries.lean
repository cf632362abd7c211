import Verif.TransferMatrix.Lemmas

/-! # Entries of the second-order map -/

set_option linter.unusedSectionVars false
set_option linter.style.longLine false

namespace WakeT.TransferMatrix

theorem T_000 (q : Coef) : q.T 0 0 0 =
    (-1/6*q.khk*((q.sx * q.sx) + q.dx) - 1/2*q.h*q.kx2*(q.sx * q.sx)) := rfl

theorem T_001 (q : Coef) : q.T 0 0 1 =
    (-1/6*q.khk*q.sx*q.dx + 1/2*q.h*q.sx*q.cx) * 2 := rfl

theorem T_011 (q : Coef) : q.T 0 1 1 =
    (-1/6*q.khk*(q.dx * q.dx) + 1/2*q.h*q.dx*q.cx) := rfl

theorem T_005 (q : Coef) : q.T 0 0 5 =
    (-q.h/12/q.β*q.khk*(3*q.sx*q.J1 - (q.dx * q.dx)) + 1/2*(q.h * q.h)/q.β*(q.sx * q.sx) + 1/4/q.β*q.K1*q.L*q.sx) * 2 := rfl

theorem T_015 (q : Coef) : q.T 0 1 5 =
    (-q.h/12/q.β*q.khk*(q.sx*(q.dx * q.dx) - 2*q.cx*q.J2) + 1/4*(q.h * q.h)/q.β*(q.sx*q.dx + q.cx*q.J1) - 1/4/q.β*(q.sx + q.L*q.cx)) * 2 := rfl

theorem T_055 (q : Coef) : q.T 0 5 5 =
    (-(q.h * q.h)/6/(q.β * q.β)*q.khk*((q.dx * q.dx)*q.dx - 2*q.sx*q.J2) + 1/2*((q.h * q.h) * q.h)/(q.β * q.β)*q.sx*q.J1 - 1/2*q.h/(q.β * q.β)*q.L*q.sx - 1/2*q.h/(q.β * q.β)*q.ig*q.dx) := rfl

theorem T_022 (q : Coef) : q.T 0 2 2 =
    (q.K1*q.K2*q.Jd + 1/2*(q.K2 + q.h*q.K1)*q.dx) := rfl

theorem T_023 (q : Coef) : q.T 0 2 3 =
    (1/2*q.K2*q.Js) * 2 := rfl

theorem T_033 (q : Coef) : q.T 0 3 3 =
    (q.K2*q.Jd - 1/2*q.h*q.dx) := rfl

theorem T_100 (q : Coef) : q.T 1 0 0 =
    (-1/6*q.khk*q.sx*(1 + 2*q.cx)) := rfl

theorem T_101 (q : Coef) : q.T 1 0 1 =
    (-1/6*q.khk*q.dx*(1 + 2*q.cx)) * 2 := rfl

theorem T_111 (q : Coef) : q.T 1 1 1 =
    (-1/3*q.khk*q.sx*q.dx - 1/2*q.h*q.sx) := rfl

theorem T_105 (q : Coef) : q.T 1 0 5 =
    (-q.h/12/q.β*q.khk*(3*q.cx*q.J1 + q.sx*q.dx) - 1/4/q.β*q.K1*(q.sx - q.L*q.cx)) * 2 := rfl

theorem T_115 (q : Coef) : q.T 1 1 5 =
    (-q.h/12/q.β*q.khk*(3*q.sx*q.J1 + (q.dx * q.dx)) + 1/4/q.β*q.K1*q.L*q.sx) * 2 := rfl

theorem T_155 (q : Coef) : q.T 1 5 5 =
    (-(q.h * q.h)/6/(q.β * q.β)*q.khk*(q.sx*(q.dx * q.dx) - 2*q.cx*q.J2) - 1/2*q.h/(q.β * q.β)*q.K1*(q.cx*q.J1 - q.sx*q.dx) - 1/2*q.h/(q.β * q.β)*q.ig*q.sx) := rfl

theorem T_122 (q : Coef) : q.T 1 2 2 =
    (q.K1*q.K2*q.Js + 1/2*(q.K2 + q.h*q.K1)*q.sx) := rfl

theorem T_123 (q : Coef) : q.T 1 2 3 =
    (1/2*q.K2*q.Jc) * 2 := rfl

theorem T_133 (q : Coef) : q.T 1 3 3 =
    (q.K2*q.Js - 1/2*q.h*q.sx) := rfl

theorem T_202 (q : Coef) : q.T 2 0 2 =
    (1/2*q.K2*(q.cy*q.Jc - 2*q.K1*q.sy*q.Js) + 1/2*q.h*q.K1*q.sx*q.sy) * 2 := rfl

theorem T_203 (q : Coef) : q.T 2 0 3 =
    (1/2*q.K2*(q.sy*q.Jc - 2*q.cy*q.Js) + 1/2*q.h*q.sx*q.cy) * 2 := rfl

theorem T_212 (q : Coef) : q.T 2 1 2 =
    (1/2*q.K2*(q.cy*q.Js - 2*q.K1*q.sy*q.Jd) + 1/2*q.h*q.K1*q.dx*q.sy) * 2 := rfl

theorem T_213 (q : Coef) : q.T 2 1 3 =
    (1/2*q.K2*(q.sy*q.Js - 2*q.cy*q.Jd) + 1/2*q.h*q.dx*q.cy) * 2 := rfl

theorem T_225 (q : Coef) : q.T 2 2 5 =
    (1/2*q.h/q.β*q.K2*(q.cy*q.Jd - 2*q.K1*q.sy*q.Jf) + 1/2*(q.h * q.h)/q.β*q.K1*q.J1*q.sy - 1/4/q.β*q.K1*q.L*q.sy) * 2 := rfl

theorem T_235 (q : Coef) : q.T 2 3 5 =
    (1/2*q.h/q.β*q.K2*(q.sy*q.Jd - 2*q.cy*q.Jf) + 1/2*(q.h * q.h)/q.β*q.J1*q.cy - 1/4/q.β*(q.sy + q.L*q.cy)) * 2 := rfl

theorem T_302 (q : Coef) : q.T 3 0 2 =
    (1/2*q.K1*q.K2*(2*q.cy*q.Js - q.sy*q.Jc) + 1/2*(q.K2 + q.h*q.K1)*q.sx*q.cy) * 2 := rfl

theorem T_303 (q : Coef) : q.T 3 0 3 =
    (1/2*q.K2*(2*q.K1*q.sy*q.Js - q.cy*q.Jc) + 1/2*(q.K2 + q.h*q.K1)*q.sx*q.sy) * 2 := rfl

theorem T_312 (q : Coef) : q.T 3 1 2 =
    (1/2*q.K1*q.K2*(2*q.cy*q.Jd - q.sy*q.Js) + 1/2*(q.K2 + q.h*q.K1)*q.dx*q.cy) * 2 := rfl

theorem T_313 (q : Coef) : q.T 3 1 3 =
    (1/2*q.K2*(2*q.K1*q.sy*q.Jd - q.cy*q.Js) + 1/2*(q.K2 + q.h*q.K1)*q.dx*q.sy) * 2 := rfl

theorem T_325 (q : Coef) : q.T 3 2 5 =
    (1/2*q.h/q.β*q.K1*q.K2*(2*q.cy*q.Jf - q.sy*q.Jd) + 1/2*q.h/q.β*(q.K2 + q.h*q.K1)*q.J1*q.cy + 1/4/q.β*q.K1*(q.sy - q.L*q.cy)) * 2 := rfl

theorem T_335 (q : Coef) : q.T 3 3 5 =
    (1/2*q.h/q.β*q.K2*(2*q.K1*q.sy*q.Jf - q.cy*q.Jd) + 1/2*q.h/q.β*(q.K2 + q.h*q.K1)*q.J1*q.sy - 1/4/q.β*q.K1*q.L*q.sy) * 2 := rfl

theorem T_400 (q : Coef) : q.T 4 0 0 =
    -(q.h/12/q.β*q.khk*(q.sx*q.dx + 3*q.J1) - 1/4/q.β*q.K1*(q.L - q.sx*q.cx)) := rfl

theorem T_401 (q : Coef) : q.T 4 0 1 =
    -(q.h/12/q.β*q.khk*(q.dx * q.dx) + 1/4/q.β*q.K1*(q.sx * q.sx)) * 2 := rfl

theorem T_411 (q : Coef) : q.T 4 1 1 =
    -(q.h/6/q.β*q.khk*q.J2 - 1/2/q.β*q.sx - 1/4/q.β*q.K1*(q.J1 - q.sx*q.dx)) := rfl

theorem T_405 (q : Coef) : q.T 4 0 5 =
    -((q.h * q.h)/12/(q.β * q.β)*q.khk*(3*q.dx*q.J1 - 4*q.J2) + 1/4*q.h/(q.β * q.β)*q.K1*q.J1*(1 + q.cx) + 1/2*q.h/(q.β * q.β)*q.ig*q.sx) * 2 := rfl

theorem T_415 (q : Coef) : q.T 4 1 5 =
    -((q.h * q.h)/12/(q.β * q.β)*q.khk*(q.dx*(q.dx * q.dx) - 2*q.sx*q.J2) + 1/4*q.h/(q.β * q.β)*q.K1*q.sx*q.J1 + 1/2*q.h/(q.β * q.β)*q.ig*q.dx) * 2 := rfl

theorem T_455 (q : Coef) : q.T 4 5 5 =
    -(((q.h * q.h) * q.h)/6/((q.β * q.β) * q.β)*q.khk*(3*q.J3 - 2*q.dx*q.J2) + (q.h * q.h)/6/((q.β * q.β) * q.β)*q.K1*(q.sx*(q.dx * q.dx) - q.J2*(1 + 2*q.cx)) + 3/2/((q.β * q.β) * q.β)*q.ig*((q.h * q.h)*q.J1 - q.L)) := rfl

theorem T_422 (q : Coef) : q.T 4 2 2 =
    -(-q.h/q.β*q.K1*q.K2*q.Jf - 1/2*q.h/q.β*(q.K2 + q.h*q.K1)*q.J1 + 1/4/q.β*q.K1*(q.L - q.cy*q.sy)) := rfl

theorem T_423 (q : Coef) : q.T 4 2 3 =
    -(-1/2*q.h/q.β*q.K2*q.Jd - 1/4/q.β*q.K1*(q.sy * q.sy)) * 2 := rfl

theorem T_433 (q : Coef) : q.T 4 3 3 =
    -(-q.h/q.β*q.K2*q.Jf + 1/2*(q.h * q.h)/q.β*q.J1 - 1/4/q.β*(q.L + q.cy*q.sy)) := rfl

theorem T_row0 (q : Coef) (v : V6) :
    ∑ j, ∑ k, q.T 0 j k * v j * v k =
      q.T 0 0 0 * v 0 * v 0 + q.T 0 0 1 * v 0 * v 1 + q.T 0 0 5 * v 0 * v 5 + q.T 0 1 1 * v 1 * v 1 + q.T 0 1 5 * v 1 * v 5 + q.T 0 2 2 * v 2 * v 2 + q.T 0 2 3 * v 2 * v 3 + q.T 0 3 3 * v 3 * v 3 + q.T 0 5 5 * v 5 * v 5 := by
  have z : q.T 0 0 2 = 0 ∧ q.T 0 0 3 = 0 ∧ q.T 0 0 4 = 0 ∧ q.T 0 1 0 = 0 ∧ q.T 0 1 2 = 0 ∧ q.T 0 1 3 = 0 ∧ q.T 0 1 4 = 0 ∧ q.T 0 2 0 = 0 ∧ q.T 0 2 1 = 0 ∧ q.T 0 2 4 = 0 ∧ q.T 0 2 5 = 0 ∧ q.T 0 3 0 = 0 ∧ q.T 0 3 1 = 0 ∧ q.T 0 3 2 = 0 ∧ q.T 0 3 4 = 0 ∧ q.T 0 3 5 = 0 ∧ q.T 0 4 0 = 0 ∧ q.T 0 4 1 = 0 ∧ q.T 0 4 2 = 0 ∧ q.T 0 4 3 = 0 ∧ q.T 0 4 4 = 0 ∧ q.T 0 4 5 = 0 ∧ q.T 0 5 0 = 0 ∧ q.T 0 5 1 = 0 ∧ q.T 0 5 2 = 0 ∧ q.T 0 5 3 = 0 ∧ q.T 0 5 4 = 0 := by
    refine ⟨rfl, rfl, rfl, rfl, rfl, rfl, rfl, rfl, rfl, rfl, rfl, rfl, rfl, rfl, rfl, rfl, rfl, rfl, rfl, rfl, rfl, rfl, rfl, rfl, rfl, rfl, rfl⟩
  simp only [Fin.sum_univ_six, z, zero_mul, zero_add, add_zero]
  ring

theorem T_row1 (q : Coef) (v : V6) :
    ∑ j, ∑ k, q.T 1 j k * v j * v k =
      q.T 1 0 0 * v 0 * v 0 + q.T 1 0 1 * v 0 * v 1 + q.T 1 0 5 * v 0 * v 5 + q.T 1 1 1 * v 1 * v 1 + q.T 1 1 5 * v 1 * v 5 + q.T 1 2 2 * v 2 * v 2 + q.T 1 2 3 * v 2 * v 3 + q.T 1 3 3 * v 3 * v 3 + q.T 1 5 5 * v 5 * v 5 := by
  have z : q.T 1 0 2 = 0 ∧ q.T 1 0 3 = 0 ∧ q.T 1 0 4 = 0 ∧ q.T 1 1 0 = 0 ∧ q.T 1 1 2 = 0 ∧ q.T 1 1 3 = 0 ∧ q.T 1 1 4 = 0 ∧ q.T 1 2 0 = 0 ∧ q.T 1 2 1 = 0 ∧ q.T 1 2 4 = 0 ∧ q.T 1 2 5 = 0 ∧ q.T 1 3 0 = 0 ∧ q.T 1 3 1 = 0 ∧ q.T 1 3 2 = 0 ∧ q.T 1 3 4 = 0 ∧ q.T 1 3 5 = 0 ∧ q.T 1 4 0 = 0 ∧ q.T 1 4 1 = 0 ∧ q.T 1 4 2 = 0 ∧ q.T 1 4 3 = 0 ∧ q.T 1 4 4 = 0 ∧ q.T 1 4 5 = 0 ∧ q.T 1 5 0 = 0 ∧ q.T 1 5 1 = 0 ∧ q.T 1 5 2 = 0 ∧ q.T 1 5 3 = 0 ∧ q.T 1 5 4 = 0 := by
    refine ⟨rfl, rfl, rfl, rfl, rfl, rfl, rfl, rfl, rfl, rfl, rfl, rfl, rfl, rfl, rfl, rfl, rfl, rfl, rfl, rfl, rfl, rfl, rfl, rfl, rfl, rfl, rfl⟩
  simp only [Fin.sum_univ_six, z, zero_mul, zero_add, add_zero]
  ring

theorem T_row2 (q : Coef) (v : V6) :
    ∑ j, ∑ k, q.T 2 j k * v j * v k =
      q.T 2 0 2 * v 0 * v 2 + q.T 2 0 3 * v 0 * v 3 + q.T 2 1 2 * v 1 * v 2 + q.T 2 1 3 * v 1 * v 3 + q.T 2 2 5 * v 2 * v 5 + q.T 2 3 5 * v 3 * v 5 := by
  have z : q.T 2 0 0 = 0 ∧ q.T 2 0 1 = 0 ∧ q.T 2 0 4 = 0 ∧ q.T 2 0 5 = 0 ∧ q.T 2 1 0 = 0 ∧ q.T 2 1 1 = 0 ∧ q.T 2 1 4 = 0 ∧ q.T 2 1 5 = 0 ∧ q.T 2 2 0 = 0 ∧ q.T 2 2 1 = 0 ∧ q.T 2 2 2 = 0 ∧ q.T 2 2 3 = 0 ∧ q.T 2 2 4 = 0 ∧ q.T 2 3 0 = 0 ∧ q.T 2 3 1 = 0 ∧ q.T 2 3 2 = 0 ∧ q.T 2 3 3 = 0 ∧ q.T 2 3 4 = 0 ∧ q.T 2 4 0 = 0 ∧ q.T 2 4 1 = 0 ∧ q.T 2 4 2 = 0 ∧ q.T 2 4 3 = 0 ∧ q.T 2 4 4 = 0 ∧ q.T 2 4 5 = 0 ∧ q.T 2 5 0 = 0 ∧ q.T 2 5 1 = 0 ∧ q.T 2 5 2 = 0 ∧ q.T 2 5 3 = 0 ∧ q.T 2 5 4 = 0 ∧ q.T 2 5 5 = 0 := by
    refine ⟨rfl, rfl, rfl, rfl, rfl, rfl, rfl, rfl, rfl, rfl, rfl, rfl, rfl, rfl, rfl, rfl, rfl, rfl, rfl, rfl, rfl, rfl, rfl, rfl, rfl, rfl, rfl, rfl, rfl, rfl⟩
  simp only [Fin.sum_univ_six, z, zero_mul, zero_add, add_zero]
  ring

theorem T_row3 (q : Coef) (v : V6) :
    ∑ j, ∑ k, q.T 3 j k * v j * v k =
      q.T 3 0 2 * v 0 * v 2 + q.T 3 0 3 * v 0 * v 3 + q.T 3 1 2 * v 1 * v 2 + q.T 3 1 3 * v 1 * v 3 + q.T 3 2 5 * v 2 * v 5 + q.T 3 3 5 * v 3 * v 5 := by
  have z : q.T 3 0 0 = 0 ∧ q.T 3 0 1 = 0 ∧ q.T 3 0 4 = 0 ∧ q.T 3 0 5 = 0 ∧ q.T 3 1 0 = 0 ∧ q.T 3 1 1 = 0 ∧ q.T 3 1 4 = 0 ∧ q.T 3 1 5 = 0 ∧ q.T 3 2 0 = 0 ∧ q.T 3 2 1 = 0 ∧ q.T 3 2 2 = 0 ∧ q.T 3 2 3 = 0 ∧ q.T 3 2 4 = 0 ∧ q.T 3 3 0 = 0 ∧ q.T 3 3 1 = 0 ∧ q.T 3 3 2 = 0 ∧ q.T 3 3 3 = 0 ∧ q.T 3 3 4 = 0 ∧ q.T 3 4 0 = 0 ∧ q.T 3 4 1 = 0 ∧ q.T 3 4 2 = 0 ∧ q.T 3 4 3 = 0 ∧ q.T 3 4 4 = 0 ∧ q.T 3 4 5 = 0 ∧ q.T 3 5 0 = 0 ∧ q.T 3 5 1 = 0 ∧ q.T 3 5 2 = 0 ∧ q.T 3 5 3 = 0 ∧ q.T 3 5 4 = 0 ∧ q.T 3 5 5 = 0 := by
    refine ⟨rfl, rfl, rfl, rfl, rfl, rfl, rfl, rfl, rfl, rfl, rfl, rfl, rfl, rfl, rfl, rfl, rfl, rfl, rfl, rfl, rfl, rfl, rfl, rfl, rfl, rfl, rfl, rfl, rfl, rfl⟩
  simp only [Fin.sum_univ_six, z, zero_mul, zero_add, add_zero]
  ring

theorem T_row4 (q : Coef) (v : V6) :
    ∑ j, ∑ k, q.T 4 j k * v j * v k =
      q.T 4 0 0 * v 0 * v 0 + q.T 4 0 1 * v 0 * v 1 + q.T 4 0 5 * v 0 * v 5 + q.T 4 1 1 * v 1 * v 1 + q.T 4 1 5 * v 1 * v 5 + q.T 4 2 2 * v 2 * v 2 + q.T 4 2 3 * v 2 * v 3 + q.T 4 3 3 * v 3 * v 3 + q.T 4 5 5 * v 5 * v 5 := by
  have z : q.T 4 0 2 = 0 ∧ q.T 4 0 3 = 0 ∧ q.T 4 0 4 = 0 ∧ q.T 4 1 0 = 0 ∧ q.T 4 1 2 = 0 ∧ q.T 4 1 3 = 0 ∧ q.T 4 1 4 = 0 ∧ q.T 4 2 0 = 0 ∧ q.T 4 2 1 = 0 ∧ q.T 4 2 4 = 0 ∧ q.T 4 2 5 = 0 ∧ q.T 4 3 0 = 0 ∧ q.T 4 3 1 = 0 ∧ q.T 4 3 2 = 0 ∧ q.T 4 3 4 = 0 ∧ q.T 4 3 5 = 0 ∧ q.T 4 4 0 = 0 ∧ q.T 4 4 1 = 0 ∧ q.T 4 4 2 = 0 ∧ q.T 4 4 3 = 0 ∧ q.T 4 4 4 = 0 ∧ q.T 4 4 5 = 0 ∧ q.T 4 5 0 = 0 ∧ q.T 4 5 1 = 0 ∧ q.T 4 5 2 = 0 ∧ q.T 4 5 3 = 0 ∧ q.T 4 5 4 = 0 := by
    refine ⟨rfl, rfl, rfl, rfl, rfl, rfl, rfl, rfl, rfl, rfl, rfl, rfl, rfl, rfl, rfl, rfl, rfl, rfl, rfl, rfl, rfl, rfl, rfl, rfl, rfl, rfl, rfl⟩
  simp only [Fin.sum_univ_six, z, zero_mul, zero_add, add_zero]
  ring

theorem T_row5 (q : Coef) (v : V6) :
    ∑ j, ∑ k, q.T 5 j k * v j * v k =
      0 := by
  have z : q.T 5 0 0 = 0 ∧ q.T 5 0 1 = 0 ∧ q.T 5 0 2 = 0 ∧ q.T 5 0 3 = 0 ∧ q.T 5 0 4 = 0 ∧ q.T 5 0 5 = 0 ∧ q.T 5 1 0 = 0 ∧ q.T 5 1 1 = 0 ∧ q.T 5 1 2 = 0 ∧ q.T 5 1 3 = 0 ∧ q.T 5 1 4 = 0 ∧ q.T 5 1 5 = 0 ∧ q.T 5 2 0 = 0 ∧ q.T 5 2 1 = 0 ∧ q.T 5 2 2 = 0 ∧ q.T 5 2 3 = 0 ∧ q.T 5 2 4 = 0 ∧ q.T 5 2 5 = 0 ∧ q.T 5 3 0 = 0 ∧ q.T 5 3 1 = 0 ∧ q.T 5 3 2 = 0 ∧ q.T 5 3 3 = 0 ∧ q.T 5 3 4 = 0 ∧ q.T 5 3 5 = 0 ∧ q.T 5 4 0 = 0 ∧ q.T 5 4 1 = 0 ∧ q.T 5 4 2 = 0 ∧ q.T 5 4 3 = 0 ∧ q.T 5 4 4 = 0 ∧ q.T 5 4 5 = 0 ∧ q.T 5 5 0 = 0 ∧ q.T 5 5 1 = 0 ∧ q.T 5 5 2 = 0 ∧ q.T 5 5 3 = 0 ∧ q.T 5 5 4 = 0 ∧ q.T 5 5 5 = 0 := by
    refine ⟨rfl, rfl, rfl, rfl, rfl, rfl, rfl, rfl, rfl, rfl, rfl, rfl, rfl, rfl, rfl, rfl, rfl, rfl, rfl, rfl, rfl, rfl, rfl, rfl, rfl, rfl, rfl, rfl, rfl, rfl, rfl, rfl, rfl, rfl, rfl, rfl⟩
  simp only [Fin.sum_univ_six, z, zero_mul, zero_add, add_zero]

end WakeT.TransferMatrix
