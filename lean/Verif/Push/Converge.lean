import Verif.Push.Cone
import Verif.Base.Tactics
import Mathlib.Analysis.Calculus.MeanValue
import Mathlib.Analysis.SpecialFunctions.Exp

/-! # The pushers approximate the solutions of the equations of motion (C135)

One step of each pusher differs from the exact motion by the square of the time step. -/

set_option linter.unusedSectionVars false

namespace WakeT.Push

open Fields (EB)

/-! ### Specification -/

/-- All coordinates of `p` and `q` differ by at most `ε`. -/
structure Near (ε : ℝ) (p q : Ph) : Prop where
  x : |p.x - q.x| ≤ ε
  y : |p.y - q.y| ≤ ε
  xi : |p.xi - q.xi| ≤ ε
  px : |p.px - q.px| ≤ ε
  py : |p.py - q.py| ≤ ε
  pz : |p.pz - q.pz| ≤ ε

/-- The six field values differ by at most `ε`. -/
structure NearEB (ε : ℝ) (f g : EB ℝ) : Prop where
  ex : |f.ex - g.ex| ≤ ε
  ey : |f.ey - g.ey| ≤ ε
  ez : |f.ez - g.ez| ≤ ε
  bx : |f.bx - g.bx| ≤ ε
  b_y : |f.b_y - g.b_y| ≤ ε
  bz : |f.bz - g.bz| ≤ ε

/-- Positions that can be reached from `p0` over a distance `R` (in the frame that moves with the
speed of light). -/
def InReach (p0 : Ph) (R : ℝ) (p : Ph) : Prop := |p.x - p0.x| ≤ R ∧ |p.y - p0.y| ≤ R ∧ |p.xi - p0.xi| ≤ 2 * R

/-- In the time `T` and in the reach of the particle the fields are bounded by `M` and change at
most by `L` per unit of length and time. -/
structure Smooth (fields : List PField) (T : ℝ) (p0 : Ph) (R M L : ℝ) : Prop where
  M0 : 0 ≤ M
  L0 : 0 ≤ L
  bounded : ∀ t p, 0 ≤ t → t ≤ T → InReach p0 R p → NearEB M (felt fields t p) ⟨0, 0, 0, 0, 0, 0⟩
  lipschitz : ∀ t s p q, 0 ≤ t → t ≤ T → 0 ≤ s → s ≤ T → InReach p0 R p → InReach p0 R q →
    NearEB (L * (|t - s| + |p.x - q.x| + |p.y - q.y| + |p.xi - q.xi|)) (felt fields t p) (felt fields s q)

/-- `z` is a solution of the equations of motion between the times 0 and `T`. -/
structure Trajectory (k : Const) (fields : List PField) (T : ℝ) (z : ℝ → Ph) : Prop where
  x : ∀ t ∈ Set.Icc 0 T, HasDerivWithinAt (fun t => (z t).x) (motion k fields t (z t)).x (Set.Icc 0 T) t
  y : ∀ t ∈ Set.Icc 0 T, HasDerivWithinAt (fun t => (z t).y) (motion k fields t (z t)).y (Set.Icc 0 T) t
  xi : ∀ t ∈ Set.Icc 0 T, HasDerivWithinAt (fun t => (z t).xi) (motion k fields t (z t)).xi (Set.Icc 0 T) t
  px : ∀ t ∈ Set.Icc 0 T, HasDerivWithinAt (fun t => (z t).px) (motion k fields t (z t)).px (Set.Icc 0 T) t
  py : ∀ t ∈ Set.Icc 0 T, HasDerivWithinAt (fun t => (z t).py) (motion k fields t (z t)).py (Set.Icc 0 T) t
  pz : ∀ t ∈ Set.Icc 0 T, HasDerivWithinAt (fun t => (z t).pz) (motion k fields t (z t)).pz (Set.Icc 0 T) t

/-! ### Distances -/

variable {ε δ : ℝ} {p q r : Ph}

theorem Near.mono (h : Near ε p q) (hd : ε ≤ δ) : Near δ p q :=
  ⟨h.x.trans hd, h.y.trans hd, h.xi.trans hd, h.px.trans hd, h.py.trans hd, h.pz.trans hd⟩

theorem NearEB.mono {f g : EB ℝ} (h : NearEB ε f g) (hd : ε ≤ δ) : NearEB δ f g :=
  ⟨h.ex.trans hd, h.ey.trans hd, h.ez.trans hd, h.bx.trans hd, h.b_y.trans hd, h.bz.trans hd⟩

theorem Near.trans (h : Near ε p q) (h' : Near δ q r) : Near (ε + δ) p r :=
  ⟨(abs_sub_le _ _ _).trans (add_le_add h.x h'.x), (abs_sub_le _ _ _).trans (add_le_add h.y h'.y),
    (abs_sub_le _ _ _).trans (add_le_add h.xi h'.xi), (abs_sub_le _ _ _).trans (add_le_add h.px h'.px),
    (abs_sub_le _ _ _).trans (add_le_add h.py h'.py), (abs_sub_le _ _ _).trans (add_le_add h.pz h'.pz)⟩

theorem Near.symm (h : Near ε p q) : Near ε q p :=
  ⟨abs_sub_comm p.x q.x ▸ h.x, abs_sub_comm p.y q.y ▸ h.y, abs_sub_comm p.xi q.xi ▸ h.xi, abs_sub_comm p.px q.px ▸ h.px,
    abs_sub_comm p.py q.py ▸ h.py, abs_sub_comm p.pz q.pz ▸ h.pz⟩

theorem Near.refl (hε : 0 ≤ ε) (p : Ph) : Near ε p p := by
  constructor <;> simpa using hε

theorem Near.nonneg (h : Near ε p q) : 0 ≤ ε := (abs_nonneg _).trans h.x

theorem abs_step {a b u v h e : ℝ} (hh : 0 ≤ h) (hab : |a - b| ≤ e) (huv : |u - v| ≤ δ) :
    |a + h * u - (b + h * v)| ≤ e + h * δ := by
  have : a + h * u - (b + h * v) = (a - b) + h * (u - v) := by ring
  rw [this]
  refine (abs_add_le _ _).trans (add_le_add hab ?_)
  rw [abs_mul, abs_of_nonneg hh]
  exact mul_le_mul_of_nonneg_left huv hh

theorem Near.shift {u v : Ph} {h : ℝ} (hh : 0 ≤ h) (hp : Near ε p q) (hu : Near δ u v) :
    Near (ε + h * δ) (p.shift h u) (q.shift h v) :=
  ⟨abs_step hh hp.x hu.x, abs_step hh hp.y hu.y, abs_step hh hp.xi hu.xi, abs_step hh hp.px hu.px,
    abs_step hh hp.py hu.py, abs_step hh hp.pz hu.pz⟩

/-- The origin of phase space. -/
def Ph.zero : Ph := ⟨0, 0, 0, 0, 0, 0⟩

theorem Near.moved {u : Ph} {h A : ℝ} (hh : 0 ≤ h) (hu : Near A u Ph.zero) : Near (h * A) (p.shift h u) p := by
  have h1 := Near.shift hh (Near.refl (le_refl (0 : ℝ)) p) hu
  have h2 : p.shift h Ph.zero = p := by
    unfold Ph.shift Ph.zero
    simp
  rwa [h2, zero_add] at h1

/-! ### The equations of motion -/

theorem gamma_one_le (p : Ph) : 1 ≤ p.gamma := by
  unfold Ph.gamma
  rw [Real.one_le_sqrt]
  nlinarith [sq_nonneg p.px, sq_nonneg p.py, sq_nonneg p.pz]

theorem gamma_sq (p : Ph) : p.gamma ^ 2 = 1 + p.px ^ 2 + p.py ^ 2 + p.pz ^ 2 :=
  Real.sq_sqrt (by positivity)

theorem abs_le_gamma (p : Ph) : |p.px| ≤ p.gamma ∧ |p.py| ≤ p.gamma ∧ |p.pz| ≤ p.gamma := by
  have h := gamma_sq p
  have h0 : 0 ≤ p.gamma := (gamma_pos p).le
  refine ⟨abs_le_of_sq_le_sq (by nlinarith [sq_nonneg p.py, sq_nonneg p.pz]) h0,
    abs_le_of_sq_le_sq (by nlinarith [sq_nonneg p.px, sq_nonneg p.pz]) h0,
    abs_le_of_sq_le_sq (by nlinarith [sq_nonneg p.px, sq_nonneg p.py]) h0⟩

/-- The Lorentz factor changes at most as the momenta do. -/
theorem gamma_near (hx : |p.px - q.px| ≤ ε) (hy : |p.py - q.py| ≤ ε) (hz : |p.pz - q.pz| ≤ ε) :
    |p.gamma - q.gamma| ≤ 3 * ε := by
  have e1 : (p.gamma - q.gamma) * (p.gamma + q.gamma) = (p.px - q.px) * (p.px + q.px) + (p.py - q.py) * (p.py + q.py) +
      (p.pz - q.pz) * (p.pz + q.pz) := by
    have h1 := gamma_sq p
    have h2 := gamma_sq q
    linear_combination h1 - h2
  have hS : 0 < p.gamma + q.gamma := add_pos (gamma_pos p) (gamma_pos q)
  have hε : 0 ≤ ε := (abs_nonneg _).trans hx
  have key : ∀ a b : ℝ, |a| ≤ p.gamma → |b| ≤ q.gamma → |a - b| ≤ ε → |(a - b) * (a + b)| ≤ ε * (p.gamma + q.gamma) := by
    intro a b ha hb hab
    rw [abs_mul]
    exact mul_le_mul hab ((abs_add_le _ _).trans (add_le_add ha hb)) (abs_nonneg _) hε
  have h3 : |p.gamma - q.gamma| * (p.gamma + q.gamma) ≤ 3 * ε * (p.gamma + q.gamma) := by
    rw [← abs_of_pos hS, ← abs_mul, e1, abs_of_pos hS]
    refine (abs_add_le _ _).trans ?_
    have h4 := abs_add_le ((p.px - q.px) * (p.px + q.px)) ((p.py - q.py) * (p.py + q.py))
    have h5 := key _ _ (abs_le_gamma p).1 (abs_le_gamma q).1 hx
    have h6 := key _ _ (abs_le_gamma p).2.1 (abs_le_gamma q).2.1 hy
    have h7 := key _ _ (abs_le_gamma p).2.2 (abs_le_gamma q).2.2 hz
    linarith
  exact le_of_mul_le_mul_right h3 hS

/-- Quotients such as velocities. -/
theorem quot_near {c a b g g' e : ℝ} (hc : 0 ≤ c) (hg : 1 ≤ g) (hg' : 1 ≤ g') (hb : |b| ≤ g') (hab : |a - b| ≤ e)
    (hgg : |g - g'| ≤ 3 * e) : |c * a / g - c * b / g'| ≤ 4 * c * e := by
  have h1 : 0 < g := by linarith
  have h2 : 0 < g' := by linarith
  have e0 : 0 ≤ e := (abs_nonneg _).trans hab
  have e1 : c * a / g - c * b / g' = c * ((a - b) / g) - c * ((b / g') * ((g - g') / g)) := by
    field_simp
    ring
  have h3 : |(a - b) / g| ≤ e := by
    rw [abs_div, abs_of_pos h1, div_le_iff₀ h1]
    nlinarith
  have h4 : |(b / g') * ((g - g') / g)| ≤ 3 * e := by
    rw [abs_mul, abs_div, abs_div, abs_of_pos h1, abs_of_pos h2]
    have h5 : |b| / g' ≤ 1 := by rwa [div_le_one h2]
    have h6 : |g - g'| / g ≤ 3 * e := by
      rw [div_le_iff₀ h1]
      nlinarith
    calc _ ≤ 1 * (3 * e) := mul_le_mul h5 h6 (div_nonneg (abs_nonneg _) h1.le) zero_le_one
      _ = _ := one_mul _
  rw [e1]
  refine (abs_sub _ _).trans ?_
  rw [abs_mul, abs_mul, abs_of_nonneg hc]
  nlinarith

theorem abs_velocity {c : ℝ} (hc : 0 ≤ c) (p : Ph) :
    |c * p.px / p.gamma| ≤ c ∧ |c * p.py / p.gamma| ≤ c ∧ |c * p.pz / p.gamma| ≤ c := by
  have hg := gamma_pos p
  have key : ∀ a : ℝ, |a| ≤ p.gamma → |c * a / p.gamma| ≤ c := by
    intro a ha
    rw [abs_div, abs_mul, abs_of_nonneg hc, abs_of_pos hg, div_le_iff₀ hg]
    exact mul_le_mul_of_nonneg_left ha hc
  exact ⟨key _ (abs_le_gamma p).1, key _ (abs_le_gamma p).2.1, key _ (abs_le_gamma p).2.2⟩

/-- A component of the Lorentz force. -/
theorem force_bound {κ c M e u v b d : ℝ} (he : |e| ≤ M) (hu : |u| ≤ c) (hv : |v| ≤ c)
    (hb : |b| ≤ M) (hd : |d| ≤ M) : |κ * (e + (u * b - v * d))| ≤ |κ| * (M + 2 * c * M) := by
  rw [abs_mul]
  refine mul_le_mul_of_nonneg_left ?_ (abs_nonneg _)
  have h1 : |u * b| ≤ c * M := by rw [abs_mul]; exact mul_le_mul hu hb (abs_nonneg _) ((abs_nonneg _).trans hu)
  have h2 : |v * d| ≤ c * M := by rw [abs_mul]; exact mul_le_mul hv hd (abs_nonneg _) ((abs_nonneg _).trans hv)
  have h3 := abs_add_le e (u * b - v * d)
  have h4 := abs_sub (u * b) (v * d)
  linarith

/-- Two components of the Lorentz force. -/
theorem force_near {κ c M e e' u u' v v' b b' d d' l w : ℝ} (he : |e - e'| ≤ l) (hu : |u - u'| ≤ w)
    (hv : |v - v'| ≤ w) (hb : |b - b'| ≤ l) (hd : |d - d'| ≤ l) (hu' : |u'| ≤ c) (hv' : |v'| ≤ c) (hbM : |b| ≤ M) (hdM : |d| ≤ M) :
    |κ * (e + (u * b - v * d)) - κ * (e' + (u' * b' - v' * d'))| ≤ |κ| * (l + 2 * (w * M + c * l)) := by
  rw [← mul_sub, abs_mul]
  refine mul_le_mul_of_nonneg_left ?_ (abs_nonneg _)
  have hc : 0 ≤ c := (abs_nonneg _).trans hu'
  have hw : 0 ≤ w := (abs_nonneg _).trans hu
  have key : ∀ u u' b b' : ℝ, |u - u'| ≤ w → |b - b'| ≤ l → |u'| ≤ c → |b| ≤ M → |u * b - u' * b'| ≤ w * M + c * l := by
    intro u u' b b' h1 h2 h3 h4
    have : u * b - u' * b' = (u - u') * b + u' * (b - b') := by ring
    rw [this]
    refine (abs_add_le _ _).trans ?_
    rw [abs_mul, abs_mul]
    exact add_le_add (mul_le_mul h1 h4 (abs_nonneg _) hw) (mul_le_mul h3 h2 (abs_nonneg _) hc)
  have h1 := key u u' b b' hu hb hu' hbM
  have h2 := key v v' d d' hv hd hv' hdM
  have h3 : e + (u * b - v * d) - (e' + (u' * b' - v' * d')) = (e - e') + ((u * b - u' * b') - (v * d - v' * d')) := by ring
  rw [h3]
  have h4 := abs_add_le (e - e') ((u * b - u' * b') - (v * d - v' * d'))
  have h5 := abs_sub (u * b - u' * b') (v * d - v' * d')
  linarith

/-- A bound for all components of the motion. -/
noncomputable def rateBound (k : Const) (M : ℝ) : ℝ := 2 * k.c + |k.q / (k.m * k.c)| * (M + 2 * k.c * M)

/-- A Lipschitz constant of the motion. -/
noncomputable def rateLip (k : Const) (M L : ℝ) : ℝ :=
  4 * k.c + |k.q / (k.m * k.c)| * (3 * L + 8 * k.c * M + 6 * k.c * L)

section
variable {k : Const} {fields : List PField} {T R M L : ℝ} {p0 : Ph}

theorem rateBound_nonneg (hc : 0 < k.c) (hM : 0 ≤ M) : 0 ≤ rateBound k M := by
  unfold rateBound
  positivity

theorem rateLip_nonneg (hc : 0 < k.c) (hM : 0 ≤ M) (hL : 0 ≤ L) : 0 ≤ rateLip k M L := by
  unfold rateLip
  positivity

theorem motion_bound (hc : 0 < k.c) (hs : Smooth fields T p0 R M L) {t : ℝ} (ht : 0 ≤ t) (htT : t ≤ T) (hp : InReach p0 R p) :
    Near (rateBound k M) (motion k fields t p) Ph.zero := by
  have hf := hs.bounded t p ht htT hp
  have hM := hs.M0
  obtain ⟨h1, h2, h3⟩ := abs_velocity hc.le p
  have hκ : 0 ≤ |k.q / (k.m * k.c)| * (M + 2 * k.c * M) := by positivity
  have hF : |k.q / (k.m * k.c)| * (M + 2 * k.c * M) ≤ rateBound k M := by unfold rateBound; linarith
  have hV : 2 * k.c ≤ rateBound k M := by unfold rateBound; linarith
  obtain ⟨f1, f2, f3, f4, f5, f6⟩ := hf
  simp only [sub_zero] at f1 f2 f3 f4 f5 f6
  unfold motion Ph.zero
  dsimp only
  constructor <;> dsimp only <;> rw [sub_zero]
  · linarith
  · linarith
  · refine (abs_sub _ _).trans ?_
    rw [abs_of_pos hc]
    linarith
  · exact (force_bound f1 h2 h3 f6 f5).trans hF
  · exact (force_bound f2 h3 h1 f4 f6).trans hF
  · exact (force_bound f3 h1 h2 f5 f4).trans hF

theorem motion_near (hc : 0 < k.c) (hs : Smooth fields T p0 R M L) {t s τ : ℝ} (ht : 0 ≤ t) (htT : t ≤ T) (hs0 : 0 ≤ s)
    (hsT : s ≤ T) (hτ : |t - s| ≤ τ) (hp : InReach p0 R p) (hq : InReach p0 R q) (h : Near ε p q) :
    Near (rateLip k M L * (τ + ε)) (motion k fields t p) (motion k fields s q) := by
  have hM := hs.M0
  have hL := hs.L0
  have hε := h.nonneg
  have hτ0 : 0 ≤ τ := (abs_nonneg _).trans hτ
  have hb := hs.bounded t p ht htT hp
  have hl := (hs.lipschitz t s p q ht htT hs0 hsT hp hq).mono (δ := 3 * L * (τ + ε)) (by
    have h1 := h.x
    have h2 := h.y
    have h3 := h.xi
    have h4 : |t - s| + |p.x - q.x| + |p.y - q.y| + |p.xi - q.xi| ≤ 3 * (τ + ε) := by linarith
    calc _ ≤ L * (3 * (τ + ε)) := mul_le_mul_of_nonneg_left h4 hL
      _ = _ := by ring)
  have hg := gamma_near h.px h.py h.pz
  have v1 := quot_near hc.le (gamma_one_le p) (gamma_one_le q) (abs_le_gamma q).1 h.px hg
  have v2 := quot_near hc.le (gamma_one_le p) (gamma_one_le q) (abs_le_gamma q).2.1 h.py hg
  have v3 := quot_near hc.le (gamma_one_le p) (gamma_one_le q) (abs_le_gamma q).2.2 h.pz hg
  obtain ⟨w1, w2, w3⟩ := abs_velocity hc.le q
  obtain ⟨f1, f2, f3, f4, f5, f6⟩ := hb
  simp only [sub_zero] at f1 f2 f3 f4 f5 f6
  have hκ := abs_nonneg (k.q / (k.m * k.c))
  have hV : 4 * k.c * ε ≤ rateLip k M L * (τ + ε) := by
    unfold rateLip
    have : 0 ≤ |k.q / (k.m * k.c)| * (3 * L + 8 * k.c * M + 6 * k.c * L) * (τ + ε) := by positivity
    have h2 : 0 ≤ 4 * k.c * τ := by positivity
    linarith
  have hF : |k.q / (k.m * k.c)| * (3 * L * (τ + ε) + 2 * (4 * k.c * ε * M + k.c * (3 * L * (τ + ε)))) ≤ rateLip k M L * (τ + ε) := by
    unfold rateLip
    have h1 : 3 * L * (τ + ε) + 2 * (4 * k.c * ε * M + k.c * (3 * L * (τ + ε))) ≤ (3 * L + 8 * k.c * M + 6 * k.c * L) * (τ + ε) := by
      have : 0 ≤ 8 * k.c * M * τ := by positivity
      linarith
    have h2 := mul_le_mul_of_nonneg_left h1 hκ
    have h3 : 0 ≤ 4 * k.c * (τ + ε) := by positivity
    linarith
  unfold motion
  dsimp only
  constructor <;> dsimp only
  · exact v1.trans hV
  · exact v2.trans hV
  · rw [sub_sub_sub_cancel_right]
    exact v3.trans hV
  · exact (force_near hl.ex v2 v3 hl.bz hl.b_y w2 w3 f6 f5).trans hF
  · exact (force_near hl.ey v3 v1 hl.bx hl.bz w3 w1 f4 f6).trans hF
  · exact (force_near hl.ez v1 v2 hl.b_y hl.bx w1 w2 f5 f4).trans hF

/-! ### One step -/

theorem Slow.inReach (hc : 0 < k.c) {t T : ℝ} (htT : t ≤ T) (h : Slow k.c t p0 p) : InReach p0 (k.c * T) p := by
  have h0 := (h.xi hc).1
  have hT : k.c * t ≤ k.c * T := mul_le_mul_of_nonneg_left htT hc.le
  have hct : 0 ≤ k.c * t := by positivity
  have h1 : (p.x - p0.x) ^ 2 ≤ (k.c * t) ^ 2 ∧ (p.y - p0.y) ^ 2 ≤ (k.c * t) ^ 2 := by
    rcases h with ⟨rfl, h1, h2, -⟩ | ⟨-, h2⟩
    · rw [h1, h2]
      simp
    · constructor <;> nlinarith [sq_nonneg (p.x - p0.x), sq_nonneg (p.y - p0.y), sq_nonneg (p.xi - p0.xi + k.c * t)]
  refine ⟨(abs_le_of_sq_le_sq h1.1 hct).trans hT, (abs_le_of_sq_le_sq h1.2 hct).trans hT, ?_⟩
  obtain ⟨-, h2, h3⟩ := h.xi hc
  rw [abs_le]
  constructor <;> linarith

/-- A step from the time `t` to `t + dt`, with the error `C dt²`. -/
def Consistent (k : Const) (fields : List PField) (T : ℝ) (p0 : Ph) (C : ℝ) (step : ℝ → ℝ → Ph → Ph) : Prop :=
  ∀ t dt p, 0 ≤ t → 0 ≤ dt → t + dt ≤ T → Slow k.c t p0 p →
    Near (C * dt ^ 2) (step t dt p) (p.shift dt (motion k fields t p))

theorem rk4_consistent (hc : 0 < k.c) (hs : Smooth fields T p0 (k.c * T) M L) :
    Consistent k fields T p0 (rateLip k M L * (1 + rateBound k M)) (classicalRK4 (motion k fields)) := by
  intro t dt p ht hdt htT hp
  have hM := hs.M0
  have hL := hs.L0
  have hA := rateBound_nonneg (M := M) hc hM
  have hΛ := rateLip_nonneg (M := M) (L := L) hc hM hL
  have hdt2 : 0 ≤ dt / 2 := by linarith
  have r0 : InReach p0 (k.c * T) p := Slow.inReach hc (by linarith) hp
  -- a stage of the method, at a time `t + h`, after a step `h` with a known rate
  have stage : ∀ s q, 0 ≤ s → s ≤ T → InReach p0 (k.c * T) q → ∀ h, 0 ≤ h → h ≤ dt →
      InReach p0 (k.c * T) (p.shift h (motion k fields s q)) ∧
      Near (rateLip k M L * (1 + rateBound k M) * dt) (motion k fields (t + h) (p.shift h (motion k fields s q)))
        (motion k fields t p) := by
    intro s q hs0 hsT hq h hh hhd
    have h1 : InReach p0 (k.c * T) (p.shift h (motion k fields s q)) :=
      Slow.inReach hc (show t + h ≤ T by linarith) (hp.trans hc (slow_shift hc fields s p q hh))
    refine ⟨h1, ?_⟩
    have h2 : Near (h * rateBound k M) (p.shift h (motion k fields s q)) p := Near.moved hh (motion_bound hc hs hs0 hsT hq)
    have h3 := motion_near hc hs (t := t + h) (s := t) (τ := dt) (by linarith) (by linarith) ht (by linarith)
      (by rw [add_sub_cancel_left, abs_of_nonneg hh]; exact hhd) h1 r0
      (h2.mono (mul_le_mul_of_nonneg_right hhd hA))
    exact h3.mono (le_of_eq (by ring))
  obtain ⟨r2, n2⟩ := stage t p ht (by linarith) r0 (dt / 2) hdt2 (by linarith)
  obtain ⟨r3, n3⟩ := stage (t + dt / 2) _ (by linarith) (by linarith) r2 (dt / 2) hdt2 (by linarith)
  obtain ⟨r4, n4⟩ := stage (t + dt / 2) _ (by linarith) (by linarith) r3 dt hdt le_rfl
  unfold classicalRK4
  dsimp only
  have e : p.shift dt (motion k fields t p) =
      (((p.shift (dt / 6) (motion k fields t p)).shift (dt / 3) (motion k fields t p)).shift (dt / 3)
        (motion k fields t p)).shift (dt / 6) (motion k fields t p) := by
    unfold Ph.shift
    ext <;> dsimp only <;> ring
  rw [e]
  have z0 : Near 0 (p.shift (dt / 6) (motion k fields t p)) (p.shift (dt / 6) (motion k fields t p)) := Near.refl le_rfl _
  refine ((((z0.shift (by linarith) n2).shift (by linarith) n3).shift (by linarith) n4)).mono ?_
  have : 0 ≤ rateLip k M L * (1 + rateBound k M) * dt * dt := by positivity
  nlinarith

theorem drift_near (hc : 0 < k.c) {h : ℝ} (hh : 0 ≤ h) (p : Ph) : Near (h * (2 * k.c)) (p.drift k h) p := by
  obtain ⟨h1, h2, h3⟩ := abs_velocity hc.le p
  have h0 : 0 ≤ h * (2 * k.c) := by positivity
  unfold Ph.drift
  constructor <;> dsimp only
  · rw [add_sub_cancel_left, abs_mul, abs_of_nonneg hh]
    exact mul_le_mul_of_nonneg_left (by linarith) hh
  · rw [add_sub_cancel_left, abs_mul, abs_of_nonneg hh]
    exact mul_le_mul_of_nonneg_left (by linarith) hh
  · rw [add_sub_cancel_left, abs_mul, abs_of_nonneg hh]
    refine mul_le_mul_of_nonneg_left ((abs_sub _ _).trans ?_) hh
    rw [abs_of_pos hc]
    linarith
  all_goals rw [sub_self, abs_zero]; exact h0

/-- The mean velocity of the centred equation of motion is at most that of light. -/
theorem centred_velocity {c a g ux uy uz bx b_y bz mx my mz sx sy sz : ℝ} (hg : 0 < g)
    (hm : mx ^ 2 + my ^ 2 + mz ^ 2 ≤ g ^ 2) (hx : ux = c * sx / (2 * g)) (hy : uy = c * sy / (2 * g)) (hz : uz = c * sz / (2 * g))
    (h1 : sx = 2 * mx + a * (uy * bz - uz * b_y)) (h2 : sy = 2 * my + a * (uz * bx - ux * bz))
    (h3 : sz = 2 * mz + a * (ux * b_y - uy * bx)) : ux ^ 2 + uy ^ 2 + uz ^ 2 ≤ c ^ 2 := by
  have e1 : 2 * g * ux = c * sx := by rw [hx]; field_simp
  have e2 : 2 * g * uy = c * sy := by rw [hy]; field_simp
  have e3 : 2 * g * uz = c * sz := by rw [hz]; field_simp
  have e4 : g * (ux ^ 2 + uy ^ 2 + uz ^ 2) = c * (ux * mx + uy * my + uz * mz) := by
    linear_combination (ux * e1 + uy * e2 + uz * e3) / 2 + c / 2 * (ux * h1 + uy * h2 + uz * h3)
  have e5 : (ux * mx + uy * my + uz * mz) ^ 2 ≤ (ux ^ 2 + uy ^ 2 + uz ^ 2) * (mx ^ 2 + my ^ 2 + mz ^ 2) := by
    nlinarith [sq_nonneg (ux * my - uy * mx), sq_nonneg (ux * mz - uz * mx), sq_nonneg (uy * mz - uz * my)]
  generalize hS : ux ^ 2 + uy ^ 2 + uz ^ 2 = S at *
  have hS0 : 0 ≤ S := by rw [← hS]; positivity
  by_contra hlt
  push Not at hlt
  have hSpos : 0 < S := lt_of_le_of_lt (sq_nonneg c) hlt
  have e6 : (g * S) ^ 2 ≤ c ^ 2 * (S * g ^ 2) := by
    rw [e4, mul_pow]
    exact mul_le_mul_of_nonneg_left (e5.trans (mul_le_mul_of_nonneg_left hm hS0)) (sq_nonneg c)
  have e7 : 0 < g ^ 2 * S := by positivity
  nlinarith

set_option maxHeartbeats 1000000 in
theorem boris_consistent (hc : 0 < k.c) (hs : Smooth fields T p0 (k.c * T) M L) :
    Consistent k fields T p0 (rateLip k M L * (1 + rateBound k M)) (borisStep k fields) := by
  intro t dt p ht hdt htT hp
  have hM := hs.M0
  have hL := hs.L0
  have hA := rateBound_nonneg (M := M) hc hM
  have hΛ := rateLip_nonneg (M := M) (L := L) hc hM hL
  have hdt2 : 0 ≤ dt / 2 := by linarith
  have r0 : InReach p0 (k.c * T) p := Slow.inReach hc (by linarith) hp
  have hκ := abs_nonneg (k.q / (k.m * k.c))
  have hF : |k.q / (k.m * k.c)| * (M + 2 * k.c * M) ≤ rateBound k M := by unfold rateBound; linarith
  have hV : 2 * k.c ≤ rateBound k M := by
    unfold rateBound
    have : 0 ≤ |k.q / (k.m * k.c)| * (M + 2 * k.c * M) := by positivity
    linarith
  -- the parts of the step
  have sch : Sched.Valid (fun _ _ => List.range 1) 1 := fun _ _ => List.Perm.refl _
  obtain ⟨p', ⟨e1, e2, e3⟩, hcen, e4⟩ := boris_centred k fields sch t dt (fun _ => p) (fun _ => ⟨0, 0, 0, 0, 0, 0⟩) 0 Nat.one_pos
  rw [boris_apply k fields sch, if_pos Nat.one_pos] at e4
  rw [e4]
  have n1 : Near (dt / 2 * (2 * k.c)) (p.drift k (dt / 2)) p := drift_near hc hdt2 p
  have r1 : InReach p0 (k.c * T) (p.drift k (dt / 2)) := by
    refine Slow.inReach hc (show t + dt / 2 ≤ T by linarith) (hp.trans hc ?_)
    rw [slow_iff]
    convert within_velocity hc p hdt2 using 1 <;> simp only [Ph.drift] <;> ring
  have n1' : Near (rateBound k M * dt) (p.drift k (dt / 2)) p := n1.mono (by
    have h1 := mul_le_mul_of_nonneg_left hV hdt
    have h2 : 0 ≤ dt * k.c := mul_nonneg hdt hc.le
    linarith)
  have hf := hs.bounded (t + dt / 2) _ (by linarith) (by linarith) r1
  have hl := (hs.lipschitz (t + dt / 2) t _ p (by linarith) (by linarith) ht (by linarith) r1 r0).mono
    (δ := 3 * L * ((1 + rateBound k M) * dt)) (by
    have h1 := n1'.x
    have h2 := n1'.y
    have h3 := n1'.xi
    have h4 : |t + dt / 2 - t| = dt / 2 := by rw [add_sub_cancel_left, abs_of_nonneg hdt2]
    have h5 : 0 ≤ rateBound k M * dt := by positivity
    rw [h4]
    calc _ ≤ L * (3 * ((1 + rateBound k M) * dt)) := mul_le_mul_of_nonneg_left (by linarith) hL
      _ = _ := by ring)
  generalize felt fields (t + dt / 2) (p.drift k (dt / 2)) = f at *
  have m1 : (p.drift k (dt / 2)).px = p.px := rfl
  have m2 : (p.drift k (dt / 2)).py = p.py := rfl
  have m3 : (p.drift k (dt / 2)).pz = p.pz := rfl
  unfold Centred at hcen
  dsimp only at hcen
  rw [m1, m2, m3] at hcen
  have ha : k.q * dt / (k.m * k.c) = dt * (k.q / (k.m * k.c)) := by ring
  rw [ha] at hcen
  obtain ⟨f1, f2, f3, f4, f5, f6⟩ := hf
  simp only [sub_zero] at f1 f2 f3 f4 f5 f6
  -- the momentum after half of the electric push
  have kick : ∀ e : ℝ, |e| ≤ M → |dt * (k.q / (k.m * k.c)) / 2 * e| ≤ rateBound k M * dt := by
    intro e he
    have h1 : |k.q / (k.m * k.c)| * |e| ≤ rateBound k M :=
      (mul_le_mul_of_nonneg_left (he.trans (le_add_of_nonneg_right (by positivity) : M ≤ M + 2 * k.c * M)) hκ).trans hF
    have h2 : |dt * (k.q / (k.m * k.c)) / 2 * e| = dt / 2 * (|k.q / (k.m * k.c)| * |e|) := by
      rw [abs_mul, abs_div, abs_mul, abs_of_nonneg hdt, abs_two]
      ring
    rw [h2]
    have h3 := mul_le_mul_of_nonneg_left h1 hdt2
    have h4 : 0 ≤ rateBound k M * dt := by positivity
    linarith
  generalize hmid : (⟨p.x, p.y, p.xi, p.px + dt * (k.q / (k.m * k.c)) / 2 * f.ex, p.py + dt * (k.q / (k.m * k.c)) / 2 * f.ey,
      p.pz + dt * (k.q / (k.m * k.c)) / 2 * f.ez⟩ : Ph) = mid at *
  have mx : mid.px = p.px + dt * (k.q / (k.m * k.c)) / 2 * f.ex := by rw [← hmid]
  have my : mid.py = p.py + dt * (k.q / (k.m * k.c)) / 2 * f.ey := by rw [← hmid]
  have mz : mid.pz = p.pz + dt * (k.q / (k.m * k.c)) / 2 * f.ez := by rw [← hmid]
  rw [← mx, ← my, ← mz] at hcen
  have hgm : √(1 + mid.px ^ 2 + mid.py ^ 2 + mid.pz ^ 2) = mid.gamma := rfl
  rw [hgm] at hcen
  have hgg : |mid.gamma - p.gamma| ≤ 3 * (rateBound k M * dt) :=
    gamma_near (by rw [mx, add_sub_cancel_left]; exact kick _ f1) (by rw [my, add_sub_cancel_left]; exact kick _ f2)
      (by rw [mz, add_sub_cancel_left]; exact kick _ f3)
  generalize hux : k.c * (p.px + p'.px) / (2 * mid.gamma) = ux at hcen
  generalize huy : k.c * (p.py + p'.py) / (2 * mid.gamma) = uy at hcen
  generalize huz : k.c * (p.pz + p'.pz) / (2 * mid.gamma) = uz at hcen
  obtain ⟨c1, c2, c3⟩ := hcen
  have hu : ux ^ 2 + uy ^ 2 + uz ^ 2 ≤ k.c ^ 2 := by
    refine centred_velocity (gamma_pos mid) (mx := mid.px) (my := mid.py) (mz := mid.pz)
      (by have := gamma_sq mid; linarith) hux.symm huy.symm huz.symm (a := dt * (k.q / (k.m * k.c)))
      (bx := f.bx) (b_y := f.b_y) (bz := f.bz) ?_ ?_ ?_
    · rw [mx]; linear_combination c1
    · rw [my]; linear_combination c2
    · rw [mz]; linear_combination c3
  have hux' : |ux| ≤ k.c := abs_le_of_sq_le_sq (by linarith [sq_nonneg uy, sq_nonneg uz]) hc.le
  have huy' : |uy| ≤ k.c := abs_le_of_sq_le_sq (by linarith [sq_nonneg ux, sq_nonneg uz]) hc.le
  have huz' : |uz| ≤ k.c := abs_le_of_sq_le_sq (by linarith [sq_nonneg uy, sq_nonneg ux]) hc.le
  -- the change of the momenta
  have push : ∀ a b F : ℝ, b - a = dt * (k.q / (k.m * k.c)) * F → |k.q / (k.m * k.c) * F| ≤ rateBound k M →
      |b - a| ≤ rateBound k M * dt := by
    intro a b F h1 h2
    rw [h1, mul_assoc, abs_mul, abs_of_nonneg hdt, mul_comm]
    exact mul_le_mul_of_nonneg_right h2 hdt
  have d1 := push _ _ _ c1 ((force_bound f1 huy' huz' f6 f5).trans hF)
  have d2 := push _ _ _ c2 ((force_bound f2 huz' hux' f4 f6).trans hF)
  have d3 := push _ _ _ c3 ((force_bound f3 hux' huy' f5 f4).trans hF)
  -- the velocities
  have half : ∀ a b u : ℝ, k.c * (a + b) / (2 * mid.gamma) = u → |b - a| ≤ rateBound k M * dt → |a| ≤ p.gamma →
      |u - k.c * a / p.gamma| ≤ 4 * k.c * (rateBound k M * dt) := by
    intro a b u h1 h2 h3
    have h4 : u = k.c * ((a + b) / 2) / mid.gamma := by
      rw [← h1]
      have := (gamma_pos mid).ne'
      field_simp
    rw [h4]
    refine quot_near hc.le (gamma_one_le mid) (gamma_one_le p) h3 ?_ hgg
    have h5 : (a + b) / 2 - a = (b - a) / 2 := by ring
    rw [h5, abs_div, abs_two]
    linarith [abs_nonneg (b - a)]
  have v1 := half _ _ _ hux d1 (abs_le_gamma p).1
  have v2 := half _ _ _ huy d2 (abs_le_gamma p).2.1
  have v3 := half _ _ _ huz d3 (abs_le_gamma p).2.2
  obtain ⟨w1, w2, w3⟩ := abs_velocity hc.le p
  have hG : |k.q / (k.m * k.c)| * (3 * L * ((1 + rateBound k M) * dt) + 2 * (4 * k.c * (rateBound k M * dt) * M +
      k.c * (3 * L * ((1 + rateBound k M) * dt)))) ≤ rateLip k M L * (1 + rateBound k M) * dt := by
    have h1 : 3 * L * ((1 + rateBound k M) * dt) + 2 * (4 * k.c * (rateBound k M * dt) * M +
        k.c * (3 * L * ((1 + rateBound k M) * dt))) ≤ (3 * L + 8 * k.c * M + 6 * k.c * L) * ((1 + rateBound k M) * dt) := by
      have : 0 ≤ 8 * k.c * M * dt := by positivity
      linarith
    have h2 := mul_le_mul_of_nonneg_left h1 hκ
    have h3 : 0 ≤ 4 * k.c * ((1 + rateBound k M) * dt) := by positivity
    have h4 : rateLip k M L * (1 + rateBound k M) * dt = 4 * k.c * ((1 + rateBound k M) * dt) +
        |k.q / (k.m * k.c)| * ((3 * L + 8 * k.c * M + 6 * k.c * L) * ((1 + rateBound k M) * dt)) := by
      unfold rateLip
      ring
    rw [h4]
    linarith
  have mom : ∀ a b F F' : ℝ, b - a = dt * (k.q / (k.m * k.c)) * F →
      |k.q / (k.m * k.c) * F - k.q / (k.m * k.c) * F'| ≤ rateLip k M L * (1 + rateBound k M) * dt →
      |b - (a + dt * (k.q / (k.m * k.c) * F'))| ≤ rateLip k M L * (1 + rateBound k M) * dt ^ 2 := by
    intro a b F F' h1 h2
    have h3 : b - (a + dt * (k.q / (k.m * k.c) * F')) = dt * (k.q / (k.m * k.c) * F - k.q / (k.m * k.c) * F') := by
      linear_combination h1
    rw [h3, abs_mul, abs_of_nonneg hdt]
    have h4 := mul_le_mul_of_nonneg_left h2 hdt
    linarith
  -- the velocity with the new momentum
  have hg' : |p'.gamma - p.gamma| ≤ 3 * (rateBound k M * dt) := gamma_near d1 d2 d3
  have u1 := quot_near hc.le (gamma_one_le p') (gamma_one_le p) (abs_le_gamma p).1 d1 hg'
  have u2 := quot_near hc.le (gamma_one_le p') (gamma_one_le p) (abs_le_gamma p).2.1 d2 hg'
  have u3 := quot_near hc.le (gamma_one_le p') (gamma_one_le p) (abs_le_gamma p).2.2 d3 hg'
  have hW : dt / 2 * (4 * k.c * (rateBound k M * dt)) ≤ rateLip k M L * (1 + rateBound k M) * dt ^ 2 := by
    have h4 : rateLip k M L * (1 + rateBound k M) * dt ^ 2 = 4 * k.c * (1 + rateBound k M) * dt ^ 2 +
        |k.q / (k.m * k.c)| * (3 * L + 8 * k.c * M + 6 * k.c * L) * (1 + rateBound k M) * dt ^ 2 := by
      unfold rateLip
      ring
    rw [h4]
    have h5 : 0 ≤ |k.q / (k.m * k.c)| * (3 * L + 8 * k.c * M + 6 * k.c * L) * (1 + rateBound k M) * dt ^ 2 := by positivity
    have h6 : 0 ≤ 4 * k.c * dt ^ 2 := by positivity
    have h7 : 0 ≤ 4 * k.c * rateBound k M * dt ^ 2 := by positivity
    linarith
  have pos : ∀ a b x v v' : ℝ, b = a + dt / 2 * v → x = b + dt / 2 * v' → |v' - v| ≤ 4 * k.c * (rateBound k M * dt) →
      |x - (a + dt * v)| ≤ rateLip k M L * (1 + rateBound k M) * dt ^ 2 := by
    intro a b x v v' h1 h2 h3
    have h4 : x - (a + dt * v) = dt / 2 * (v' - v) := by rw [h2, h1]; ring
    rw [h4, abs_mul, abs_of_nonneg hdt2]
    exact (mul_le_mul_of_nonneg_left h3 hdt2).trans hW
  unfold motion Ph.shift
  dsimp only
  constructor <;> dsimp only
  · exact pos _ _ _ _ _ (e1.trans rfl) rfl u1
  · exact pos _ _ _ _ _ (e2.trans rfl) rfl u2
  · exact pos _ _ _ _ _ (e3.trans rfl) rfl (by rw [sub_sub_sub_cancel_right]; exact u3)
  · exact mom _ _ _ _ c1 ((force_near hl.ex v2 v3 hl.bz hl.b_y w2 w3 f6 f5).trans hG)
  · exact mom _ _ _ _ c2 ((force_near hl.ey v3 v1 hl.bx hl.bz w3 w1 f4 f6).trans hG)
  · exact mom _ _ _ _ c3 ((force_near hl.ez v1 v2 hl.b_y hl.bx w1 w2 f5 f4).trans hG)

/-! ### The exact motion -/

/-- The change of a function whose derivative is close to `d`. -/
theorem change_near {f f' : ℝ → ℝ} {T a b d C : ℝ} (ha : 0 ≤ a) (hab : a ≤ b) (hb : b ≤ T)
    (hf : ∀ t ∈ Set.Icc 0 T, HasDerivWithinAt f (f' t) (Set.Icc 0 T) t) (hC : ∀ t, a ≤ t → t ≤ b → |f' t - d| ≤ C) :
    |f b - (f a + (b - a) * d)| ≤ (b - a) * C := by
  have h1 : ∀ t ∈ Set.Icc a b, HasDerivWithinAt (fun t => f t - t * d) (f' t - d) (Set.Icc a b) t := by
    intro t ht
    have h2 := (hf t ⟨ha.trans ht.1, ht.2.trans hb⟩).mono (Set.Icc_subset_Icc ha hb)
    have h3 : HasDerivWithinAt (fun t : ℝ => t * d) d (Set.Icc a b) t := by
      simpa using (hasDerivWithinAt_id t (Set.Icc a b)).mul_const d
    exact h2.sub h3
  have h4 := Convex.norm_image_sub_le_of_norm_hasDerivWithin_le h1 (C := C) (fun t ht => hC t ht.1 ht.2) (convex_Icc a b)
    (Set.left_mem_Icc.mpr hab) (Set.right_mem_Icc.mpr hab)
  rw [Real.norm_eq_abs, Real.norm_eq_abs, abs_of_nonneg (sub_nonneg.mpr hab)] at h4
  have h5 : f b - (f a + (b - a) * d) = f b - b * d - (f a - a * d) := by ring
  rw [h5, mul_comm (b - a) C]
  exact h4

theorem Trajectory.inReach (hc : 0 < k.c) {z : ℝ → Ph} (hz : Trajectory k fields T z) {t : ℝ} (ht : 0 ≤ t) (htT : t ≤ T) :
    InReach (z 0) (k.c * T) (z t) := by
  have h1 := change_near le_rfl ht htT hz.x (d := 0) (C := k.c) (fun s _ _ => by
    rw [sub_zero]; exact (abs_velocity hc.le (z s)).1)
  have h2 := change_near le_rfl ht htT hz.y (d := 0) (C := k.c) (fun s _ _ => by
    rw [sub_zero]; exact (abs_velocity hc.le (z s)).2.1)
  have h3 := change_near le_rfl ht htT hz.xi (d := 0) (C := 2 * k.c) (fun s _ _ => by
    rw [sub_zero]
    refine (abs_sub _ _).trans ?_
    have := (abs_velocity hc.le (z s)).2.2
    rw [abs_of_pos hc]
    linarith)
  rw [mul_zero, add_zero, sub_zero] at h1 h2 h3
  have h4 : k.c * t ≤ k.c * T := mul_le_mul_of_nonneg_left htT hc.le
  exact ⟨by linarith, by linarith, by linarith⟩

theorem Trajectory.near (hc : 0 < k.c) {z : ℝ → Ph} (hz : Trajectory k fields T z) (hs : Smooth fields T (z 0) (k.c * T) M L)
    {a b : ℝ} (ha : 0 ≤ a) (hab : a ≤ b) (hb : b ≤ T) : Near ((b - a) * rateBound k M) (z b) (z a) := by
  have hbd : ∀ t, a ≤ t → t ≤ b → Near (rateBound k M) (motion k fields t (z t)) Ph.zero := fun t h1 h2 =>
    motion_bound hc hs (ha.trans h1) (h2.trans hb) (hz.inReach hc (ha.trans h1) (h2.trans hb))
  have e : z a = (z a).shift (b - a) Ph.zero := by unfold Ph.shift Ph.zero; simp
  rw [e]
  exact ⟨change_near ha hab hb hz.x fun t h1 h2 => (hbd t h1 h2).x, change_near ha hab hb hz.y fun t h1 h2 => (hbd t h1 h2).y,
    change_near ha hab hb hz.xi fun t h1 h2 => (hbd t h1 h2).xi, change_near ha hab hb hz.px fun t h1 h2 => (hbd t h1 h2).px,
    change_near ha hab hb hz.py fun t h1 h2 => (hbd t h1 h2).py, change_near ha hab hb hz.pz fun t h1 h2 => (hbd t h1 h2).pz⟩

/-- The exact motion over a short time. -/
theorem Trajectory.step (hc : 0 < k.c) {z : ℝ → Ph} (hz : Trajectory k fields T z) (hs : Smooth fields T (z 0) (k.c * T) M L)
    {t dt : ℝ} (ht : 0 ≤ t) (hdt : 0 ≤ dt) (htT : t + dt ≤ T) :
    Near (rateLip k M L * (1 + rateBound k M) * dt ^ 2) ((z t).shift dt (motion k fields t (z t))) (z (t + dt)) := by
  have hA := rateBound_nonneg (M := M) hc hs.M0
  have hΛ := rateLip_nonneg (M := M) (L := L) hc hs.M0 hs.L0
  have hbd : ∀ s, t ≤ s → s ≤ t + dt →
      Near (rateLip k M L * (1 + rateBound k M) * dt) (motion k fields s (z s)) (motion k fields t (z t)) := by
    intro s h1 h2
    have h3 := motion_near hc hs (t := s) (s := t) (τ := dt) (by linarith) (by linarith) ht (by linarith)
      (by rw [abs_of_nonneg (by linarith)]; linarith) (hz.inReach hc (by linarith) (by linarith))
      (hz.inReach hc ht (by linarith)) ((hz.near hc hs ht h1 (by linarith)).mono
        (mul_le_mul_of_nonneg_right (by linarith : s - t ≤ dt) hA))
    exact h3.mono (le_of_eq (by ring))
  have key : ∀ {f f' : ℝ → ℝ}, (∀ t ∈ Set.Icc 0 T, HasDerivWithinAt f (f' t) (Set.Icc 0 T) t) →
      (∀ s, t ≤ s → s ≤ t + dt → |f' s - f' t| ≤ rateLip k M L * (1 + rateBound k M) * dt) →
      |f t + dt * f' t - f (t + dt)| ≤ rateLip k M L * (1 + rateBound k M) * dt ^ 2 := by
    intro f f' h1 h2
    have h3 := change_near ht (by linarith : t ≤ t + dt) htT h1 h2
    rw [add_sub_cancel_left] at h3
    rw [abs_sub_comm]
    refine h3.trans (le_of_eq (by ring))
  exact ⟨key hz.x fun s h1 h2 => (hbd s h1 h2).x, key hz.y fun s h1 h2 => (hbd s h1 h2).y,
    key hz.xi fun s h1 h2 => (hbd s h1 h2).xi, key hz.px fun s h1 h2 => (hbd s h1 h2).px,
    key hz.py fun s h1 h2 => (hbd s h1 h2).py, key hz.pz fun s h1 h2 => (hbd s h1 h2).pz⟩

/-! ### The error after a step -/

/-- Bound for the error at the time `t` with steps up to `D`. -/
noncomputable def errorBound (k : Const) (M L D t : ℝ) : ℝ :=
  2 * (rateLip k M L * (1 + rateBound k M)) * D * t * Real.exp (rateLip k M L * t)

theorem errorBound_step (hc : 0 < k.c) (hM : 0 ≤ M) (hL : 0 ≤ L) {D t dt : ℝ} (ht : 0 ≤ t) (hdt : 0 ≤ dt) (hD : dt ≤ D) :
    errorBound k M L D t + dt * (rateLip k M L * errorBound k M L D t) + 2 * (rateLip k M L * (1 + rateBound k M) * dt ^ 2) ≤
      errorBound k M L D (t + dt) := by
  have hA := rateBound_nonneg (M := M) hc hM
  have hΛ := rateLip_nonneg (M := M) (L := L) hc hM hL
  unfold errorBound
  generalize hC : rateLip k M L * (1 + rateBound k M) = C
  have hC0 : 0 ≤ C := by rw [← hC]; positivity
  generalize rateLip k M L = Λ at *
  have hD0 : 0 ≤ D := hdt.trans hD
  have h1 : 1 + Λ * dt ≤ Real.exp (Λ * dt) := by linarith [Real.add_one_le_exp (Λ * dt)]
  have h2 : Real.exp (Λ * (t + dt)) = Real.exp (Λ * t) * Real.exp (Λ * dt) := by rw [mul_add, Real.exp_add]
  have h3 : 1 ≤ Real.exp (Λ * (t + dt)) := Real.one_le_exp (by positivity)
  have h4 : Real.exp (Λ * t) * (1 + Λ * dt) ≤ Real.exp (Λ * (t + dt)) := by
    rw [h2]
    exact mul_le_mul_of_nonneg_left h1 (Real.exp_pos _).le
  have h5 : 2 * C * D * t * (Real.exp (Λ * t) * (1 + Λ * dt)) ≤ 2 * C * D * t * Real.exp (Λ * (t + dt)) :=
    mul_le_mul_of_nonneg_left h4 (by positivity)
  have h6 : 2 * (C * dt ^ 2) ≤ 2 * C * D * dt * 1 := by
    have := mul_le_mul_of_nonneg_left hD (by positivity : 0 ≤ 2 * C * dt)
    linarith
  have h7 : 2 * C * D * dt * 1 ≤ 2 * C * D * dt * Real.exp (Λ * (t + dt)) :=
    mul_le_mul_of_nonneg_left h3 (by positivity)
  linarith

/-- The error grows with one more step as the bound does. -/
theorem converge_step (hc : 0 < k.c) {z : ℝ → Ph} (hz : Trajectory k fields T z) (hs : Smooth fields T (z 0) (k.c * T) M L)
    {step : ℝ → ℝ → Ph → Ph} (hstep : Consistent k fields T (z 0) (rateLip k M L * (1 + rateBound k M)) step)
    {D t dt : ℝ} (ht : 0 ≤ t) (hdt : 0 ≤ dt) (hD : dt ≤ D) (htT : t + dt ≤ T) {p : Ph} (hp : Slow k.c t (z 0) p)
    (h : Near (errorBound k M L D t) p (z t)) : Near (errorBound k M L D (t + dt)) (step t dt p) (z (t + dt)) := by
  have h1 := hstep t dt p ht hdt htT hp
  have h2 := hz.step hc hs ht hdt htT
  have h3 := motion_near hc hs ht (by linarith) ht (by linarith) (show |t - t| ≤ 0 by simp)
    (Slow.inReach hc (by linarith) hp) (hz.inReach hc ht (by linarith)) h
  have h4 := (h1.trans (h.shift hdt h3)).trans h2
  refine h4.mono (le_trans (le_of_eq ?_) (errorBound_step hc hs.M0 hs.L0 ht hdt hD))
  ring

end

end WakeT.Push
