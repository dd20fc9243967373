import Verif.Model.Analytical
import Mathlib.Analysis.SpecialFunctions.ExpDeriv
import Mathlib.Analysis.Calculus.Deriv.MeanValue

/-!
# C53: analytical means and variances solve the moment equations
-/

namespace Sdepy
namespace Spec
end Spec
open Spec Real

/-! ### specification -/

/-- Coefficients of a linear stochastic equation `dx = f(x) dt + g(x) dw`, on the domain `D` of its
values: `f(x) = a + b*x` and `g(x)**2 = c + d*x + e*x**2`. -/
structure Spec.Coefs where
  a : ℝ
  b : ℝ
  c : ℝ
  d : ℝ
  e : ℝ

/-- Drift `f` and diffusion `g` have these coefficients. -/
def Spec.Coefs.Of (q : Coefs) (D : Set ℝ) (f g : ℝ → ℝ) : Prop :=
  ∀ x ∈ D, f x = q.a + q.b * x ∧ g x ^ 2 = q.c + q.d * x + q.e * x ^ 2

/-- `m` and `v` solve the equations of mean and variance of a solution starting at `x0`: taking
expectations of `dx` and of `d(x**2) = 2*x*dx + g(x)**2 dt`, with `E(x**2) = v + m**2`. -/
structure Spec.MomentEq (q : Coefs) (x0 : ℝ) (m v : ℝ → ℝ) : Prop where
  mean0 : m 0 = x0
  var0 : v 0 = 0
  mean : ∀ t, HasDerivAt m (q.a + q.b * m t) t
  var : ∀ t, HasDerivAt v
    (2 * q.b * v t + (q.c + q.d * m t + q.e * (v t + m t ^ 2))) t

/-- A linear equation with no source and null initial value has the null solution only. -/
theorem linear_unique {c : ℝ} {f : ℝ → ℝ} (h0 : f 0 = 0) (hf : ∀ t, HasDerivAt f (c * f t) t) :
    ∀ t, f t = 0 := by
  have hconst : ∀ t, HasDerivAt (fun t => exp (-c * t) * f t) 0 t := by
    intro t
    have h1 : HasDerivAt (fun t : ℝ => exp (-c * t)) (exp (-c * t) * (-c)) t := by
      have := ((hasDerivAt_id t).const_mul (-c)).exp
      simpa using this
    have := h1.mul (hf t)
    refine this.congr_deriv ?_
    ring
  intro t
  have := is_const_of_deriv_eq_zero (f := fun t => exp (-c * t) * f t)
    (fun t => (hconst t).differentiableAt) (fun t => (hconst t).deriv) t 0
  simp only [h0, mul_zero, mul_eq_zero] at this
  rcases this with h | h
  · exact absurd h (exp_ne_zero _)
  · exact h

/-- There is one solution only of the equations of the moments. -/
theorem C53_unique {q : Coefs} {x0 : ℝ} {m v m' v' : ℝ → ℝ} (h : MomentEq q x0 m v)
    (h' : MomentEq q x0 m' v') : m = m' ∧ v = v' := by
  have hm : m = m' := by
    funext t
    have := linear_unique (c := q.b) (f := fun t => m t - m' t)
      (by simp [h.mean0, h'.mean0]) (fun t => by
        have := (h.mean t).sub (h'.mean t)
        refine this.congr_deriv ?_
        ring) t
    linarith
  subst hm
  refine ⟨rfl, ?_⟩
  funext t
  have := linear_unique (c := 2 * q.b + q.e) (f := fun t => v t - v' t)
    (by simp [h.var0, h'.var0]) (fun t => by
      have := (h.var t).sub (h'.var t)
      refine this.congr_deriv ?_
      ring) t
  linarith

theorem hasDerivAt_exp_mul (c t : ℝ) : HasDerivAt (fun t : ℝ => exp (c * t)) (exp (c * t) * c) t := by
  have := ((hasDerivAt_id t).const_mul c).exp
  simpa using this

/-! ### processes -/

/-- Wiener process: `dx = mu*dt + sigma*dw`. -/
theorem C53_wiener (x0 mu sigma : ℝ) : ∃ q : Coefs,
    q.Of Set.univ (fun _ => mu) (fun _ => sigma) ∧
    MomentEq q x0 (wienerMean x0 mu sigma) (wienerVar x0 mu sigma) ∧
    ∀ t, 0 ≤ t → 0 ≤ wienerVar x0 mu sigma t := by
  refine ⟨⟨mu, 0, sigma ^ 2, 0, 0⟩, fun x _ => ⟨by simp, by simp⟩, ⟨by simp [wienerMean],
    by simp [wienerVar], fun t => ?_, fun t => ?_⟩, fun t ht => ?_⟩
  · have := ((hasDerivAt_id t).const_mul mu).const_add x0
    refine this.congr_deriv ?_; simp
  · have := (hasDerivAt_id t).const_mul (sigma * sigma)
    refine this.congr_deriv ?_; simp; ring
  · unfold wienerVar; exact mul_nonneg (mul_self_nonneg _) ht

/-- Lognormal process: `dx = mu*x*dt + sigma*x*dw`. -/
theorem C53_lognorm (x0 mu sigma : ℝ) : ∃ q : Coefs,
    q.Of Set.univ (fun x => mu * x) (fun x => sigma * x) ∧
    MomentEq q x0 (lognormMean x0 mu sigma) (lognormVar x0 mu sigma) ∧
    ∀ t, 0 ≤ t → 0 ≤ lognormVar x0 mu sigma t := by
  refine ⟨⟨0, mu, 0, 0, sigma ^ 2⟩, fun x _ => ⟨by simp, by simp; ring⟩, ⟨by simp [lognormMean],
    by simp [lognormVar], fun t => ?_, fun t => ?_⟩, fun t ht => ?_⟩
  · have := (hasDerivAt_exp_mul mu t).const_mul x0
    refine this.congr_deriv ?_; simp [lognormMean]; ring
  · have h := (((hasDerivAt_exp_mul (sigma * sigma) t).sub_const 1).const_mul (x0 * x0)).mul
      (hasDerivAt_exp_mul (2 * mu) t)
    refine h.congr_deriv ?_
    have e2 : exp (2 * mu * t) = exp (mu * t) ^ 2 := by
      rw [← exp_nat_mul]; congr 1; push_cast; ring
    simp only [lognormVar, lognormMean]
    rw [e2]
    ring
  · unfold lognormVar
    have : 1 ≤ exp (sigma * sigma * t) := by
      rw [one_le_exp_iff]; exact mul_nonneg (mul_self_nonneg _) ht
    exact mul_nonneg (mul_nonneg (mul_self_nonneg _) (by linarith)) (exp_pos _).le

/-- `(1 - exp(-c*t))/c` is not negative. -/
theorem decay_nonneg {c t : ℝ} (ht : 0 ≤ t) : 0 ≤ (1 - exp (-c * t)) / c := by
  rcases lt_trichotomy c 0 with hc | hc | hc
  · refine div_nonneg_of_nonpos ?_ hc.le
    have : 1 ≤ exp (-c * t) := by rw [one_le_exp_iff]; nlinarith
    linarith
  · simp [hc]
  · refine div_nonneg ?_ hc.le
    have : exp (-c * t) ≤ 1 := by rw [exp_le_one_iff]; nlinarith
    linarith

/-- Ornstein-Uhlenbeck process: `dx = k*(theta - x)*dt + sigma*dw`. -/
theorem C53_oruh (x0 theta sigma : ℝ) {k : ℝ} (hk : k ≠ 0) : ∃ q : Coefs,
    q.Of Set.univ (fun x => k * (theta - x)) (fun _ => sigma) ∧
    MomentEq q x0 (oruhMean x0 theta k sigma) (oruhVar x0 theta k sigma) ∧
    ∀ t, 0 ≤ t → 0 ≤ oruhVar x0 theta k sigma t := by
  refine ⟨⟨k * theta, -k, sigma ^ 2, 0, 0⟩, fun x _ => ⟨by simp; ring, by simp⟩,
    ⟨by simp [oruhMean], by simp [oruhVar], fun t => ?_, fun t => ?_⟩, fun t ht => ?_⟩
  · have := ((hasDerivAt_exp_mul (-k) t).mul_const (theta - x0)).const_sub theta
    refine this.congr_deriv ?_; simp only [oruhMean]; ring
  · have := ((hasDerivAt_exp_mul (-2 * k) t).const_sub 1).const_mul ((sigma * sigma) / (2 * k))
    refine this.congr_deriv ?_; simp only [oruhVar]; field_simp; ring
  · unfold oruhVar
    have := decay_nonneg (c := 2 * k) ht
    have e : (sigma * sigma) / (2 * k) * (1 - exp (-2 * k * t)) =
      (sigma * sigma) * ((1 - exp (-(2 * k) * t)) / (2 * k)) := by
      rw [neg_mul_eq_neg_mul]; ring
    rw [e]
    exact mul_nonneg (mul_self_nonneg _) this

/-- Cox-Ingersoll-Ross process: `dx = k*(theta - x)*dt + xi*sqrt(x)*dw`, with nonnegative values. -/
theorem C53_cir (x0 theta xi : ℝ) {k : ℝ} (hk : k ≠ 0) : ∃ q : Coefs,
    q.Of {x | 0 ≤ x} (fun x => k * (theta - x)) (fun x => xi * √x) ∧
    MomentEq q x0 (cirMean x0 theta k xi) (cirVar x0 theta k xi) ∧
    (0 ≤ x0 → 0 ≤ k * theta → ∀ t, 0 ≤ t → 0 ≤ cirVar x0 theta k xi t) := by
  refine ⟨⟨k * theta, -k, 0, xi ^ 2, 0⟩, fun x hx => ⟨by simp; ring, ?_⟩,
    ⟨by simp [cirMean], by simp [cirVar], fun t => ?_, fun t => ?_⟩, fun hx hth t ht => ?_⟩
  · simp only
    rw [mul_pow, sq_sqrt hx]; ring
  · have := ((hasDerivAt_exp_mul (-k) t).const_mul (x0 - theta)).const_add theta
    refine this.congr_deriv ?_; simp only [cirMean]; ring
  · have h := (((hasDerivAt_exp_mul (-k) t).const_sub 1).const_mul (xi * xi / k)).mul
      (((hasDerivAt_exp_mul (-k) t).const_mul (x0 - theta / 2)).const_add (theta / 2))
    refine h.congr_deriv ?_
    simp only [cirVar, cirMean]
    field_simp
    ring
  · have h1 := decay_nonneg (c := k) ht
    have e : cirVar x0 theta k xi t = xi * xi * (((1 - exp (-k * t)) / k) *
        (k * theta / 2 * ((1 - exp (-k * t)) / k) + x0 * exp (-k * t))) := by
      simp only [cirVar]; field_simp; ring
    rw [e]
    have h2 : 0 ≤ k * theta / 2 * ((1 - exp (-k * t)) / k) := mul_nonneg (by linarith) h1
    have h3 : 0 ≤ x0 * exp (-k * t) := mul_nonneg hx (exp_pos _).le
    exact mul_nonneg (mul_self_nonneg _) (mul_nonneg h1 (by linarith))

/-- A function with nonnegative derivative, null at zero. -/
theorem nonneg_of_deriv {F F' : ℝ → ℝ} {t : ℝ} (ht : 0 ≤ t) (h0 : F 0 = 0)
    (hF : ∀ s, HasDerivAt F (F' s) s) (hp : ∀ s, 0 ≤ s → s ≤ t → 0 ≤ F' s) : 0 ≤ F t := by
  have : MonotoneOn F (Set.Icc 0 t) := by
    apply monotoneOn_of_deriv_nonneg (convex_Icc 0 t)
    · exact fun s _ => (hF s).continuousAt.continuousWithinAt
    · exact fun s _ => (hF s).differentiableAt.differentiableWithinAt
    · intro s hs
      rw [interior_Icc] at hs
      rw [(hF s).deriv]
      exact hp s hs.1.le hs.2.le
  have := this ⟨le_refl 0, ht⟩ ⟨ht, le_refl t⟩ ht
  rwa [h0] at this

/-! ### Hull-White process with two factors -/

/-- `x = x1 + x2`, with `dxi = ki*(thetai - xi)*dt + si*dwi`, and `rho` the correlation of `dw1` and
`dw2`: mean and variance of `x` are obtained from the equations of means, variances and covariance
of the factors, from `d(xi*xj) = xi*dxj + xj*dxi + dxi*dxj`. -/
def Spec.TwoFactorEq (x1 x2 theta1 theta2 k1 k2 s1 s2 rho : ℝ) (m v : ℝ → ℝ) : Prop :=
  ∃ m1 m2 v11 v12 v22 : ℝ → ℝ,
    (m1 0 = x1 ∧ ∀ t, HasDerivAt m1 (k1 * (theta1 - m1 t)) t) ∧
    (m2 0 = x2 ∧ ∀ t, HasDerivAt m2 (k2 * (theta2 - m2 t)) t) ∧
    (v11 0 = 0 ∧ ∀ t, HasDerivAt v11 (-(k1 + k1) * v11 t + s1 * s1) t) ∧
    (v12 0 = 0 ∧ ∀ t, HasDerivAt v12 (-(k1 + k2) * v12 t + rho * s1 * s2) t) ∧
    (v22 0 = 0 ∧ ∀ t, HasDerivAt v22 (-(k2 + k2) * v22 t + s2 * s2) t) ∧
    m = (fun t => m1 t + m2 t) ∧ v = fun t => v11 t + 2 * v12 t + v22 t

theorem hasDerivAt_decay {c : ℝ} (hc : c ≠ 0) (s t : ℝ) :
    HasDerivAt (fun t => s / c * (1 - exp (-c * t)))
      (-c * (s / c * (1 - exp (-c * t))) + s) t := by
  have := ((hasDerivAt_exp_mul (-c) t).const_sub 1).const_mul (s / c)
  refine this.congr_deriv ?_
  field_simp; ring

theorem C53_hw2f (x1 x2 theta1 theta2 s1 s2 rho : ℝ) {k1 k2 : ℝ} (hk1 : k1 ≠ 0) (hk2 : k2 ≠ 0)
    (hk : k1 + k2 ≠ 0) :
    TwoFactorEq x1 x2 theta1 theta2 k1 k2 s1 s2 rho
      (hw2fMean x1 x2 theta1 theta2 k1 k2 s1 s2 rho)
      (hw2fVar x1 x2 theta1 theta2 k1 k2 s1 s2 rho) ∧
    (|rho| ≤ 1 → ∀ t, 0 ≤ t → 0 ≤ hw2fVar x1 x2 theta1 theta2 k1 k2 s1 s2 rho t) := by
  have hmean : ∀ k theta x t : ℝ, HasDerivAt (fun t => theta - exp (-k * t) * (theta - x))
      (k * (theta - (theta - exp (-k * t) * (theta - x)))) t := by
    intro k theta x t
    have := ((hasDerivAt_exp_mul (-k) t).mul_const (theta - x)).const_sub theta
    refine this.congr_deriv ?_; ring
  have h11 : k1 + k1 ≠ 0 := by rw [← two_mul]; simpa using hk1
  have h22 : k2 + k2 ≠ 0 := by rw [← two_mul]; simpa using hk2
  have hv : hw2fVar x1 x2 theta1 theta2 k1 k2 s1 s2 rho = fun t =>
      (s1 * s1) / (k1 + k1) * (1 - exp (-(k1 + k1) * t)) +
      2 * ((rho * s1 * s2) / (k1 + k2) * (1 - exp (-(k1 + k2) * t))) +
      (s2 * s2) / (k2 + k2) * (1 - exp (-(k2 + k2) * t)) := by
    funext t
    have e : ∀ k : ℝ, -(k + k) * t = -2 * k * t := fun k => by ring
    simp only [hw2fVar]
    rw [e k1, e k2, ← two_mul k1, ← two_mul k2]
    ring
  refine ⟨⟨_, _, _, _, _, ⟨?_, hmean k1 theta1 x1⟩, ⟨?_, hmean k2 theta2 x2⟩,
    ⟨?_, hasDerivAt_decay h11 (s1 * s1)⟩, ⟨?_, hasDerivAt_decay hk (rho * s1 * s2)⟩,
    ⟨?_, hasDerivAt_decay h22 (s2 * s2)⟩, ?_, hv⟩, ?_⟩
  any_goals simp
  · funext t; simp only [hw2fMean]; ring_nf
  · intro hrho t ht
    have hF : ∀ c : ℝ, c ≠ 0 → ∀ s u : ℝ, HasDerivAt (fun u => s / c * (exp (c * u) - 1))
        (s * exp (c * u)) u := by
      intro c hc s u
      have := ((hasDerivAt_exp_mul c u).sub_const 1).const_mul (s / c)
      refine this.congr_deriv ?_
      field_simp
    have := nonneg_of_deriv ht (F := fun u =>
        exp (-(k1 + k1) * t) * ((s1 * s1) / (k1 + k1) * (exp ((k1 + k1) * u) - 1)) +
        2 * (exp (-(k1 + k2) * t) * ((rho * s1 * s2) / (k1 + k2) * (exp ((k1 + k2) * u) - 1))) +
        exp (-(k2 + k2) * t) * ((s2 * s2) / (k2 + k2) * (exp ((k2 + k2) * u) - 1)))
      (F' := fun u => exp (-(k1 + k1) * t) * (s1 * s1 * exp ((k1 + k1) * u)) +
        2 * (exp (-(k1 + k2) * t) * (rho * s1 * s2 * exp ((k1 + k2) * u))) +
        exp (-(k2 + k2) * t) * (s2 * s2 * exp ((k2 + k2) * u))) (by simp)
      (fun u => (((hF _ h11 (s1 * s1) u).const_mul _).add
        (((hF _ hk (rho * s1 * s2) u).const_mul _).const_mul 2)).add
        ((hF _ h22 (s2 * s2) u).const_mul _)) (fun u _ _ => ?_)
    · rw [hv]
      have e : ∀ c s : ℝ, exp (-c * t) * (s / c * (exp (c * t) - 1)) = s / c * (1 - exp (-c * t)) := by
        intro c s
        have : exp (-c * t) * exp (c * t) = 1 := by rw [← exp_add]; simp
        linear_combination (s / c) * this
      simpa only [e] using this
    · set p1 := s1 * exp (k1 * (u - t)) with hp1
      set p2 := s2 * exp (k2 * (u - t)) with hp2
      have e : exp (-(k1 + k1) * t) * (s1 * s1 * exp ((k1 + k1) * u)) +
          2 * (exp (-(k1 + k2) * t) * (rho * s1 * s2 * exp ((k1 + k2) * u))) +
          exp (-(k2 + k2) * t) * (s2 * s2 * exp ((k2 + k2) * u)) =
          p1 ^ 2 + 2 * rho * p1 * p2 + p2 ^ 2 := by
        have e1 : ∀ a b : ℝ, exp (-(a + b) * t) * exp ((a + b) * u) =
            exp (a * (u - t)) * exp (b * (u - t)) := by
          intro a b; rw [← exp_add, ← exp_add]; congr 1; ring
        have a1 := e1 k1 k1
        have a2 := e1 k1 k2
        have a3 := e1 k2 k2
        rw [hp1, hp2]
        linear_combination (s1 * s1) * a1 + (2 * rho * s1 * s2) * a2 + (s2 * s2) * a3
      show 0 ≤ exp (-(k1 + k1) * t) * (s1 * s1 * exp ((k1 + k1) * u)) +
          2 * (exp (-(k1 + k2) * t) * (rho * s1 * s2 * exp ((k1 + k2) * u))) +
          exp (-(k2 + k2) * t) * (s2 * s2 * exp ((k2 + k2) * u))
      rw [e]
      have h1 := abs_le.1 hrho
      have h2 : rho ^ 2 ≤ 1 := by nlinarith
      nlinarith [sq_nonneg (p1 + rho * p2), sq_nonneg p2]

/-! ### Heston process -/

/-- `dlogx = (mu - sigma**2*y/2)*dt + sigma*sqrt(y)*dw1`, `dy = k*(theta - y)*dt + xi*sqrt(y)*dw2`,
with `rho` the correlation of `dw1` and `dw2`: equations of means `m`, `my`, of variances `v`, `vy`
and of the covariance `c` of `log x` and `y`. -/
def Spec.HestonEq (x0 mu sigma y0 theta k xi rho : ℝ) (m v : ℝ → ℝ) : Prop :=
  ∃ my vy c : ℝ → ℝ,
    (my 0 = y0 ∧ ∀ t, HasDerivAt my (k * (theta - my t)) t) ∧
    (vy 0 = 0 ∧ ∀ t, HasDerivAt vy (-2 * k * vy t + xi ^ 2 * my t) t) ∧
    (c 0 = 0 ∧ ∀ t, HasDerivAt c
      (-k * c t - sigma ^ 2 / 2 * vy t + rho * sigma * xi * my t) t) ∧
    (m 0 = log x0 ∧ ∀ t, HasDerivAt m (mu - sigma ^ 2 / 2 * my t) t) ∧
    (v 0 = 0 ∧ ∀ t, HasDerivAt v (-sigma ^ 2 * c t + sigma ^ 2 * my t) t)

/-- Covariance of `log x` and `y` in the Heston process. -/
noncomputable def hestonCov (sigma y0 theta k xi rho t : ℝ) : ℝ :=
  let alpha := exp (-k * t)
  let a0 := rho * sigma * xi * theta - sigma ^ 2 * xi ^ 2 * theta / (4 * k)
  let a1 := (y0 - theta) * (rho * sigma * xi - sigma ^ 2 * xi ^ 2 / (2 * k))
  let a2 := -(sigma ^ 2 * xi ^ 2 / (2 * k)) * (theta / 2 - y0)
  a0 / k * (1 - alpha) + a1 * t * alpha + a2 / k * (alpha - alpha ^ 2)

theorem hasDerivAt_hestonCov (sigma y0 theta xi rho t : ℝ) {k : ℝ} (hk : k ≠ 0) :
    HasDerivAt (hestonCov sigma y0 theta k xi rho)
      (-k * hestonCov sigma y0 theta k xi rho t - sigma ^ 2 / 2 * cirVar y0 theta k xi t +
        rho * sigma * xi * cirMean y0 theta k xi t) t := by
  have ha := hasDerivAt_exp_mul (-k) t
  have h := (((ha.const_sub 1).const_mul
      ((rho * sigma * xi * theta - sigma ^ 2 * xi ^ 2 * theta / (4 * k)) / k)).add
    (((hasDerivAt_id t).const_mul
      ((y0 - theta) * (rho * sigma * xi - sigma ^ 2 * xi ^ 2 / (2 * k)))).mul ha)).add
    ((ha.sub (ha.pow 2)).const_mul (-(sigma ^ 2 * xi ^ 2 / (2 * k)) * (theta / 2 - y0) / k))
  refine h.congr_deriv ?_
  simp only [hestonCov, cirVar, cirMean, id]
  generalize exp (-k * t) = al
  field_simp
  ring

theorem hasDerivAt_hestonLogVar (x0 mu sigma y0 theta xi rho t : ℝ) {k : ℝ} (hk : k ≠ 0) :
    HasDerivAt (hestonLogVar x0 mu sigma y0 theta k xi rho)
      (-sigma ^ 2 * hestonCov sigma y0 theta k xi rho t +
        sigma ^ 2 * cirMean y0 theta k xi t) t := by
  have ha := hasDerivAt_exp_mul (-k) t
  have hkt : HasDerivAt (fun t => k * t) k t := by simpa using (hasDerivAt_id t).const_mul k
  have h2kt : HasDerivAt (fun t => 2 * k * t) (2 * k) t := by
    simpa using (hasDerivAt_id t).const_mul (2 * k)
  have hsq : HasDerivAt (fun t => (exp (-k * t) * sigma * xi) ^ 2)
      (2 * (exp (-k * t) * sigma * xi) * (exp (-k * t) * (-k) * sigma * xi)) t := by
    have := ((ha.mul_const sigma).mul_const xi).pow 2
    refine this.congr_deriv ?_; simp
  have h1 := ((((hsq.add ((ha.const_mul 4).mul ((((hkt.const_add 1).mul_const ((sigma * xi) ^ 2)).sub
      ((hkt.const_add 2).const_mul (2 * rho * k * sigma * xi))).add_const (2 * k * k)))).add
      ((h2kt.sub_const 5).mul_const ((sigma * xi) ^ 2))).sub
      ((hkt.sub_const 2).const_mul (8 * rho * k * sigma * xi))).add
      ((hkt.sub_const 1).const_mul (8 * k * k)))
  have hm : HasDerivAt (fun t => -(sigma * xi) ^ 2 * k * t) (-(sigma * xi) ^ 2 * k) t := by
    exact ((hasDerivAt_id t).const_mul (-(sigma * xi) ^ 2 * k)).congr_deriv (mul_one _)
  have h2 := (((((hsq.neg).add ((ha.const_mul 2).mul ((hm.add
      ((hkt.add_const 1).const_mul (2 * rho * sigma * xi * k))).sub_const (2 * k * k)))).add_const
      ((sigma * xi) ^ 2)).sub_const (4 * rho * k * sigma * xi)).add_const (4 * k * k))
  have h := ((((h1.const_mul theta).div_const 2).add (h2.const_mul y0)).const_mul
    (sigma * sigma)).div_const (4 * k ^ 3)
  refine h.congr_deriv ?_
  simp only [hestonCov, cirMean, Pi.add_apply, Pi.sub_apply]
  generalize exp (-k * t) = al
  field_simp
  ring

/-- Heston process: mean and variance of the logarithm. -/
theorem C53_heston (x0 mu sigma y0 theta xi rho : ℝ) {k : ℝ} (hk : k ≠ 0) :
    HestonEq x0 mu sigma y0 theta k xi rho
      (hestonLogMean x0 mu sigma y0 theta k xi rho)
      (hestonLogVar x0 mu sigma y0 theta k xi rho) := by
  obtain ⟨q, hq, hm, -⟩ := C53_cir y0 theta xi hk
  refine ⟨cirMean y0 theta k xi, cirVar y0 theta k xi, hestonCov sigma y0 theta k xi rho,
    ⟨hm.mean0, fun t => ?_⟩, ⟨hm.var0, fun t => ?_⟩,
    ⟨by simp [hestonCov], fun t => hasDerivAt_hestonCov sigma y0 theta xi rho t hk⟩,
    ⟨by simp [hestonLogMean], fun t => ?_⟩,
    ⟨?_, fun t => hasDerivAt_hestonLogVar x0 mu sigma y0 theta xi rho t hk⟩⟩
  · have := ((hasDerivAt_exp_mul (-k) t).const_mul (y0 - theta)).const_add theta
    refine this.congr_deriv ?_; simp only [cirMean]; ring
  · have h := (((hasDerivAt_exp_mul (-k) t).const_sub 1).const_mul (xi * xi / k)).mul
      (((hasDerivAt_exp_mul (-k) t).const_mul (y0 - theta / 2)).const_add (theta / 2))
    refine h.congr_deriv ?_
    simp only [cirVar, cirMean]
    field_simp
    ring
  · have h := ((((hasDerivAt_exp_mul (-k) t).const_sub 1).const_mul
      (sigma * sigma * (theta - y0))).div_const (2 * k)).const_add (log x0) |>.add
      ((hasDerivAt_id t).const_mul (mu - theta * sigma * sigma / 2))
    refine h.congr_deriv ?_
    simp only [cirMean]
    field_simp
    ring
  · simp only [hestonLogVar, mul_zero, exp_zero]
    ring

/-- The variance of the logarithm in the Heston process is not negative. -/
theorem C53_heston_nonneg (x0 mu sigma xi : ℝ) {k y0 theta rho t : ℝ} (hk : k ≠ 0) (hy : 0 ≤ y0)
    (hth : 0 ≤ k * theta) (hrho : |rho| ≤ 1) (ht : 0 ≤ t) :
    0 ≤ hestonLogVar x0 mu sigma y0 theta k xi rho t := by
  -- the variance, at time s, of the expectation of log x(t)
  set B : ℝ → ℝ := fun s => sigma ^ 2 / 2 * ((1 - exp (-k * (t - s))) / k) with hB
  have hBd : ∀ s, HasDerivAt B (sigma ^ 2 / 2 * (-exp (-k * (t - s)))) s := by
    intro s
    have h1 : HasDerivAt (fun s : ℝ => -k * (t - s)) k s := by
      have := ((hasDerivAt_id s).const_sub t).const_mul (-k)
      simpa using this
    have := ((h1.exp.const_sub 1).div_const k).const_mul (sigma ^ 2 / 2)
    refine this.congr_deriv ?_
    field_simp
  obtain ⟨q, hq, hm, -⟩ := C53_cir y0 theta xi hk
  have hvy : ∀ s, HasDerivAt (cirVar y0 theta k xi)
      (-2 * k * cirVar y0 theta k xi s + xi ^ 2 * cirMean y0 theta k xi s) s := by
    intro t
    have h := (((hasDerivAt_exp_mul (-k) t).const_sub 1).const_mul (xi * xi / k)).mul
      (((hasDerivAt_exp_mul (-k) t).const_mul (y0 - theta / 2)).const_add (theta / 2))
    refine h.congr_deriv ?_
    simp only [cirVar, cirMean]
    field_simp
    ring
  have hmy : ∀ s, 0 ≤ s → 0 ≤ cirMean y0 theta k xi s := by
    intro s hs
    have e : cirMean y0 theta k xi s = k * theta * ((1 - exp (-k * s)) / k) + y0 * exp (-k * s) := by
      simp only [cirMean]; field_simp; ring
    rw [e]
    exact add_nonneg (mul_nonneg hth (decay_nonneg hs)) (mul_nonneg hy (exp_pos _).le)
  have := nonneg_of_deriv ht
    (F := fun s => hestonLogVar x0 mu sigma y0 theta k xi rho s -
      2 * (B s * hestonCov sigma y0 theta k xi rho s) + B s ^ 2 * cirVar y0 theta k xi s)
    (F' := fun s => cirMean y0 theta k xi s *
      (sigma ^ 2 - 2 * B s * (rho * sigma * xi) + B s ^ 2 * xi ^ 2)) ?_ ?_ ?_
  · have hBt : B t = 0 := by simp [hB]
    simpa [hBt] using this
  · simp only [hestonLogVar, hestonCov, cirVar, mul_zero, exp_zero]
    ring
  · intro s
    have h := ((hasDerivAt_hestonLogVar x0 mu sigma y0 theta xi rho s hk).sub
      (((hBd s).mul (hasDerivAt_hestonCov sigma y0 theta xi rho s hk)).const_mul 2)).add
      (((hBd s).pow 2).mul (hvy s))
    refine h.congr_deriv ?_
    simp only [hB, Pi.pow_apply, Nat.cast_ofNat, Nat.add_one_sub_one, pow_one]
    generalize hestonCov sigma y0 theta k xi rho s = c
    generalize cirVar y0 theta k xi s = vy
    generalize cirMean y0 theta k xi s = my
    generalize exp (-k * (t - s)) = al
    field_simp
    ring
  · intro s hs _
    have h1 := abs_le.1 hrho
    have h2 : rho ^ 2 ≤ 1 := by nlinarith
    refine mul_nonneg (hmy s hs) ?_
    nlinarith [sq_nonneg (sigma - rho * (B s * xi)), sq_nonneg (B s * xi)]

/-- The equations of the moments of the logarithm in the Heston process have one solution only. -/
theorem C53_heston_unique {x0 mu sigma y0 theta k xi rho : ℝ} {m v m' v' : ℝ → ℝ}
    (h : HestonEq x0 mu sigma y0 theta k xi rho m v)
    (h' : HestonEq x0 mu sigma y0 theta k xi rho m' v') : m = m' ∧ v = v' := by
  obtain ⟨my, vy, c, ⟨a1, a2⟩, ⟨b1, b2⟩, ⟨c1, c2⟩, ⟨d1, d2⟩, e1, e2⟩ := h
  obtain ⟨my', vy', c', ⟨a1', a2'⟩, ⟨b1', b2'⟩, ⟨c1', c2'⟩, ⟨d1', d2'⟩, e1', e2'⟩ := h'
  have uniq : ∀ (b : ℝ) (f g f' g' : ℝ → ℝ), f 0 = g 0 → (∀ t, HasDerivAt f (f' t) t) →
      (∀ t, HasDerivAt g (g' t) t) → (∀ t, f' t - g' t = b * (f t - g t)) → f = g := by
    intro b f g f' g' h0 hf hg hfg
    funext t
    have := linear_unique (c := b) (f := fun t => f t - g t) (by simp [h0])
      (fun t => by have := (hf t).sub (hg t); rwa [hfg t] at this) t
    linarith
  have hmy : my = my' := uniq (-k) _ _ _ _ (a1.trans a1'.symm) a2 a2' fun t => by ring
  subst hmy
  have hvy : vy = vy' := uniq (-2 * k) _ _ _ _ (b1.trans b1'.symm) b2 b2' fun t => by ring
  subst hvy
  have hc : c = c' := uniq (-k) _ _ _ _ (c1.trans c1'.symm) c2 c2' fun t => by ring
  subst hc
  exact ⟨uniq 0 _ _ _ _ (d1.trans d1'.symm) d2 d2' fun t => by ring,
    uniq 0 _ _ _ _ (e1.trans e1'.symm) e2 e2' fun t => by ring⟩

/-- The same for the Hull-White process with two factors. -/
theorem C53_hw2f_unique {x1 x2 theta1 theta2 k1 k2 s1 s2 rho : ℝ} {m v m' v' : ℝ → ℝ}
    (h : TwoFactorEq x1 x2 theta1 theta2 k1 k2 s1 s2 rho m v)
    (h' : TwoFactorEq x1 x2 theta1 theta2 k1 k2 s1 s2 rho m' v') : m = m' ∧ v = v' := by
  obtain ⟨m1, m2, v1, v2, v3, ⟨a1, a2⟩, ⟨b1, b2⟩, ⟨c1, c2⟩, ⟨d1, d2⟩, ⟨e1, e2⟩, rfl, rfl⟩ := h
  obtain ⟨m1', m2', v1', v2', v3', ⟨a1', a2'⟩, ⟨b1', b2'⟩, ⟨c1', c2'⟩, ⟨d1', d2'⟩, ⟨e1', e2'⟩,
    rfl, rfl⟩ := h'
  have uniq : ∀ (b : ℝ) (f g f' g' : ℝ → ℝ), f 0 = g 0 → (∀ t, HasDerivAt f (f' t) t) →
      (∀ t, HasDerivAt g (g' t) t) → (∀ t, f' t - g' t = b * (f t - g t)) → f = g := by
    intro b f g f' g' h0 hf hg hfg
    funext t
    have := linear_unique (c := b) (f := fun t => f t - g t) (by simp [h0])
      (fun t => by have := (hf t).sub (hg t); rwa [hfg t] at this) t
    linarith
  have h1 : m1 = m1' := uniq (-k1) _ _ _ _ (a1.trans a1'.symm) a2 a2' fun t => by ring
  have h2 : m2 = m2' := uniq (-k2) _ _ _ _ (b1.trans b1'.symm) b2 b2' fun t => by ring
  have h3 : v1 = v1' := uniq (-(k1 + k1)) _ _ _ _ (c1.trans c1'.symm) c2 c2' fun t => by ring
  have h4 : v2 = v2' := uniq (-(k1 + k2)) _ _ _ _ (d1.trans d1'.symm) d2 d2' fun t => by ring
  have h5 : v3 = v3' := uniq (-(k2 + k2)) _ _ _ _ (e1.trans e1'.symm) e2 e2' fun t => by ring
  subst h1; subst h2; subst h3; subst h4; subst h5
  exact ⟨rfl, rfl⟩

/-- Standard deviations are the square roots of the variances: their squares, for times `t >= 0`. -/
theorem C53_std {t : ℝ} (ht : 0 ≤ t) (x0 theta mu sigma xi : ℝ) {k : ℝ} (hk : k ≠ 0) :
    wienerSd x0 mu sigma t ^ 2 = wienerVar x0 mu sigma t ∧
    lognormSd x0 mu sigma t ^ 2 = lognormVar x0 mu sigma t ∧
    oruhSd x0 theta k sigma t ^ 2 = oruhVar x0 theta k sigma t ∧
    (0 ≤ x0 → 0 ≤ k * theta → cirSd x0 theta k xi t ^ 2 = cirVar x0 theta k xi t) := by
  obtain ⟨_, _, _, h1⟩ := C53_wiener x0 mu sigma
  obtain ⟨_, _, _, h2⟩ := C53_lognorm x0 mu sigma
  obtain ⟨_, _, _, h3⟩ := C53_oruh x0 theta sigma hk
  obtain ⟨_, _, _, h4⟩ := C53_cir x0 theta xi hk
  exact ⟨sq_sqrt (h1 t ht), sq_sqrt (h2 t ht), sq_sqrt (h3 t ht), fun a b => sq_sqrt (h4 a b t ht)⟩

/-- The same, for the process with two factors. -/
theorem C53_hw2f_std {t : ℝ} (ht : 0 ≤ t) (x1 x2 theta1 theta2 s1 s2 : ℝ) {k1 k2 rho : ℝ} (h1 : k1 ≠ 0)
    (h2 : k2 ≠ 0) (h12 : k1 + k2 ≠ 0) (hr : |rho| ≤ 1) :
    0 ≤ hw2fSd x1 x2 theta1 theta2 k1 k2 s1 s2 rho t ∧
    hw2fSd x1 x2 theta1 theta2 k1 k2 s1 s2 rho t ^ 2 = hw2fVar x1 x2 theta1 theta2 k1 k2 s1 s2 rho t := by
  obtain ⟨_, h⟩ := C53_hw2f x1 x2 theta1 theta2 s1 s2 rho h1 h2 h12
  exact ⟨sqrt_nonneg _, sq_sqrt (h hr t ht)⟩

/-! ### cases meeting the hypotheses -/

example := C53_hw2f_std (t := 2) (by norm_num) 1 2 3 4 5 6 (k1 := 7) (k2 := 8) (rho := -1 / 2) (by norm_num)
  (by norm_num) (by norm_num) (by norm_num [abs_le])

example : (2 : ℝ) ≠ 0 ∧ (0 : ℝ) ≤ 2 * 3 ∧ |(-1 / 2 : ℝ)| ≤ 1 := by
  refine ⟨by norm_num, by norm_num, ?_⟩
  rw [abs_le]; norm_num

/-- The variance is not null. -/
example : 0 < oruhVar 1 2 3 4 5 := by
  unfold oruhVar
  have : exp (-2 * 3 * 5) < 1 := by rw [exp_lt_one_iff]; norm_num
  have : (0 : ℝ) < 1 - exp (-2 * 3 * 5) := by linarith
  positivity

end Sdepy
