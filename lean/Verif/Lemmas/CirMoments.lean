import Verif.Lemmas.CirLaw
import Verif.Lemmas.StepMoments

/-!
# Mean and variance of the Euler scheme for square root processes
-/

set_option linter.unusedSectionVars false

open MeasureTheory ProbabilityTheory Real

namespace Sdepy

open Spec

variable {Ω : Type} [MeasurableSpace Ω] {P : Measure Ω} [IsProbabilityMeasure P]

/-- Covariance of affine functions of three variables. -/
theorem cov_affine3 {X Y W : Ω → ℝ} (hX : MemLp X 2 P) (hY : MemLp Y 2 P) (hW : MemLp W 2 P)
    (a1 b1 c1 d1 a2 b2 c2 d2 : ℝ) :
    cov[fun ω => a1 * X ω + b1 * Y ω + c1 * W ω + d1, fun ω => a2 * X ω + b2 * Y ω + c2 * W ω + d2; P] =
      a1 * a2 * cov[X, X; P] + b1 * b2 * cov[Y, Y; P] + c1 * c2 * cov[W, W; P] +
        (a1 * b2 + b1 * a2) * cov[X, Y; P] + (a1 * c2 + c1 * a2) * cov[X, W; P] +
        (b1 * c2 + c1 * b2) * cov[Y, W; P] := by
  have i1 : ∀ a b c : ℝ, MemLp (fun ω => a * X ω + b * Y ω + c * W ω) 2 P := fun a b c =>
    ((hX.const_mul a).add (hY.const_mul b)).add (hW.const_mul c)
  have i2 : ∀ a b : ℝ, MemLp (fun ω => a * X ω + b * Y ω) 2 P := fun a b =>
    (hX.const_mul a).add (hY.const_mul b)
  rw [covariance_add_const_left ((i1 a1 b1 c1).integrable one_le_two),
    covariance_add_const_right ((i1 a2 b2 c2).integrable one_le_two)]
  have l : ∀ {U : Ω → ℝ} (a b c : ℝ), MemLp U 2 P →
      cov[fun ω => a * X ω + b * Y ω + c * W ω, U; P] =
        a * cov[X, U; P] + b * cov[Y, U; P] + c * cov[W, U; P] := by
    intro U a b c hU
    have e : (fun ω => a * X ω + b * Y ω + c * W ω) =
      ((fun ω => a * X ω) + fun ω => b * Y ω) + fun ω => c * W ω := rfl
    rw [e, covariance_add_left ((hX.const_mul a).add (hY.const_mul b)) (hW.const_mul c) hU,
      covariance_add_left (hX.const_mul a) (hY.const_mul b) hU, covariance_const_mul_left,
      covariance_const_mul_left, covariance_const_mul_left]
  rw [l a1 b1 c1 (i1 a2 b2 c2), covariance_comm X, covariance_comm Y, covariance_comm W,
    l a2 b2 c2 hX, l a2 b2 c2 hY, l a2 b2 c2 hW, covariance_comm Y X, covariance_comm W X,
    covariance_comm W Y]
  ring

theorem max_eq_add (y : ℝ) : max y 0 = y + max (-y) 0 := by
  rcases le_total 0 y with h | h
  · rw [max_eq_left h, max_eq_right (by linarith), add_zero]
  · rw [max_eq_right h, max_eq_left (by linarith)]; ring

theorem gauss_noise {h : ℝ} {Z : Ω → ℝ} (hZ : HasLaw Z (gaussianReal 0 |h|.toNNReal) P) :
    MemLp Z 2 P ∧ ∫ ω, Z ω ∂P = 0 ∧ ∫ ω, Z ω * Z ω ∂P = |h| := by
  have hm : MemLp Z 2 P := by
    have := memLp_id_gaussianReal (μ := 0) (v := |h|.toNNReal) 2
    rw [← hZ.map_eq, memLp_map_measure_iff (by fun_prop) hZ.aemeasurable] at this
    exact this
  have h1 : ∫ ω, Z ω ∂P = 0 := by
    have : ∫ ω, Z ω ∂P = ∫ x, x ∂P.map Z := by
      rw [integral_map hZ.aemeasurable (by fun_prop)]
    rw [this, hZ.map_eq]; simp
  refine ⟨hm, h1, ?_⟩
  have h2 : Var[Z; P] = |h| := by
    rw [hZ.variance_eq, variance_id_gaussianReal, Real.coe_toNNReal _ (abs_nonneg h)]
  rw [variance_eq_sub hm, h1] at h2
  simpa [pow_two] using h2

/-- What is known of a simulated value: it is square integrable, and not far below zero. -/
structure NearPos (P : Measure Ω) (β δ : ℝ) (Y : Ω → ℝ) : Prop where
  meas : Measurable Y
  l2 : MemLp Y 2 P
  neg : MemLp (fun ω => max (-Y ω) 0) 2 P
  mean : ∫ ω, max (-Y ω) 0 ∂P ≤ β * δ
  sq : ∫ ω, max (-Y ω) 0 ^ 2 ∂P ≤ β * δ ^ 2

section
variable {β δ : ℝ} {Y : Ω → ℝ}

theorem NearPos.pos_l2 (h : NearPos P β δ Y) : MemLp (fun ω => max (Y ω) 0) 2 P := by
  rw [show (fun ω => max (Y ω) 0) = fun ω => Y ω + max (-Y ω) 0 from funext fun ω => max_eq_add (Y ω)]
  exact h.l2.add h.neg

theorem NearPos.sqrt_l2 (h : NearPos P β δ Y) : MemLp (fun ω => √(max (Y ω) 0)) 2 P := by
  have hm : Measurable fun ω => √(max (Y ω) 0) := by have := h.meas; fun_prop
  refine (memLp_two_iff_integrable_sq hm.aestronglyMeasurable).2 ?_
  refine (h.pos_l2.integrable one_le_two).congr (Filter.Eventually.of_forall fun ω => ?_)
  simp only
  rw [sq_sqrt (le_max_right _ _)]

theorem NearPos.pos_mean (h : NearPos P β δ Y) :
    ∫ ω, max (Y ω) 0 ∂P = ∫ ω, Y ω ∂P + ∫ ω, max (-Y ω) 0 ∂P := by
  rw [show (fun ω => max (Y ω) 0) = fun ω => Y ω + max (-Y ω) 0 from funext fun ω => max_eq_add (Y ω)]
  exact integral_add (h.l2.integrable one_le_two) (h.neg.integrable one_le_two)

theorem NearPos.mean_nonneg (_ : NearPos P β δ Y) : 0 ≤ ∫ ω, max (-Y ω) 0 ∂P :=
  integral_nonneg fun ω => le_max_right _ _

theorem NearPos.sqrt_sq (h : NearPos P β δ Y) (a b : ℝ) :
    ∫ ω, a * √(max (Y ω) 0) * (b * √(max (Y ω) 0)) ∂P =
      a * b * (∫ ω, Y ω ∂P + ∫ ω, max (-Y ω) 0 ∂P) := by
  rw [← h.pos_mean, ← integral_const_mul]
  refine integral_congr_ae (Filter.Eventually.of_forall fun ω => ?_)
  simp only
  have := mul_self_sqrt (le_max_right (Y ω) 0)
  calc _ = a * b * (√(max (Y ω) 0) * √(max (Y ω) 0)) := by ring
    _ = _ := by rw [this]

/-- Covariance of a value with its part below zero. -/
theorem NearPos.cov_neg (h : NearPos P β δ Y) (hδ : 0 ≤ δ) (hδ1 : δ ≤ 1) :
    |cov[Y, fun ω => max (-Y ω) 0; P]| ≤ β * δ * (1 + |∫ ω, Y ω ∂P|) := by
  rw [covariance_eq_sub h.l2 h.neg]
  have e : ∫ ω, (Y * fun ω => max (-Y ω) 0) ω ∂P = -∫ ω, max (-Y ω) 0 ^ 2 ∂P := by
    rw [← integral_neg]
    refine integral_congr_ae (Filter.Eventually.of_forall fun ω => ?_)
    simp only [Pi.mul_apply]
    rcases le_total 0 (Y ω) with h | h
    · rw [max_eq_right (by linarith)]; simp
    · rw [max_eq_left (by linarith)]; ring
  rw [e]
  have n0 := h.mean_nonneg
  have q0 : 0 ≤ ∫ ω, max (-Y ω) 0 ^ 2 ∂P := integral_nonneg fun ω => sq_nonneg _
  have h2 := h.sq
  have hβ : 0 ≤ β * δ := n0.trans h.mean
  have h3 : β * δ ^ 2 ≤ β * δ := by
    have := mul_le_mul_of_nonneg_left hδ1 hβ
    linarith [show β * δ * δ = β * δ ^ 2 by ring]
  calc _ ≤ |-∫ ω, max (-Y ω) 0 ^ 2 ∂P| + |(∫ ω, Y ω ∂P) * ∫ ω, max (-Y ω) 0 ∂P| := abs_sub _ _
    _ ≤ β * δ + |∫ ω, Y ω ∂P| * (β * δ) := by
        rw [abs_neg, abs_of_nonneg q0, abs_mul, abs_of_nonneg n0]
        have := mul_le_mul_of_nonneg_left h.mean (abs_nonneg (∫ ω, Y ω ∂P))
        linarith
    _ = _ := by ring

/-- Variance of the part below zero. -/
theorem NearPos.var_neg (h : NearPos P β δ Y) :
    0 ≤ cov[fun ω => max (-Y ω) 0, fun ω => max (-Y ω) 0; P] ∧
      cov[fun ω => max (-Y ω) 0, fun ω => max (-Y ω) 0; P] ≤ β * δ ^ 2 := by
  rw [covariance_self h.neg.aestronglyMeasurable.aemeasurable]
  refine ⟨variance_nonneg _ _, ?_⟩
  rw [variance_eq_sub h.neg]
  have := h.sq
  have e : ∫ ω, ((fun ω => max (-Y ω) 0) ^ 2) ω ∂P = ∫ ω, max (-Y ω) 0 ^ 2 ∂P := rfl
  rw [e]
  nlinarith [sq_nonneg (∫ ω, max (-Y ω) 0 ∂P)]

/-- The step of the mean. -/
theorem NearPos.mean_step (h : NearPos P β δ Y) (theta k xi d : ℝ) {Z : Ω → ℝ} (hi : IndepFun Y Z P)
    (hZ : HasLaw Z (gaussianReal 0 |d|.toNNReal) P) :
    ∫ ω, cirStep theta k xi d (Y ω) (Z ω) ∂P =
      ∫ ω, Y ω ∂P + k * (theta - (∫ ω, Y ω ∂P + ∫ ω, max (-Y ω) 0 ∂P)) * d := by
  obtain ⟨z1, z2, z3⟩ := gauss_noise hZ
  have := Sdepy.mean_step (Z := Z) hi (f := fun y => y + k * (theta - max y 0) * d)
    (g := fun y => xi * √(max y 0)) (ζ := id) (by fun_prop) measurable_id
    (h.l2.add ((((memLp_const theta).sub h.pos_l2).const_mul k).mul_const d))
    (h.sqrt_l2.const_mul xi) z1 z2
  simp only [id] at this
  rw [show (fun ω => cirStep theta k xi d (Y ω) (Z ω)) = fun ω => Y ω + k * (theta - max (Y ω) 0) * d +
    xi * √(max (Y ω) 0) * Z ω from rfl, this]
  have hd : MemLp (fun ω => k * (theta - max (Y ω) 0) * d) 2 P :=
    (((memLp_const theta).sub h.pos_l2).const_mul k).mul_const d
  rw [integral_add (h.l2.integrable one_le_two) (hd.integrable one_le_two), integral_mul_const, integral_const_mul, integral_sub (integrable_const _)
    (h.pos_l2.integrable one_le_two), h.pos_mean]
  simp

theorem NearPos.step_l2 (h : NearPos P β δ Y) (theta k xi d : ℝ) {Z : Ω → ℝ} (hi : IndepFun Y Z P)
    (hZ : HasLaw Z (gaussianReal 0 |d|.toNNReal) P) :
    MemLp (fun ω => cirStep theta k xi d (Y ω) (Z ω)) 2 P :=
  (h.l2.add ((((memLp_const theta).sub h.pos_l2).const_mul k).mul_const d)).add
    (noise_memLp (Z := Z) hi (g := fun y => xi * √(max y 0)) (ζ := id) (by fun_prop) measurable_id
      (h.sqrt_l2.const_mul xi) (gauss_noise hZ).1)

/-- The step of the variance. -/
theorem NearPos.var_step (h : NearPos P β δ Y) (theta k xi d : ℝ) {Z : Ω → ℝ} (hi : IndepFun Y Z P)
    (hZ : HasLaw Z (gaussianReal 0 |d|.toNNReal) P) :
    Var[fun ω => cirStep theta k xi d (Y ω) (Z ω); P] =
      (1 - k * d) ^ 2 * Var[Y; P] + (k * d) ^ 2 * cov[fun ω => max (-Y ω) 0, fun ω => max (-Y ω) 0; P] -
        2 * (1 - k * d) * (k * d) * cov[Y, fun ω => max (-Y ω) 0; P] +
        xi ^ 2 * |d| * (∫ ω, Y ω ∂P + ∫ ω, max (-Y ω) 0 ∂P) := by
  obtain ⟨z1, z2, z3⟩ := gauss_noise hZ
  have hd := h.l2.add ((((memLp_const theta).sub h.pos_l2).const_mul k).mul_const d)
  have key := cov_step (Z := Z) hi (f1 := fun y => y + k * (theta - max y 0) * d)
    (f2 := fun y => y + k * (theta - max y 0) * d)
    (g1 := fun y => xi * √(max y 0)) (g2 := fun y => xi * √(max y 0)) (ζ1 := id) (ζ2 := id)
    (by fun_prop) (by fun_prop) (by fun_prop) (by fun_prop) measurable_id measurable_id
    hd hd (h.sqrt_l2.const_mul xi) (h.sqrt_l2.const_mul xi) z1 z1 z2 z2
  simp only [id] at key
  rw [← covariance_self (h.step_l2 theta k xi d hi hZ).aestronglyMeasurable.aemeasurable]
  rw [show (fun ω => cirStep theta k xi d (Y ω) (Z ω)) = fun ω => Y ω + k * (theta - max (Y ω) 0) * d +
    xi * √(max (Y ω) 0) * Z ω from rfl, key, z3, h.sqrt_sq]
  have e : (fun ω => Y ω + k * (theta - max (Y ω) 0) * d) = fun ω =>
      0 * Y ω + (1 - k * d) * Y ω + (-(k * d)) * max (-Y ω) 0 + k * theta * d := by
    funext ω
    rw [max_eq_add (Y ω)]; ring
  rw [e, cov_affine3 h.l2 h.l2 h.neg, covariance_self h.l2.aestronglyMeasurable.aemeasurable]
  ring

theorem NearPos.beta_nonneg (h : NearPos P β δ Y) : 0 ≤ β * δ := h.mean_nonneg.trans h.mean

/-- How much the steps of mean and variance differ from those of the Euler scheme for their
equations. -/
theorem NearPos.step_error (h : NearPos P β δ Y) (hδ1 : δ ≤ 1) {k : ℝ} (hk : 0 ≤ k) (theta xi : ℝ)
    {d : ℝ} (hd0 : 0 ≤ d) (hd : d ≤ δ) (hβ : 0 ≤ β) {Z : Ω → ℝ} (hi : IndepFun Y Z P)
    (hZ : HasLaw Z (gaussianReal 0 |d|.toNNReal) P) :
    |∫ ω, cirStep theta k xi d (Y ω) (Z ω) ∂P - ∫ ω, Y ω ∂P - d * (k * (theta - ∫ ω, Y ω ∂P))| ≤
      k * β * δ * d ∧
    |Var[fun ω => cirStep theta k xi d (Y ω) (Z ω); P] - Var[Y; P] -
        d * (-2 * k * Var[Y; P] + xi ^ 2 * ∫ ω, Y ω ∂P)| ≤
      (k ^ 2 + k ^ 2 * β + 2 * (1 + k) * k * β + xi ^ 2 * β) * δ * d *
        (1 + max |∫ ω, Y ω ∂P| |Var[Y; P]|) := by
  have hδ0 : 0 ≤ δ := hd0.trans hd
  have n0 := h.mean_nonneg
  have n1 := h.mean
  obtain ⟨w0, w1⟩ := h.var_neg
  have hc := h.cov_neg hδ0 hδ1
  rw [h.mean_step theta k xi d hi hZ, h.var_step theta k xi d hi hZ]
  have hV0 : 0 ≤ Var[Y; P] := variance_nonneg _ _
  set m := ∫ ω, Y ω ∂P
  set n := ∫ ω, max (-Y ω) 0 ∂P
  set V := Var[Y; P]
  set c := cov[Y, fun ω => max (-Y ω) 0; P]
  set w := cov[fun ω => max (-Y ω) 0, fun ω => max (-Y ω) 0; P]
  constructor
  · rw [show m + k * (theta - (m + n)) * d - m - d * (k * (theta - m)) = -(k * d * n) by ring, abs_neg,
      abs_of_nonneg (by positivity)]
    calc k * d * n ≤ k * d * (β * δ) := by gcongr
      _ = _ := by ring
  · rw [abs_of_nonneg hd0]
    set S := 1 + max |m| |V| with hS
    have S1 : 1 + |m| ≤ S := by rw [hS]; gcongr; exact le_max_left _ _
    have S2 : V ≤ S := by
      rw [hS]
      linarith [le_max_right |m| |V|, le_abs_self V]
    have S0 : 1 ≤ S := by linarith [abs_nonneg m]
    have e : (1 - k * d) ^ 2 * V + (k * d) ^ 2 * w - 2 * (1 - k * d) * (k * d) * c +
        xi ^ 2 * d * (m + n) - V - d * (-2 * k * V + xi ^ 2 * m) =
        k ^ 2 * d * d * V + k ^ 2 * d * d * w + (-(2 * (1 - k * d) * (k * d) * c)) + xi ^ 2 * d * n := by
      ring
    rw [e]
    have t1 : |k ^ 2 * d * d * V| ≤ k ^ 2 * δ * d * S := by
      rw [abs_of_nonneg (by positivity)]
      gcongr
    have t2 : |k ^ 2 * d * d * w| ≤ k ^ 2 * β * δ * d * S := by
      rw [abs_of_nonneg (by positivity)]
      calc k ^ 2 * d * d * w ≤ k ^ 2 * 1 * d * (β * δ ^ 2) := by gcongr; exact hd.trans hδ1
        _ = k ^ 2 * β * δ * d * δ := by ring
        _ ≤ k ^ 2 * β * δ * d * S := by gcongr; exact hδ1.trans S0
    have t3 : |-(2 * (1 - k * d) * (k * d) * c)| ≤ 2 * (1 + k) * k * β * δ * d * S := by
      rw [abs_neg, abs_mul, abs_mul, abs_mul, abs_two, abs_of_nonneg (by positivity : 0 ≤ k * d)]
      have : |1 - k * d| ≤ 1 + k := by
        calc |1 - k * d| ≤ |1| + |k * d| := abs_sub _ _
          _ ≤ 1 + k := by
            rw [abs_one, abs_of_nonneg (by positivity)]
            have := mul_le_mul_of_nonneg_left (hd.trans hδ1) hk
            linarith
      calc 2 * |1 - k * d| * (k * d) * |c| ≤ 2 * (1 + k) * (k * d) * (β * δ * S) := by
            gcongr
            exact hc.trans (by gcongr)
        _ = _ := by ring
    have t4 : |xi ^ 2 * d * n| ≤ xi ^ 2 * β * δ * d * S := by
      rw [abs_of_nonneg (by positivity)]
      calc xi ^ 2 * d * n ≤ xi ^ 2 * d * (β * δ) * 1 := by rw [mul_one]; gcongr
        _ ≤ xi ^ 2 * d * (β * δ) * S := by gcongr
        _ = _ := by ring
    calc _ ≤ |k ^ 2 * d * d * V| + |k ^ 2 * d * d * w| + |-(2 * (1 - k * d) * (k * d) * c)| +
          |xi ^ 2 * d * n| := (abs_add_le _ _).trans (add_le_add ((abs_add_le _ _).trans
            (add_le_add (abs_add_le _ _) le_rfl)) le_rfl)
      _ ≤ _ := by linarith

end

/-- Exponential moment of the part of simulated values that is below zero. -/
theorem cir_below {theta k xi c : ℝ} (hth : 0 < theta) (hk : 0 < k) (hc : 0 < c)
    (hxi : c * xi ^ 2 ≤ 1) {grid : List ℝ} (hg : grid.Pairwise (· < ·)) {t0 : ℝ} (h0 : t0 ∈ grid)
    {δ : ℝ} (hm : Mesh grid δ) (hδ : 0 < δ) (hkd : k * δ ≤ 1 / 2) {Y : ℝ → Ω → ℝ} {y0 : ℝ} (hy : 0 ≤ y0)
    (hs : ∀ ω, Y t0 ω = y0) (hY : ∀ u ∈ grid, Measurable (Y u))
    (hstep : ∀ a b, StepOf grid t0 a b → t0 ≤ a → a < b → ∃ Z : Ω → ℝ, Measurable Z ∧
      HasLaw Z (gaussianReal 0 |b - a|.toNNReal) P ∧ IndepFun (Y a) Z P ∧
      ∀ ω, Y b ω = cirStep theta k xi (b - a) (Y a ω) (Z ω)) :
    ∀ u ∈ grid, t0 ≤ u → ∫⁻ ω, ENNReal.ofReal (below (δ / c) (Y u ω)) ∂P ≤
      ENNReal.ofReal (1 / (1 - exp (-(c * k * theta)))) := by
  set M := 1 / (1 - exp (-(c * k * theta))) with hM
  have ha : 0 < c * k * theta := by positivity
  have hM0 : 0 ≤ M := by
    have : exp (-(c * k * theta)) < 1 := by rw [exp_lt_one_iff]; linarith
    rw [hM]
    exact (one_div_pos.2 (by linarith)).le
  have hdc : 0 < δ / c := by positivity
  refine grid_induction hg h0 ?_ ?_
  · have : below (δ / c) y0 = 0 := by
      unfold below
      rw [max_eq_right (by linarith)]; simp
    simp [hs, this]
  · intro a b hst ha0 hab ih
    obtain ⟨Z, z1, z2, z3, z4⟩ := hstep a b hst ha0 hab
    have hh : 0 < b - a := by linarith
    rw [abs_of_pos hh] at z2
    have hd : b - a ≤ δ := by
      obtain ⟨m1, m2, ⟨-, -, h3⟩ | ⟨-, h2, -⟩⟩ := hst
      · exact hm a m1 b m2 hab h3
      · exact absurd hab (not_lt.2 h2.le)
    have hb := below_step hth hk hc hxi hh hd hkd (hY a hst.1) z1 z2 z3
    simp only [← z4] at hb
    refine hb.trans ?_
    have hq := below_bound ha (q := (b - a) / δ) (by positivity) ((div_le_one hδ).2 hd)
    calc _ ≤ ENNReal.ofReal (exp (-(c * k * theta) * ((b - a) / δ))) * ENNReal.ofReal M +
          ENNReal.ofReal ((b - a) / δ) := by gcongr
      _ = ENNReal.ofReal (exp (-(c * k * theta) * ((b - a) / δ)) * M + (b - a) / δ) := by
          rw [ENNReal.ofReal_add (mul_nonneg (exp_pos _).le hM0) (by positivity),
            ENNReal.ofReal_mul (exp_pos _).le]
      _ ≤ _ := ENNReal.ofReal_le_ofReal hq

/-- Values simulated along a grid are not far below zero. -/
theorem cir_nearPos {theta k xi c : ℝ} (hth : 0 < theta) (hk : 0 < k) (hc : 0 < c)
    (hxi : c * xi ^ 2 ≤ 1) {grid : List ℝ} (hg : grid.Pairwise (· < ·)) {t0 : ℝ} (h0 : t0 ∈ grid)
    {δ : ℝ} (hm : Mesh grid δ) (hδ : 0 < δ) (hkd : k * δ ≤ 1 / 2) {Y : ℝ → Ω → ℝ} {y0 : ℝ} (hy : 0 ≤ y0)
    (hs : ∀ ω, Y t0 ω = y0) (hY : ∀ u ∈ grid, Measurable (Y u))
    (hstep : ∀ a b, StepOf grid t0 a b → t0 ≤ a → a < b → ∃ Z : Ω → ℝ, Measurable Z ∧
      HasLaw Z (gaussianReal 0 |b - a|.toNNReal) P ∧ IndepFun (Y a) Z P ∧
      ∀ ω, Y b ω = cirStep theta k xi (b - a) (Y a ω) (Z ω)) :
    ∀ u ∈ grid, t0 ≤ u → NearPos P
      (max (1 / (1 - exp (-(c * k * theta))) * (1 / c)) (2 * (1 / (1 - exp (-(c * k * theta)))) * (1 / c) ^ 2))
      δ (Y u) := by
  set M := 1 / (1 - exp (-(c * k * theta))) with hM
  have ha : 0 < c * k * theta := by positivity
  have hM0 : 0 ≤ M := by
    have : exp (-(c * k * theta)) < 1 := by rw [exp_lt_one_iff]; linarith
    rw [hM]
    exact (one_div_pos.2 (by linarith)).le
  have hdc : 0 < δ / c := by positivity
  have h1 := cir_below hth hk hc hxi hg h0 hm hδ hkd hy hs hY hstep
  set β := max (M * (1 / c)) (2 * M * (1 / c) ^ 2) with hβ
  have h2 : ∀ u ∈ grid, t0 ≤ u → MemLp (Y u) 2 P → NearPos P β δ (Y u) := by
    intro u hu hle hl
    obtain ⟨b1, b2, b3⟩ := below_moments hdc (hY u hu) (h1 u hu hle) hM0
    refine ⟨hY u hu, hl, b1, b2.trans ?_, b3.trans ?_⟩
    · calc M * (δ / c) = M * (1 / c) * δ := by ring
        _ ≤ β * δ := by gcongr; exact le_max_left _ _
    · calc 2 * M * (δ / c) ^ 2 = 2 * M * (1 / c) ^ 2 * δ ^ 2 := by ring
        _ ≤ β * δ ^ 2 := by gcongr; exact le_max_right _ _
  intro u hu hle
  refine h2 u hu hle ?_
  refine grid_induction hg h0 (Q := fun u => MemLp (Y u) 2 P) ?_ ?_ u hu hle
  · have : Y t0 = fun _ => y0 := funext hs
    rw [this]
    exact memLp_const _
  · intro a b hst ha0 hab ih
    obtain ⟨Z, z1, z2, z3, z4⟩ := hstep a b hst ha0 hab
    have hn := h2 a hst.1 ha0 ih
    have : Y b = fun ω => cirStep theta k xi (b - a) (Y a ω) (Z ω) := funext z4
    rw [this]
    exact hn.step_l2 theta k xi (b - a) z3 z2

/-- The same, with a bound that only depends on the parameters. -/
theorem cir_near {theta k : ℝ} (hth : 0 < theta) (hk : 0 < k) (xi : ℝ) :
    ∃ β > 0, ∀ (Ω : Type) [MeasurableSpace Ω] (P : Measure Ω) [IsProbabilityMeasure P]
      (grid : List ℝ) (t0 δ : ℝ) (Y : ℝ → Ω → ℝ) (y0 : ℝ), grid.Pairwise (· < ·) → t0 ∈ grid →
      Mesh grid δ → 0 < δ → δ ≤ 1 / (2 * k) → 0 ≤ y0 → (∀ ω, Y t0 ω = y0) →
      (∀ u ∈ grid, Measurable (Y u)) →
      (∀ a b, StepOf grid t0 a b → t0 ≤ a → a < b → ∃ Z : Ω → ℝ, Measurable Z ∧
        HasLaw Z (gaussianReal 0 |b - a|.toNNReal) P ∧ IndepFun (Y a) Z P ∧
        ∀ ω, Y b ω = cirStep theta k xi (b - a) (Y a ω) (Z ω)) →
      ∀ u ∈ grid, t0 ≤ u → NearPos P β δ (Y u) := by
  have hc : (0 : ℝ) < 1 / (1 + xi ^ 2) := by positivity
  have hcx : 1 / (1 + xi ^ 2) * xi ^ 2 ≤ 1 := by
    rw [div_mul_eq_mul_div, one_mul, div_le_one (by positivity)]; linarith
  have hM : 0 < 1 / (1 - exp (-(1 / (1 + xi ^ 2) * k * theta))) := by
    have : exp (-(1 / (1 + xi ^ 2) * k * theta)) < 1 := by
      rw [exp_lt_one_iff]
      have : 0 < 1 / (1 + xi ^ 2) * k * theta := by positivity
      linarith
    exact one_div_pos.2 (by linarith)
  refine ⟨max (1 / (1 - exp (-(1 / (1 + xi ^ 2) * k * theta))) * (1 / (1 / (1 + xi ^ 2))))
    (2 * (1 / (1 - exp (-(1 / (1 + xi ^ 2) * k * theta)))) * (1 / (1 / (1 + xi ^ 2))) ^ 2),
    lt_max_of_lt_left (mul_pos hM (one_div_pos.2 hc)), ?_⟩
  intro Ω _ P _ grid t0 δ Y y0 hg h0 hm hδ hkd hy hs hY hstep
  exact cir_nearPos hth hk hc hcx hg h0 hm hδ
    (by rw [le_div_iff₀ (by positivity)] at hkd; linarith) hy hs hY hstep

end Sdepy
