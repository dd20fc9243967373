import Verif.Lemmas.CirMoments
import Verif.Spec.HestonLaw

/-!
# Moments of the Euler scheme for the Heston process
-/

set_option linter.unusedSectionVars false

open MeasureTheory ProbabilityTheory Real

namespace Sdepy

open Spec

variable {Ω : Type} [MeasurableSpace Ω] {P : Measure Ω} [IsProbabilityMeasure P]

section
variable {β δ : ℝ} {A Y : Ω → ℝ}

/-- Covariance of any variate with the part of a value that is below zero. -/
theorem NearPos.cov_any (h : NearPos P β δ Y) (hA : MemLp A 2 P) (hδ : 0 < δ) :
    |cov[A, fun ω => max (-Y ω) 0; P]| ≤ δ * (Var[A; P] + β) / 2 := by
  obtain ⟨w0, w1⟩ := h.var_neg
  have key : ∀ s : ℝ, s ^ 2 = 1 → 0 ≤ δ ^ 2 * Var[A; P] + β * δ ^ 2 +
      2 * s * δ * cov[A, fun ω => max (-Y ω) 0; P] := by
    intro s hs
    have e := cov_affine3 hA h.neg h.neg δ s 0 0 δ s 0 0
    have hm : AEMeasurable (fun ω => δ * A ω + s * max (-Y ω) 0 + 0 * max (-Y ω) 0 + 0) P := by
      have := hA.aestronglyMeasurable.aemeasurable
      have := h.neg.aestronglyMeasurable.aemeasurable
      fun_prop
    rw [covariance_self hm, covariance_self hA.aestronglyMeasurable.aemeasurable] at e
    have := variance_nonneg (fun ω => δ * A ω + s * max (-Y ω) 0 + 0 * max (-Y ω) 0 + 0) P
    rw [e] at this
    nlinarith
  have k1 := key 1 (by norm_num)
  have k2 := key (-1) (by norm_num)
  set D := cov[A, fun ω => max (-Y ω) 0; P]
  rw [abs_le]
  constructor
  · by_contra hc
    push Not at hc
    nlinarith
  · by_contra hc
    push Not at hc
    nlinarith

variable {rho : ℝ} {Z : Ω → ℝ × ℝ} {h : ℝ}

/-- What is used of the noise. -/
theorem corr_noise {N : Measure (ℝ × ℝ)} (hN : CorrNoise rho |h| N) (hm : Measurable Z)
    (hZ : HasLaw Z N P) :
    HasLaw (fun ω => (Z ω).1) (gaussianReal 0 |h|.toNNReal) P ∧
    HasLaw (fun ω => (Z ω).2) (gaussianReal 0 |h|.toNNReal) P ∧
    ∫ ω, (Z ω).1 * (Z ω).2 ∂P = rho * |h| := by
  have hN' := hZ.map_eq
  refine ⟨⟨by fun_prop, ?_⟩, ⟨by fun_prop, ?_⟩, ?_⟩
  · rw [← hN.fst, ← hN', Measure.map_map (by fun_prop) hm]; rfl
  · rw [← hN.snd, ← hN', Measure.map_map (by fun_prop) hm]; rfl
  · rw [← hN.corr, ← hN', integral_map hm.aemeasurable (by fun_prop)]

/-- Drift of the logarithm. -/
noncomputable def hestonLogDrift (mu sigma h : ℝ) (p : ℝ × ℝ) : ℝ :=
  p.1 + (mu - sigma ^ 2 * max p.2 0 / 2) * h

/-- Drift of the variance. -/
noncomputable def volDrift (theta k h : ℝ) (p : ℝ × ℝ) : ℝ := p.2 + k * (theta - max p.2 0) * h

theorem measurable_logDrift (mu sigma h : ℝ) : Measurable (hestonLogDrift mu sigma h) := by
  unfold hestonLogDrift; fun_prop

theorem measurable_volDrift (theta k h : ℝ) : Measurable (volDrift theta k h) := by
  unfold volDrift; fun_prop

theorem NearPos.logDrift_l2 (hn : NearPos P β δ Y) (hA : MemLp A 2 P) (mu sigma h : ℝ) :
    MemLp (fun ω => hestonLogDrift mu sigma h (A ω, Y ω)) 2 P := by
  have : (fun ω => hestonLogDrift mu sigma h (A ω, Y ω)) = fun ω => A ω +
      (mu - sigma ^ 2 / 2 * max (Y ω) 0) * h := by
    funext ω; unfold hestonLogDrift; ring
  rw [this]
  exact hA.add (((memLp_const mu).sub (hn.pos_l2.const_mul _)).mul_const h)

theorem NearPos.volDrift_l2 (hn : NearPos P β δ Y) (theta k h : ℝ) :
    MemLp (fun ω => volDrift theta k h (A ω, Y ω)) 2 P :=
  hn.l2.add ((((memLp_const theta).sub hn.pos_l2).const_mul k).mul_const h)

theorem NearPos.log_l2 (hn : NearPos P β δ Y) (hA : MemLp A 2 P) (mu sigma theta k xi h : ℝ)
    (hi : IndepFun (fun ω => (A ω, Y ω)) Z P)
    (hZ : HasLaw (fun ω => (Z ω).1) (gaussianReal 0 |h|.toNNReal) P) :
    MemLp (fun ω => (hestonStep mu sigma theta k xi h (A ω, Y ω) (Z ω)).1) 2 P :=
  (hn.logDrift_l2 hA mu sigma h).add
    (noise_memLp hi (g := fun p => sigma * √(max p.2 0)) (ζ := Prod.fst) (by fun_prop) measurable_fst
      (hn.sqrt_l2.const_mul sigma) (gauss_noise hZ).1)

/-- The step of the mean of the logarithm. -/
theorem NearPos.log_mean (hn : NearPos P β δ Y) (hA : MemLp A 2 P) (mu sigma theta k xi h : ℝ)
    (hi : IndepFun (fun ω => (A ω, Y ω)) Z P)
    (hZ : HasLaw (fun ω => (Z ω).1) (gaussianReal 0 |h|.toNNReal) P) :
    ∫ ω, (hestonStep mu sigma theta k xi h (A ω, Y ω) (Z ω)).1 ∂P = ∫ ω, A ω ∂P +
      (mu - sigma ^ 2 / 2 * (∫ ω, Y ω ∂P + ∫ ω, max (-Y ω) 0 ∂P)) * h := by
  obtain ⟨z1, z2, -⟩ := gauss_noise hZ
  have e := Sdepy.mean_step hi (f := hestonLogDrift mu sigma h) (g := fun p => sigma * √(max p.2 0))
    (ζ := Prod.fst) (by fun_prop) measurable_fst (hn.logDrift_l2 hA mu sigma h)
    (hn.sqrt_l2.const_mul sigma) z1 z2
  have e2 : ∫ ω, (hestonStep mu sigma theta k xi h (A ω, Y ω) (Z ω)).1 ∂P =
    ∫ ω, hestonLogDrift mu sigma h (A ω, Y ω) ∂P := e
  rw [e2]
  have : (fun ω => hestonLogDrift mu sigma h (A ω, Y ω)) = fun ω => A ω +
      (mu - sigma ^ 2 / 2 * max (Y ω) 0) * h := by
    funext ω; unfold hestonLogDrift; ring
  rw [this]
  have hd : MemLp (fun ω => (mu - sigma ^ 2 / 2 * max (Y ω) 0) * h) 2 P :=
    ((memLp_const mu).sub (hn.pos_l2.const_mul _)).mul_const h
  rw [integral_add (hA.integrable one_le_two) (hd.integrable one_le_two), integral_mul_const,
    integral_sub (integrable_const _) ((hn.pos_l2.integrable one_le_two).const_mul _),
    integral_const_mul, hn.pos_mean]
  simp

theorem logDrift_affine (mu sigma h : ℝ) : (fun ω => hestonLogDrift mu sigma h (A ω, Y ω)) = fun ω =>
    1 * A ω + (-(sigma ^ 2 * h / 2)) * Y ω + (-(sigma ^ 2 * h / 2)) * max (-Y ω) 0 + mu * h := by
  funext ω
  unfold hestonLogDrift
  rw [max_eq_add (Y ω)]
  ring

theorem volDrift_affine (theta k h : ℝ) : (fun ω => volDrift theta k h (A ω, Y ω)) = fun ω =>
    0 * A ω + (1 - k * h) * Y ω + (-(k * h)) * max (-Y ω) 0 + k * theta * h := by
  funext ω
  unfold volDrift
  rw [max_eq_add (Y ω)]
  ring

/-- The step of the covariance of logarithm and variance. -/
theorem NearPos.log_cov (hn : NearPos P β δ Y) (hA : MemLp A 2 P) (mu sigma theta k xi h : ℝ)
    (hi : IndepFun (fun ω => (A ω, Y ω)) Z P)
    (hZ1 : HasLaw (fun ω => (Z ω).1) (gaussianReal 0 |h|.toNNReal) P)
    (hZ2 : HasLaw (fun ω => (Z ω).2) (gaussianReal 0 |h|.toNNReal) P)
    (hr : ∫ ω, (Z ω).1 * (Z ω).2 ∂P = rho * |h|) :
    cov[fun ω => (hestonStep mu sigma theta k xi h (A ω, Y ω) (Z ω)).1,
      fun ω => (hestonStep mu sigma theta k xi h (A ω, Y ω) (Z ω)).2; P] =
      -(sigma ^ 2 * h / 2) * (1 - k * h) * Var[Y; P] +
        sigma ^ 2 * h / 2 * (k * h) * cov[fun ω => max (-Y ω) 0, fun ω => max (-Y ω) 0; P] +
        (1 - k * h) * cov[A, Y; P] - k * h * cov[A, fun ω => max (-Y ω) 0; P] +
        (sigma ^ 2 * h / 2 * (k * h) - sigma ^ 2 * h / 2 * (1 - k * h)) *
          cov[Y, fun ω => max (-Y ω) 0; P] +
        rho * sigma * xi * |h| * (∫ ω, Y ω ∂P + ∫ ω, max (-Y ω) 0 ∂P) := by
  obtain ⟨z1, z2, -⟩ := gauss_noise hZ1
  obtain ⟨u1, u2, -⟩ := gauss_noise hZ2
  have e := cov_step hi (f1 := hestonLogDrift mu sigma h) (g1 := fun p => sigma * √(max p.2 0))
    (f2 := volDrift theta k h) (g2 := fun p => xi * √(max p.2 0))
    (ζ1 := Prod.fst) (ζ2 := Prod.snd) (measurable_logDrift _ _ _) (measurable_volDrift _ _ _)
    (by fun_prop) (by fun_prop) measurable_fst measurable_snd (hn.logDrift_l2 hA mu sigma h)
    (hn.volDrift_l2 theta k h) (hn.sqrt_l2.const_mul sigma) (hn.sqrt_l2.const_mul xi) z1 u1 z2 u2
  refine Eq.trans e ?_
  simp only
  rw [hr, hn.sqrt_sq, logDrift_affine, volDrift_affine, cov_affine3 hA hn.l2 hn.neg,
    covariance_self hn.l2.aestronglyMeasurable.aemeasurable]
  ring

/-- The step of the variance of the logarithm. -/
theorem NearPos.log_var (hn : NearPos P β δ Y) (hA : MemLp A 2 P) (mu sigma theta k xi h : ℝ)
    (hi : IndepFun (fun ω => (A ω, Y ω)) Z P)
    (hZ : HasLaw (fun ω => (Z ω).1) (gaussianReal 0 |h|.toNNReal) P) :
    Var[fun ω => (hestonStep mu sigma theta k xi h (A ω, Y ω) (Z ω)).1; P] =
      Var[A; P] + (sigma ^ 2 * h / 2) ^ 2 * Var[Y; P] +
        (sigma ^ 2 * h / 2) ^ 2 * cov[fun ω => max (-Y ω) 0, fun ω => max (-Y ω) 0; P] -
        sigma ^ 2 * h * cov[A, Y; P] - sigma ^ 2 * h * cov[A, fun ω => max (-Y ω) 0; P] +
        2 * (sigma ^ 2 * h / 2) ^ 2 * cov[Y, fun ω => max (-Y ω) 0; P] +
        sigma ^ 2 * |h| * (∫ ω, Y ω ∂P + ∫ ω, max (-Y ω) 0 ∂P) := by
  obtain ⟨z1, z2, z3⟩ := gauss_noise hZ
  have e := cov_step hi (f1 := hestonLogDrift mu sigma h) (g1 := fun p => sigma * √(max p.2 0))
    (f2 := hestonLogDrift mu sigma h) (g2 := fun p => sigma * √(max p.2 0))
    (ζ1 := Prod.fst) (ζ2 := Prod.fst) (measurable_logDrift _ _ _) (measurable_logDrift _ _ _)
    (by fun_prop) (by fun_prop) measurable_fst measurable_fst (hn.logDrift_l2 hA mu sigma h)
    (hn.logDrift_l2 hA mu sigma h) (hn.sqrt_l2.const_mul sigma) (hn.sqrt_l2.const_mul sigma) z1 z1 z2 z2
  rw [← covariance_self (hn.log_l2 hA mu sigma theta k xi h hi hZ).aestronglyMeasurable.aemeasurable]
  refine Eq.trans e ?_
  simp only
  rw [z3, hn.sqrt_sq, logDrift_affine, cov_affine3 hA hn.l2 hn.neg,
    covariance_self hn.l2.aestronglyMeasurable.aemeasurable,
    covariance_self hA.aestronglyMeasurable.aemeasurable]
  ring

/-- How much the steps of the moments that involve the logarithm differ from those of the Euler scheme for
their equations. -/
theorem NearPos.log_error (hn : NearPos P β δ Y) (hA : MemLp A 2 P) (hδ1 : δ ≤ 1) (hβ : 0 ≤ β) {k : ℝ}
    (hk : 0 ≤ k) (mu sigma theta xi : ℝ) {d : ℝ} (hd0 : 0 < d) (hd : d ≤ δ)
    (hi : IndepFun (fun ω => (A ω, Y ω)) Z P)
    (hZ1 : HasLaw (fun ω => (Z ω).1) (gaussianReal 0 |d|.toNNReal) P)
    (hZ2 : HasLaw (fun ω => (Z ω).2) (gaussianReal 0 |d|.toNNReal) P)
    (hr : ∫ ω, (Z ω).1 * (Z ω).2 ∂P = rho * |d|) {R : ℝ} (h1 : |∫ ω, Y ω ∂P| ≤ R)
    (h2 : Var[Y; P] ≤ R) (h3 : Var[A; P] ≤ R) :
    |∫ ω, (hestonStep mu sigma theta k xi d (A ω, Y ω) (Z ω)).1 ∂P - ∫ ω, A ω ∂P -
        d * (mu - sigma ^ 2 / 2 * ∫ ω, Y ω ∂P)| ≤ sigma ^ 2 / 2 * β * δ * d * (1 + R) ∧
    |cov[fun ω => (hestonStep mu sigma theta k xi d (A ω, Y ω) (Z ω)).1,
        fun ω => (hestonStep mu sigma theta k xi d (A ω, Y ω) (Z ω)).2; P] - cov[A, Y; P] -
        d * (-k * cov[A, Y; P] - sigma ^ 2 / 2 * Var[Y; P] + rho * sigma * xi * ∫ ω, Y ω ∂P)| ≤
      (sigma ^ 2 / 2 * k + sigma ^ 2 / 2 * k * β + k * (1 + β) + sigma ^ 2 / 2 * (1 + 2 * k) * β +
        |rho * sigma * xi| * β) * δ * d * (1 + R) ∧
    |Var[fun ω => (hestonStep mu sigma theta k xi d (A ω, Y ω) (Z ω)).1; P] - Var[A; P] -
        d * (-sigma ^ 2 * cov[A, Y; P] + sigma ^ 2 * ∫ ω, Y ω ∂P)| ≤
      ((sigma ^ 2 / 2) ^ 2 * (1 + 3 * β) + sigma ^ 2 * (1 + β) + sigma ^ 2 * β) * δ * d * (1 + R) := by
  have hδ0 : 0 < δ := hd0.trans_le hd
  have n0 := hn.mean_nonneg
  have n1 := hn.mean
  obtain ⟨w0, w1⟩ := hn.var_neg
  have hc := hn.cov_neg hδ0.le hδ1
  have hD := hn.cov_any hA hδ0
  rw [hn.log_mean hA mu sigma theta k xi d hi hZ1, hn.log_cov hA mu sigma theta k xi d hi hZ1 hZ2 hr,
    hn.log_var hA mu sigma theta k xi d hi hZ1]
  have hV0 : 0 ≤ Var[Y; P] := variance_nonneg _ _
  have hL0 : 0 ≤ Var[A; P] := variance_nonneg _ _
  rw [abs_of_pos hd0]
  generalize ∫ ω, Y ω ∂P = m at *
  generalize ∫ ω, max (-Y ω) 0 ∂P = n at *
  generalize Var[Y; P] = V at *
  generalize Var[A; P] = L at *
  generalize cov[Y, fun ω => max (-Y ω) 0; P] = C at *
  generalize cov[A, fun ω => max (-Y ω) 0; P] = D at *
  generalize cov[A, Y; P] = c at *
  generalize cov[fun ω => max (-Y ω) 0, fun ω => max (-Y ω) 0; P] = w at *
  generalize ∫ ω, A ω ∂P = l at *
  have R0 : 0 ≤ R := (abs_nonneg m).trans h1
  set S := 1 + R with hS
  have S1 : 1 ≤ S := by linarith
  have SV : V ≤ S := by linarith
  have SL : L ≤ S := by linarith
  have w2 : w ≤ β * S := by
    calc w ≤ β * δ ^ 2 := w1
      _ ≤ β * 1 := by gcongr; exact pow_le_one₀ hδ0.le hδ1
      _ ≤ β * S := by gcongr
  have n2 : n ≤ β * δ * S := n1.trans (le_mul_of_one_le_right (by positivity) S1)
  have c2 : |C| ≤ β * δ * S := hc.trans (by gcongr; linarith)
  have c3 : |C| ≤ β * S := by
    calc |C| ≤ β * δ * S := c2
      _ ≤ β * 1 * S := by gcongr
      _ = β * S := by ring
  have D2 : |D| ≤ (1 + β) * δ * S := by
    calc |D| ≤ δ * (L + β) / 2 := hD
      _ ≤ δ * (S + β * S) / 2 := by gcongr; exact le_mul_of_one_le_right hβ S1
      _ = (1 + β) * δ * S / 2 := by ring
      _ ≤ (1 + β) * δ * S := half_le_self (by positivity)
  refine ⟨?_, ?_, ?_⟩
  · rw [show l + (mu - sigma ^ 2 / 2 * (m + n)) * d - l - d * (mu - sigma ^ 2 / 2 * m) =
      -(sigma ^ 2 / 2 * d * n) by ring, abs_neg, abs_of_nonneg (by positivity)]
    calc sigma ^ 2 / 2 * d * n ≤ sigma ^ 2 / 2 * d * (β * δ * S) := by gcongr
      _ = _ := by ring
  · have e : -(sigma ^ 2 * d / 2) * (1 - k * d) * V + sigma ^ 2 * d / 2 * (k * d) * w +
        (1 - k * d) * c - k * d * D + (sigma ^ 2 * d / 2 * (k * d) - sigma ^ 2 * d / 2 * (1 - k * d)) * C +
        rho * sigma * xi * d * (m + n) - c -
        d * (-k * c - sigma ^ 2 / 2 * V + rho * sigma * xi * m) =
        sigma ^ 2 / 2 * k * d * d * V + sigma ^ 2 / 2 * k * d * d * w + -(k * d * D) +
        -(sigma ^ 2 / 2 * d * (1 - 2 * k * d) * C) + rho * sigma * xi * d * n := by ring
    rw [e]
    have t1 : |sigma ^ 2 / 2 * k * d * d * V| ≤ sigma ^ 2 / 2 * k * δ * d * S := by
      rw [abs_of_nonneg (by positivity)]
      gcongr
    have t2 : |sigma ^ 2 / 2 * k * d * d * w| ≤ sigma ^ 2 / 2 * k * β * δ * d * S := by
      rw [abs_of_nonneg (by positivity)]
      calc sigma ^ 2 / 2 * k * d * d * w ≤ sigma ^ 2 / 2 * k * δ * d * (β * S) := by gcongr
        _ = _ := by ring
    have t3 : |-(k * d * D)| ≤ k * (1 + β) * δ * d * S := by
      rw [abs_neg, abs_mul, abs_of_nonneg (by positivity : 0 ≤ k * d)]
      calc k * d * |D| ≤ k * d * ((1 + β) * δ * S) := by gcongr
        _ = _ := by ring
    have t4 : |-(sigma ^ 2 / 2 * d * (1 - 2 * k * d) * C)| ≤
        sigma ^ 2 / 2 * (1 + 2 * k) * β * δ * d * S := by
      rw [abs_neg, abs_mul, abs_mul, abs_of_nonneg (by positivity : 0 ≤ sigma ^ 2 / 2 * d)]
      have : |1 - 2 * k * d| ≤ 1 + 2 * k := by
        calc |1 - 2 * k * d| ≤ |1| + |2 * k * d| := abs_sub _ _
          _ ≤ 1 + 2 * k := by
            rw [abs_one, abs_of_nonneg (by positivity)]
            have := mul_le_mul_of_nonneg_left (hd.trans hδ1) (by positivity : 0 ≤ 2 * k)
            linarith
      calc sigma ^ 2 / 2 * d * |1 - 2 * k * d| * |C| ≤ sigma ^ 2 / 2 * d * (1 + 2 * k) * (β * δ * S) := by
            gcongr
        _ = _ := by ring
    have t5 : |rho * sigma * xi * d * n| ≤ |rho * sigma * xi| * β * δ * d * S := by
      rw [abs_mul, abs_mul (rho * sigma * xi), abs_of_pos hd0, abs_of_nonneg n0]
      calc |rho * sigma * xi| * d * n ≤ |rho * sigma * xi| * d * (β * δ * S) := by gcongr
        _ = _ := by ring
    calc _ ≤ |sigma ^ 2 / 2 * k * d * d * V| + |sigma ^ 2 / 2 * k * d * d * w| + |-(k * d * D)| +
          |-(sigma ^ 2 / 2 * d * (1 - 2 * k * d) * C)| + |rho * sigma * xi * d * n| :=
          (abs_add_le _ _).trans (add_le_add ((abs_add_le _ _).trans (add_le_add ((abs_add_le _ _).trans
            (add_le_add (abs_add_le _ _) le_rfl)) le_rfl)) le_rfl)
      _ ≤ _ := by linarith
  · have e : L + (sigma ^ 2 * d / 2) ^ 2 * V + (sigma ^ 2 * d / 2) ^ 2 * w - sigma ^ 2 * d * c -
        sigma ^ 2 * d * D + 2 * (sigma ^ 2 * d / 2) ^ 2 * C + sigma ^ 2 * d * (m + n) - L -
        d * (-sigma ^ 2 * c + sigma ^ 2 * m) =
        (sigma ^ 2 / 2) ^ 2 * d * d * V + (sigma ^ 2 / 2) ^ 2 * d * d * w +
          2 * (sigma ^ 2 / 2) ^ 2 * d * d * C + -(sigma ^ 2 * d * D) + sigma ^ 2 * d * n := by ring
    rw [e]
    have t1 : |(sigma ^ 2 / 2) ^ 2 * d * d * V| ≤ (sigma ^ 2 / 2) ^ 2 * δ * d * S := by
      rw [abs_of_nonneg (by positivity)]
      gcongr
    have t2 : |(sigma ^ 2 / 2) ^ 2 * d * d * w| ≤ (sigma ^ 2 / 2) ^ 2 * β * δ * d * S := by
      rw [abs_of_nonneg (by positivity)]
      calc (sigma ^ 2 / 2) ^ 2 * d * d * w ≤ (sigma ^ 2 / 2) ^ 2 * δ * d * (β * S) := by gcongr
        _ = _ := by ring
    have t3 : |2 * (sigma ^ 2 / 2) ^ 2 * d * d * C| ≤ 2 * (sigma ^ 2 / 2) ^ 2 * β * δ * d * S := by
      rw [abs_mul, abs_of_nonneg (by positivity : 0 ≤ 2 * (sigma ^ 2 / 2) ^ 2 * d * d)]
      calc 2 * (sigma ^ 2 / 2) ^ 2 * d * d * |C| ≤ 2 * (sigma ^ 2 / 2) ^ 2 * δ * d * (β * S) := by gcongr
        _ = _ := by ring
    have t4 : |-(sigma ^ 2 * d * D)| ≤ sigma ^ 2 * (1 + β) * δ * d * S := by
      rw [abs_neg, abs_mul, abs_of_nonneg (by positivity : 0 ≤ sigma ^ 2 * d)]
      calc sigma ^ 2 * d * |D| ≤ sigma ^ 2 * d * ((1 + β) * δ * S) := by gcongr
        _ = _ := by ring
    have t5 : |sigma ^ 2 * d * n| ≤ sigma ^ 2 * β * δ * d * S := by
      rw [abs_of_nonneg (by positivity)]
      calc sigma ^ 2 * d * n ≤ sigma ^ 2 * d * (β * δ * S) := by gcongr
        _ = _ := by ring
    calc _ ≤ |(sigma ^ 2 / 2) ^ 2 * d * d * V| + |(sigma ^ 2 / 2) ^ 2 * d * d * w| +
          |2 * (sigma ^ 2 / 2) ^ 2 * d * d * C| + |-(sigma ^ 2 * d * D)| + |sigma ^ 2 * d * n| :=
          (abs_add_le _ _).trans (add_le_add ((abs_add_le _ _).trans (add_le_add ((abs_add_le _ _).trans
            (add_le_add (abs_add_le _ _) le_rfl)) le_rfl)) le_rfl)
      _ ≤ _ := by linarith

/-- The step of the mean of `x`. -/
theorem exp_step (mA : Measurable A) (mY : Measurable Y) (mZ : Measurable Z)
    (mu sigma theta k xi : ℝ) (hh : 0 ≤ h) (hi : IndepFun (fun ω => (A ω, Y ω)) Z P)
    (hZ : HasLaw (fun ω => (Z ω).1) (gaussianReal 0 |h|.toNNReal) P) :
    ∫⁻ ω, ENNReal.ofReal (exp (hestonStep mu sigma theta k xi h (A ω, Y ω) (Z ω)).1) ∂P =
      ENNReal.ofReal (exp (mu * h)) * ∫⁻ ω, ENNReal.ofReal (exp (A ω)) ∂P := by
  have mp : Measurable fun ω => (A ω, Y ω) := mA.prodMk mY
  have hi' : IndepFun (fun ω => (A ω, Y ω)) (fun ω => (Z ω).1) P :=
    hi.comp (φ := id) (ψ := Prod.fst) measurable_id measurable_fst
  have hl := (indepFun_iff_map_prod_eq_prod_map_map mp.aemeasurable hZ.aemeasurable).1 hi'
  rw [hZ.map_eq] at hl
  have e1 : ∫⁻ ω, ENNReal.ofReal (exp (hestonStep mu sigma theta k xi h (A ω, Y ω) (Z ω)).1) ∂P =
      ∫⁻ q, ENNReal.ofReal (exp (q.1.1 + (mu - sigma ^ 2 * max q.1.2 0 / 2) * h +
        sigma * √(max q.1.2 0) * q.2)) ∂(P.map fun ω => ((A ω, Y ω), (Z ω).1)) := by
    rw [lintegral_map (by fun_prop) (by fun_prop)]
    rfl
  have e2 : ∫⁻ ω, ENNReal.ofReal (exp (A ω)) ∂P =
      ∫⁻ q : ℝ × ℝ, ENNReal.ofReal (exp q.1) ∂(P.map fun ω => (A ω, Y ω)) := by
    rw [lintegral_map (by fun_prop) mp]
  have : IsProbabilityMeasure (P.map fun ω => (A ω, Y ω)) := Measure.isProbabilityMeasure_map mp.aemeasurable
  rw [e1, hl, lintegral_prod _ (by fun_prop), e2, ← lintegral_const_mul _ (by fun_prop)]
  refine lintegral_congr fun q => ?_
  simp only
  rw [gauss_exp, ← ENNReal.ofReal_mul (exp_pos _).le, ← exp_add, mul_pow, sq_sqrt (le_max_right _ _),
    Real.coe_toNNReal _ (abs_nonneg h), abs_of_nonneg hh]
  congr 2
  ring

end

end Sdepy
