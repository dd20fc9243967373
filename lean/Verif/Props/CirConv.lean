import Verif.Lemmas.NcGammaChf
import Verif.Props.CirPdf
import Verif.Props.HestonConv

/-!
# C76: the law of the values simulated for a Cox-Ingersoll-Ross process, and `cir_pdf`
-/

open MeasureTheory ProbabilityTheory Real Set Filter Topology
open Complex (I)
open scoped BoundedContinuousFunction

namespace Sdepy
open Spec

theorem posDensity_cdf {p : ℝ → ℝ} (h0 : ∀ x > 0, 0 ≤ p x) (hp : IntegrableOn p (Ioi 0)) (z : ℝ) :
    (posDensity p).real (Iic z) = ∫ x in Ioc 0 z, p x := by
  rw [← integral_indicator_one measurableSet_Iic, posDensity_integral h0 hp]
  have : ∀ x, p x • (Iic z).indicator (1 : ℝ → ℝ) x = (Iic z).indicator p x := by
    intro x
    by_cases h : x ∈ Iic z <;> simp [h]
  simp only [this]
  rw [integral_indicator measurableSet_Iic, Measure.restrict_restrict measurableSet_Iic, inter_comm, Ioi_inter_Iic]

/-- The coefficients of the exponent, in closed form. -/
theorem cir_riccati {theta k xi : ℝ} (hk : 0 < k) (hxi : xi ≠ 0) (rho v : ℝ) :
    Riccati 0 0 theta k xi rho 0 (I * v)
      (fun t => -((2 * k * theta / xi ^ 2 : ℝ) * Complex.log (1 - I * v * cirH k xi t)))
      (fun t => I * v * (exp (-k * t) : ℝ) / (1 - I * v * cirH k xi t)) := by
  have hxi' : (xi : ℂ) ≠ 0 := by exact_mod_cast hxi
  have hre : ∀ t, (1 - I * v * cirH k xi t : ℂ).re = 1 := by
    intro t; simp
  have hs : ∀ t, (1 - I * v * cirH k xi t : ℂ) ∈ Complex.slitPlane := fun t => .inl (by rw [hre]; norm_num)
  have hD : ∀ t : ℝ, HasDerivAt (fun t : ℝ => (1 - I * v * cirH k xi t : ℂ))
      (-(I * v * (xi ^ 2 / 2 * exp (-k * t) : ℝ))) t := by
    intro t
    exact ((((cirH_deriv (xi := xi) hk.ne' t).ofReal_comp).const_mul (I * v)).const_sub 1)
  refine ⟨by simp [cirH], by simp [cirH], fun t _ => ?_, fun t _ => ?_⟩
  · refine (((hD t).clog_real (hs t)).const_mul _).neg.congr_deriv ?_
    have := Complex.slitPlane_ne_zero (hs t)
    push_cast
    field_simp
    ring
  · have h1 : HasDerivAt (fun t : ℝ => -k * t) (-k) t := by
      simpa using (hasDerivAt_id t).const_mul (-k)
    have h2 := (((h1.exp).ofReal_comp).const_mul (I * v)).div (hD t) (Complex.slitPlane_ne_zero (hs t))
    refine h2.congr_deriv ?_
    have := Complex.slitPlane_ne_zero (hs t)
    unfold ricR
    push_cast
    field_simp
    ring

section
variable {theta k xi y0 τ : ℝ} {p : ℝ → ℝ → ℝ → ℝ}

/-- The characteristic function of the density returned by `cir_pdf`. -/
theorem cirPdf_chf (hp : IsCirPdf theta k xi p) (hth : 0 < theta) (hk : 0 < k) (hxi : xi ≠ 0) (hτ : 0 < τ)
    (hy : 0 < y0) (v : ℝ) :
    charFun (posDensity (p τ y0)) v = Complex.exp (
      -((2 * k * theta / xi ^ 2 : ℝ) * Complex.log (1 - I * v * cirH k xi τ)) +
      I * v * (exp (-k * τ) : ℝ) / (1 - I * v * cirH k xi τ) * y0) := by
  have hh := cirH_pos hk.ne' hxi hτ
  have hc : 0 < 1 / cirH k xi τ := one_div_pos.2 hh
  have ha : 0 < 2 * k * theta / xi ^ 2 := by positivity
  have hl : 0 ≤ 1 / cirH k xi τ * (y0 * exp (-k * τ)) := by positivity
  have e : posDensity (p τ y0) = posDensity (ncGamma (2 * k * theta / xi ^ 2) (1 / cirH k xi τ)
      (1 / cirH k xi τ * (y0 * exp (-k * τ)))) := by
    unfold posDensity
    refine withDensity_congr_ae ((ae_restrict_iff' measurableSet_Ioi).2 (.of_forall fun x hx => ?_))
    simp only
    rw [isCirPdf_eq hp hk.ne' hxi hτ hy hx]
  rw [e, ncGamma_chf ha hc hl]
  unfold ncGammaMgf
  have hh' : (cirH k xi τ : ℂ) ≠ 0 := by exact_mod_cast hh.ne'
  have hne : (1 - I * v * cirH k xi τ : ℂ) ≠ 0 := by
    intro h
    have := congrArg Complex.re h
    simp at this
  rw [← Complex.exp_add]
  push_cast
  have e1 : (1 - v * I / (1 / cirH k xi τ) : ℂ) = 1 - I * v * cirH k xi τ := by field_simp
  have e2 : (1 / cirH k xi τ - v * I : ℂ) = (1 - I * v * cirH k xi τ) / cirH k xi τ := by field_simp
  rw [e1, e2]
  congr 2
  field_simp

theorem cir_near_law (hp : IsCirPdf theta k xi p) (hth : 0 < theta) (hk : 0 < k) (hxi : xi ≠ 0) (hτ : 0 < τ)
    (hy : 0 < y0) : ChfNear (chainLawSnd 0 0 theta k xi 1 0 y0 τ) (charFun (posDensity (p τ y0))) :=
  chainLawSnd_near hth hk (by simp) hy.le hτ.le fun v =>
    ⟨_, _, cir_riccati hk hxi 1 v, cirPdf_chf hp hth hk hxi hτ hy v⟩

theorem corrNormal_diag (v : ℝ) : CorrNormal 1 v ((gaussianReal 0 v.toNNReal).map fun z => (z, z)) := by
  unfold CorrNormal
  have e : (fun z : ℝ × ℝ => (z.1, 1 * z.1 + √(1 - 1 ^ 2) * z.2)) = (fun z => (z, z)) ∘ Prod.fst := by
    funext z; simp
  rw [e, ← Measure.map_map (by fun_prop) measurable_fst, Measure.map_fst_prod]
  simp

variable {ι σ : Type} [Countable ι] [MeasurableSpace σ] {μ : Measure σ} [IsProbabilityMeasure μ]

theorem cir_chain {x0 th kk xx : ι → ℝ} {i : ι} {dw : Src ℝ ι σ} {fuel : ℕ} {steps : Steps ℝ} {i0 : ℤ}
    {tl : TArr ℝ} {grid : List ℝ} {t0 δ : ℝ} (e0 : x0 i = y0) (e1 : th i = theta) (e2 : kk i = k)
    (e3 : xx i = xi) (hw : ∀ t dt, dt ≠ 0 → ∃ N, DrawsLaw μ N (dw t dt) ∧
        N.map (fun x => x i) = gaussianReal 0 |dt|.toNNReal)
    (h : Along fuel steps i0 tl grid t0) (hm : Mesh grid δ) :
    ∃ (X : ℝ → σ → ι → ℝ) (st : σ → σ),
      (∀ s, (cirSDE x0 (fun _ => th) (fun _ => kk) (fun _ => xx) dw).call fuel steps i0 tl s =
        .ok (tl.data.map fun t => some (X t s), st s)) ∧
      HestonChain 0 0 theta k xi 1 0 y0 μ grid t0 δ fun t s => (0, X t s i) := by
  obtain ⟨X, st, e, hX⟩ := C74_cir_recursion x0 (fun _ => th) (fun _ => kk) (fun _ => xx) i hw h
  obtain ⟨-, h2, -⟩ := along_mem h
  simp only [e0, e1, e2, e3] at hX
  refine ⟨X, st, e, ⟨inferInstance, h.isGrid.1, h2, hm, fun s => by rw [hX.start s],
    fun s hs => measurable_const.prodMk (hX.meas s hs), fun a b hs _ _ => ?_⟩⟩
  obtain ⟨Z, z1, z2, z3, z4⟩ := hX.step a b hs
  refine ⟨fun s => (Z s, Z s), _, by fun_prop, ⟨by fun_prop, ?_⟩, corrNormal_diag _,
    z3.comp (φ := fun y => ((0 : ℝ), y)) (ψ := fun z => (z, z)) (by fun_prop) (by fun_prop), fun s => ?_⟩
  · rw [← z2.map_eq, Measure.map_map (by fun_prop) z1]
    rfl
  · rw [z4]
    simp [hestonStep]

end

/-- **C76** (Cox-Ingersoll-Ross). As the longest step goes to zero, the values simulated by
`cox_ingersoll_ross_process` after a time `τ` converge in distribution to the law of density `cir_pdf`: averages
of bounded continuous functions do, and so do cumulative probabilities. -/
theorem C76_cir_conv {theta k xi y0 τ : ℝ} {p : ℝ → ℝ → ℝ → ℝ} (hp : IsCirPdf theta k xi p) (hth : 0 < theta)
    (hk : 0 < k) (hxi : xi ≠ 0) (hτ : 0 < τ) (hy : 0 < y0) (f : ℝ →ᵇ ℝ) (z : ℝ) {ε : ℝ} (hε : 0 < ε) :
    ∃ δ0 : ℝ, 0 < δ0 ∧ ∀ (ι σ : Type) [Countable ι] [MeasurableSpace σ] (μ : Measure σ)
      [IsProbabilityMeasure μ] (x0 th kk xx : ι → ℝ) (i : ι) (dw : Src ℝ ι σ)
      (fuel : ℕ) (steps : Steps ℝ) (i0 : ℤ) (tl : TArr ℝ) (grid : List ℝ) (t0 δ : ℝ),
      x0 i = y0 → th i = theta → kk i = k → xx i = xi →
      (∀ t dt, dt ≠ 0 → ∃ N, DrawsLaw μ N (dw t dt) ∧
        N.map (fun x => x i) = gaussianReal 0 |dt|.toNNReal) →
      Along fuel steps i0 tl grid t0 → Mesh grid δ → 0 < δ → δ ≤ δ0 → t0 + τ ∈ tl.data →
      ∃ (X : ℝ → σ → ι → ℝ) (st : σ → σ),
        (∀ s, (cirSDE x0 (fun _ => th) (fun _ => kk) (fun _ => xx) dw).call fuel steps i0 tl s =
          .ok (tl.data.map fun t => some (X t s), st s)) ∧
        |∫ s, f (X (t0 + τ) s i) ∂μ - ∫ x in Ioi 0, f x * p τ y0 x| ≤ ε ∧
        |μ.real {s | X (t0 + τ) s i ≤ z} - ∫ x in Ioc 0 z, p τ y0 x| ≤ ε := by
  obtain ⟨d0, d1, d2⟩ := C62_density hp (by positivity) hxi hτ hy
  have hn := cir_near_law hp hth hk hxi hτ hy
  have := posDensity_prob d0 d1 d2
  obtain ⟨δ1, hδ1, h1⟩ := chfNear_integral hn f hε
  obtain ⟨δ2, hδ2, h2⟩ := chfNear_cdf hn (posDensity_atom _ z) hε
  refine ⟨min δ1 δ2, by positivity, ?_⟩
  intro ι σ _ _ μ _ x0 th kk xx i dw fuel steps i0 tl grid t0 δ e0 e1 e2 e3 hw h hm hδ hδ' ht
  obtain ⟨X, st, e, hc⟩ := cir_chain e0 e1 e2 e3 hw h hm
  have hg := (along_mem h).2.2 _ ht
  have hR : chainLawSnd 0 0 theta k xi 1 0 y0 τ (μ.map fun s => X (t0 + τ) s i) δ :=
    ⟨σ, _, μ, grid, t0, _, hc, hg, rfl⟩
  have hmeas : Measurable fun s => X (t0 + τ) s i := measurable_snd.comp (hc.meas _ hg)
  refine ⟨X, st, e, ?_, ?_⟩
  · have := h1 _ _ hR hδ (hδ'.trans (min_le_left _ _))
    rw [integral_map hmeas.aemeasurable f.continuous.aestronglyMeasurable, posDensity_integral d0 d1] at this
    simpa only [smul_eq_mul, mul_comm] using this
  · have := h2 _ _ hR hδ (hδ'.trans (min_le_right _ _))
    rw [map_measureReal_apply hmeas measurableSet_Iic, posDensity_cdf d0 d1] at this
    exact this

/-- **C76** (Cox-Ingersoll-Ross, number of steps). With enough integration steps, cumulative probabilities of
the values simulated at a time `t` of a timeline are as near as wanted to the integrals of `cir_pdf`. -/
theorem C76_cir_steps {theta k xi y0 : ℝ} {p : ℝ → ℝ → ℝ → ℝ} (hp : IsCirPdf theta k xi p) (hth : 0 < theta)
    (hk : 0 < k) (hxi : xi ≠ 0) (hy : 0 < y0) (tl : TArr ℝ) {t0 t : ℝ} (ht : t ∈ tl.data) (hlt : t0 < t)
    (z : ℝ) {ε : ℝ} (hε : 0 < ε) :
    ∃ N : ℕ, ∀ (ι σ : Type) [Countable ι] [MeasurableSpace σ] (μ : Measure σ)
      [IsProbabilityMeasure μ] (x0 th kk xx : ι → ℝ) (i : ι) (dw : Src ℝ ι σ)
      (fuel n : ℕ) (i0 : ℤ) (grid : List ℝ), N ≤ n →
      x0 i = y0 → th i = theta → kk i = k → xx i = xi →
      (∀ t dt, dt ≠ 0 → ∃ N, DrawsLaw μ N (dw t dt) ∧
        N.map (fun x => x i) = gaussianReal 0 |dt|.toNNReal) →
      Along fuel (.int n) i0 tl grid t0 →
      ∃ (X : ℝ → σ → ι → ℝ) (st : σ → σ),
        (∀ s, (cirSDE x0 (fun _ => th) (fun _ => kk) (fun _ => xx) dw).call fuel (.int n) i0 tl s =
          .ok (tl.data.map fun t => some (X t s), st s)) ∧
        |μ.real {s | X t s i ≤ z} - ∫ x in Ioc 0 z, p (t - t0) y0 x| ≤ ε := by
  obtain ⟨δ0, hδ0, h⟩ := C76_cir_conv hp hth hk hxi (sub_pos.2 hlt) hy 0 z hε
  obtain ⟨N, hN⟩ := exists_mesh tl hδ0
  refine ⟨N, ?_⟩
  intro ι σ _ _ μ _ x0 th kk xx i dw fuel n i0 grid hn e0 e1 e2 e3 hw hal
  obtain ⟨X, st, e, -, hX⟩ := h ι σ μ x0 th kk xx i dw fuel (.int n) i0 tl grid t0 δ0 e0 e1 e2 e3 hw hal
    (hN fuel n i0 grid t0 hn hal) hδ0 le_rfl (by rw [add_sub_cancel]; exact ht)
  rw [add_sub_cancel] at hX
  exact ⟨X, st, e, hX⟩

/-- With enough steps, the probability that the value simulated after one unit of time is at most 5. -/
example : ∃ (p : ℝ → ℝ → ℝ → ℝ) (N fuel : ℕ)
    (X : ℝ → (ℕ → Item ℝ) → Cells ([2] ++ [3]) → ℝ) (st : (ℕ → Item ℝ) → ℕ → Item ℝ),
    IsCirPdf 1 2 3 p ∧
    (∀ s, (cirSDE (fun _ => 4) (fun _ _ => 1) (fun _ _ => 2) (fun _ _ => 3)
      (wienerCells ([2] ++ [3]) ⟨3, [2], .none⟩ (itemRng ℝ))).call fuel (.int N) 0
        ⟨[2], [1, 2]⟩ s = .ok ([some (X 1 s), some (X 2 s)], st s)) ∧
    |(Measure.infinitePi fun _ : ℕ => itemLaw stdNormal).real {s | X 2 s ⟨[1, 2], by decide⟩ ≤ 5} -
      ∫ x in Ioc 0 5, p 1 4 x| ≤ 1 / 1000 := by
  obtain ⟨p, hp⟩ : ∃ p, IsCirPdf 1 2 3 p := by
    refine ⟨fun t x0 x => (cirPdf x0 1 2 3 t x).getD 0, fun t _ x0 _ x hx => ?_⟩
    simp only [cirPdf]
    rw [if_neg (by rintro (h | h) <;> linarith)]
    simp
  obtain ⟨N, h⟩ := C76_cir_steps hp (y0 := 4) one_pos two_pos (by norm_num) (by norm_num) ⟨[2], [1, 2]⟩ (t0 := 1)
    (t := 2) (by simp) (by norm_num) 5 (ε := 1 / 1000) (by norm_num)
  obtain ⟨fuel, grid, hal⟩ := along_of_valid (steps := .int N) (i0 := 0) (tl := ⟨[2], [1, 2]⟩)
    (i := 0) (t0 := 1) ⟨rfl, by simp⟩ ⟨by simp, .inl rfl⟩ rfl (by rintro _ ⟨⟩; simp)
  obtain ⟨X, st, e, hX⟩ := h (Cells ([2] ++ [3])) _ (Measure.infinitePi fun _ : ℕ => itemLaw stdNormal)
    (fun _ => 4) (fun _ => 1) (fun _ => 2) (fun _ => 3) ⟨[1, 2], by decide⟩ _ fuel N 0 grid le_rfl
    rfl rfl rfl rfl (exCirNoise _) hal
  rw [show (2 : ℝ) - 1 = 1 by norm_num] at hX
  exact ⟨p, N, fuel, X, st, hp, e, hX⟩

end Sdepy
