import Verif.Lemmas.Means
import Verif.Props.StrongNLaw
import Verif.Lemmas.StrongLimit

/-!
# Property C102: means of simulated values, for equations whose drift is affine
-/

set_option linter.unusedSectionVars false

open MeasureTheory ProbabilityTheory

namespace Sdepy

open Spec

section
variable {ι J : Type} [Fintype ι] [Fintype J] [Nonempty J]
  {a : ℝ → (ι → ℝ) → ι → ℝ} {b : J → ℝ → (ι → ℝ) → ι → ℝ} {t0 T L M : ℝ} {x0 : ι → ℝ} {m v : J → ℝ} {y : ℝ → ι → ℝ}

/-- A difference of means is at most the root of the mean square of the difference. -/
theorem mean_sub_le {Ω : Type} [MeasurableSpace Ω] {P : Measure Ω} [IsProbabilityMeasure P] {X Y : Ω → ι → ℝ}
    (hX : ∀ i, MemLp (fun ω => X ω i) 2 P) (hY : ∀ i, MemLp (fun ω => Y ω i) 2 P) (i : ι) :
    |∫ ω, X ω i ∂P - ∫ ω, Y ω i ∂P| ≤ √(meanSq P fun ω i => X ω i - Y ω i) := by
  obtain ⟨d1, d2⟩ := mean_dist_le (P := P) (X := fun ω i => X ω i - Y ω i) fun i => (hX i).sub (hY i)
  have i1 := (hX i).integrable one_le_two
  have i2 := (hY i).integrable one_le_two
  rw [← integral_sub i1 i2]
  refine (abs_integral_le_integral_abs).trans ((integral_mono (i1.sub i2).abs d1 fun ω => ?_).trans d2)
  refine Real.le_sqrt_of_sq_le ?_
  rw [sq_abs]
  exact Finset.single_le_sum (f := fun c => (X ω c - Y ω c) ^ 2) (fun p _ => sq_nonneg _) (Finset.mem_univ i)

/-- Means of solutions solve the equation with increments of noise replaced by their means. -/
theorem solution_mean (hT : 0 < T) (hL : LipschitzCoefs a b t0 T L) (hv : ∀ j, 0 < v j)
    (hA : ∀ t ∈ Set.Icc t0 (t0 + T), IsAffineIn (meanDrift a b m t)) (hM : LipschitzField (meanDrift a b m) t0 T M)
    (hy : SolvesOde (meanDrift a b m) t0 T x0 y)
    {Ω : Type} [MeasurableSpace Ω] {P : Measure Ω} [IsProbabilityMeasure P] {Z : ℝ → Ω → J × ι → ℝ} {Y : ℝ → Ω → ι → ℝ}
    (hZ : Noises P t0 (Set.Icc t0 (t0 + T)) m v Z) (hY : Solves P a b t0 T x0 Z Y)
    {t : ℝ} (ht : t ∈ Set.Icc t0 (t0 + T)) (i : ι) : ∫ ω, Y t ω i ∂P = y t i := by
  obtain ⟨K, hK, h1⟩ := solution_close_all hT.le hL x0 m hv
  obtain ⟨K', hK', h2⟩ := ode_error hM hT hy
  have key : ∀ δ : ℝ, 0 < δ → |∫ ω, Y t ω i ∂P - y t i| ≤ √(K * δ) + K' * δ := by
    intro δ hδ
    obtain ⟨g, g1, g2, g3, g4, g5⟩ := exists_grid hδ ht
    obtain ⟨X, hX⟩ := exists_schemes g1 g2 a b x0 Z
    obtain ⟨l1, l2⟩ := h1 hZ hY hδ.le g1 g2 g4 g5 hX t g3
    have l3 := h2 g1 g2 hδ.le g5 (means_euler hT.le hL hv hZ hA g1 g2 g4 hX) t g3 ⟨by linarith [ht.1], ht.2⟩
    have l4 := (norm_le_pi_norm _ i).trans l3
    rw [Real.norm_eq_abs] at l4
    have l5 := (mean_sub_le l1 (hY.memLp t ht) i).trans (Real.sqrt_le_sqrt l2)
    have l6 := abs_sub_le (∫ ω, Y t ω i ∂P) (∫ ω, X t ω i ∂P) (y t i)
    rw [abs_sub_comm (∫ ω, Y t ω i ∂P) (∫ ω, X t ω i ∂P)] at l6
    simp only [Pi.sub_apply] at l4
    linarith
  have hlim : Filter.Tendsto (fun δ : ℝ => √(K * δ) + K' * δ) (nhdsWithin 0 (Set.Ioi 0)) (nhds 0) := by
    have hc : Continuous fun δ : ℝ => √(K * δ) + K' * δ := by fun_prop
    have := hc.tendsto 0
    simp only [mul_zero, Real.sqrt_zero, add_zero] at this
    exact this.mono_left nhdsWithin_le_nhds
  have := ge_of_tendsto hlim (Filter.eventually_of_mem self_mem_nhdsWithin fun δ hδ => key δ hδ)
  linarith [abs_eq_zero.1 (le_antisymm this (abs_nonneg _))]

end

section
variable {Ω ι σ O : Type} [Fintype ι] {S : SDE ℝ (ι → ℝ) O ℕ σ} {c : ℕ → ℝ → (ι → ℝ) → ι → ℝ} {t0 : ℝ} {x0 : ι → ℝ}

/-- **C102** (means). Simulate an equation with any number of sources of noise, whose increments are independent of the
past, and have mean and variance proportional to the time elapsed. If the drift of the equation, once each increment of
noise is replaced by its mean, is an affine function of the values, then the means of simulated values are, exactly,
those obtained from the initial values by taking the same steps with each increment of noise replaced by its mean. -/
theorem C102_mean [MeasurableSpace Ω] {P : Measure Ω} [IsProbabilityMeasure P] (hS : SDEOk S)
    (hdt : S.sources.lookup idT = some dtSource)
    (hcoef : ∀ t x, (equation S).coef t x = .ok fun id => c id t x) (hinit : S.init t0 = .ok x0)
    [Nonempty ((equation S).Stochastic idT)] {T L : ℝ} (hT : 0 ≤ T)
    (hL : LipschitzCoefs (c idT) (fun j : (equation S).Stochastic idT => c j.1) t0 T L)
    {m v : (equation S).Stochastic idT → ℝ} (hv : ∀ j, 0 < v j)
    (hA : ∀ t ∈ Set.Icc t0 (t0 + T), IsAffineIn (meanDrift (c idT) (fun j : (equation S).Stochastic idT => c j.1) m t))
    {D : Set ℝ} {Z : ℝ → Ω → (equation S).Stochastic idT × ι → ℝ} (hZ : Noises P t0 D m v Z)
    {fuel : ℕ} {steps : Steps ℝ} {i0 : ℤ} {tl : TArr ℝ} {grid : List ℝ} (h : Along fuel steps i0 tl grid t0)
    (hD : ∀ u ∈ grid, u ∈ D) {s s' : Ω → σ} (hs : RealisesAll (equation S) idT t0 grid Z s s') :
    ∃ (X : ℝ → Ω → ι → ℝ) (e : ℝ → ι → ℝ),
      (∀ ω, S.call fuel steps i0 tl (s ω) = .ok (tl.data.map fun t => some
        (if S.log then S.expO (S.letX t (X t ω)) else S.letX t (X t ω)), s' ω)) ∧
      e t0 = (if S.log then S.logX x0 else x0) ∧
      (∀ u w, StepOf grid t0 u w → t0 ≤ u → u < w → w ≤ t0 + T → ∀ i, e w i = e u i +
        (c idT u (e u) i + ∑ j : (equation S).Stochastic idT, m j * c j.1 u (e u) i) * (w - u)) ∧
      ∀ t ∈ tl.data, t ∈ Set.Icc t0 (t0 + T) → ∀ i, Integrable (fun ω => X t ω i) P ∧ ∫ ω, X t ω i ∂P = e t i := by
  obtain ⟨X, e, hX⟩ := C86_scheme hS hdt hcoef hinit h hs
  obtain ⟨h1, h2, h3⟩ := along_mem h
  refine ⟨X, fun u i => ∫ ω, X u ω i ∂P, e, ?_, ?_, fun t ht hI i => ⟨?_, rfl⟩⟩
  · funext i
    simp [hX.start]
  · intro u w huw h0u hlt hw i
    exact means_step hT hL hv hZ hA h.isGrid.1 h2 hD hX huw h0u hlt hw i
  · exact (sums_memLp hT hL hv hZ h.isGrid.1 h2 hD hX (h3 t ht) hI i).integrable one_le_two

/-- **C102** (order one). For the same equations, there are functions of time that solve the ordinary differential
equation obtained when each increment of noise is replaced by its mean; these are the means of all the solutions of
the equation, and means of simulated values differ from them at most by a constant times the longest step, whatever the
timeline and the steps, while simulated values only approach solutions as the square root of the longest step. -/
theorem C102_order (hS : SDEOk S) (hdt : S.sources.lookup idT = some dtSource)
    (hcoef : ∀ t x, (equation S).coef t x = .ok fun id => c id t x) (hinit : S.init t0 = .ok x0)
    [Nonempty ((equation S).Stochastic idT)] {T L M : ℝ} (hT : 0 < T)
    (hL : LipschitzCoefs (c idT) (fun j : (equation S).Stochastic idT => c j.1) t0 T L)
    {m v : (equation S).Stochastic idT → ℝ} (hv : ∀ j, 0 < v j)
    (hA : ∀ t ∈ Set.Icc t0 (t0 + T), IsAffineIn (meanDrift (c idT) (fun j : (equation S).Stochastic idT => c j.1) m t))
    (hM : LipschitzField (meanDrift (c idT) (fun j : (equation S).Stochastic idT => c j.1) m) t0 T M) :
    ∃ (y : ℝ → ι → ℝ) (K : ℝ), 0 ≤ K ∧
      SolvesOde (meanDrift (c idT) (fun j : (equation S).Stochastic idT => c j.1) m) t0 T
        (if S.log then S.logX x0 else x0) y ∧
      ∀ {Ω : Type} [MeasurableSpace Ω] {P : Measure Ω} [IsProbabilityMeasure P]
        {Z : ℝ → Ω → (equation S).Stochastic idT × ι → ℝ}, Noises P t0 (Set.Icc t0 (t0 + T)) m v Z →
        (∀ {Y : ℝ → Ω → ι → ℝ}, Solves P (c idT) (fun j : (equation S).Stochastic idT => c j.1) t0 T
          (if S.log then S.logX x0 else x0) Z Y → ∀ t ∈ Set.Icc t0 (t0 + T), ∀ i, ∫ ω, Y t ω i ∂P = y t i) ∧
        ∀ {fuel : ℕ} {steps : Steps ℝ} {i0 : ℤ} {tl : TArr ℝ} {grid : List ℝ} {δ : ℝ} {s s' : Ω → σ}, 0 ≤ δ →
          Along fuel steps i0 tl grid t0 → Mesh grid δ → RealisesAll (equation S) idT t0 grid Z s s' →
          ∃ X : ℝ → Ω → ι → ℝ,
            (∀ ω, S.call fuel steps i0 tl (s ω) = .ok (tl.data.map fun t => some
              (if S.log then S.expO (S.letX t (X t ω)) else S.letX t (X t ω)), s' ω)) ∧
            ∀ t ∈ tl.data, t ∈ Set.Icc t0 (t0 + T) → ∀ i, |∫ ω, X t ω i ∂P - y t i| ≤ K * δ := by
  obtain ⟨y, hy⟩ := exists_ode hM hT (if S.log then S.logX x0 else x0)
  obtain ⟨K, hK, herr⟩ := ode_error hM hT hy
  refine ⟨y, K, hK, hy, ?_⟩
  intro Ω _ P _ Z hZ
  refine ⟨fun hY t ht i => solution_mean hT hL hv hA hM hy hZ hY ht i, ?_⟩
  intro fuel steps i0 tl grid δ s s' hδ ha hm hs
  obtain ⟨X, e, hX⟩ := C86_scheme hS hdt hcoef hinit ha hs
  obtain ⟨-, h2, h3⟩ := along_mem ha
  obtain ⟨g, g1, g2, g3, g4, g5⟩ := restrict_grid_all hT.le ha.isGrid.1 h2 hm hX
  refine ⟨X, e, fun t ht hI i => ?_⟩
  have h := herr g1 g2 hδ g4 (means_euler hT.le hL hv hZ hA g1 g2 (fun u hu => ((g3 u).1 hu).2) g5) t
    ((g3 t).2 ⟨h3 t ht, hI⟩) ⟨by linarith [hI.1], hI.2⟩
  have := (norm_le_pi_norm _ i).trans h
  simpa only [Real.norm_eq_abs, Pi.sub_apply] using this

end

section
variable {ι σ O : Type} [Fintype ι] [MeasurableSpace σ] {μ : Measure σ} [IsProbabilityMeasure μ]
  {S : SDE ℝ (ι → ℝ) O ℕ σ} {c : ℕ → ℝ → (ι → ℝ) → ι → ℝ} {t0 : ℝ} {x0 : ι → ℝ}
  {law : (equation S).Stochastic idT → ℝ → Measure (ι → ℝ)}

/-- **C102** (random generators). The same for simulations that draw the increments of noise from a random generator: the
means of simulated values, over the states of the generator, differ from those of solutions at most by a constant times
the longest step. -/
theorem C102_draws (hS : SDEOk S) (hdt : S.sources.lookup idT = some dtSource)
    (hcoef : ∀ t x, (equation S).coef t x = .ok fun id => c id t x) (hinit : S.init t0 = .ok x0)
    [Nonempty ((equation S).Stochastic idT)] (hdraw : (equation S).DrawsNoise idT μ law) {T L M : ℝ} (hT : 0 < T)
    (hL : LipschitzCoefs (c idT) (fun j : (equation S).Stochastic idT => c j.1) t0 T L)
    {m v : (equation S).Stochastic idT → ℝ} (hv : ∀ j, 0 < v j) (hmo : ∀ j, HasMoments (law j) (m j) (v j))
    (hA : ∀ t ∈ Set.Icc t0 (t0 + T), IsAffineIn (meanDrift (c idT) (fun j : (equation S).Stochastic idT => c j.1) m t))
    (hM : LipschitzField (meanDrift (c idT) (fun j : (equation S).Stochastic idT => c j.1) m) t0 T M) :
    ∃ K ≥ 0, ∀ {Ω : Type} [MeasurableSpace Ω] {P : Measure Ω} [IsProbabilityMeasure P]
      {Z : ℝ → Ω → (equation S).Stochastic idT → ι → ℝ} {Y : ℝ → Ω → ι → ℝ},
      Increments P t0 (Set.Icc t0 (t0 + T)) (fun h => Measure.pi fun j => law j h) Z →
      Solves P (c idT) (fun j : (equation S).Stochastic idT => c j.1) t0 T (if S.log then S.logX x0 else x0)
        (fun u ω p => Z u ω p.1 p.2) Y →
      ∀ {fuel : ℕ} {steps : Steps ℝ} {i0 : ℤ} {tl : TArr ℝ} {grid : List ℝ} {δ : ℝ}, 0 ≤ δ →
        Along fuel steps i0 tl grid t0 → Mesh grid δ →
        ∃ (X : ℝ → σ → ι → ℝ) (st : σ → σ),
          (∀ s, S.call fuel steps i0 tl s = .ok (tl.data.map fun t => some
            (if S.log then S.expO (S.letX t (X t s)) else S.letX t (X t s)), st s)) ∧
          ∀ t ∈ tl.data, t ∈ Set.Icc t0 (t0 + T) → ∀ i, Integrable (fun s => X t s i) μ ∧
            |∫ s, X t s i ∂μ - ∫ ω, Y t ω i ∂P| ≤ K * δ := by
  obtain ⟨y, hy⟩ := exists_ode hM hT (if S.log then S.logX x0 else x0)
  obtain ⟨K, hK, herr⟩ := ode_error hM hT hy
  obtain ⟨K', hK', hclose⟩ := solution_close_all hT.le hL (if S.log then S.logX x0 else x0) m hv
  refine ⟨K, hK, ?_⟩
  intro Ω _ P _ Z' Y hZ' hY fuel steps i0 tl grid δ hδ ha hm
  have hprob : ∀ j h, 0 < h → IsProbabilityMeasure (law j h) := by
    intro j h hh
    obtain ⟨ν, h1, h2⟩ := hdraw j 0 h hh.ne'
    rw [← h2 hh]
    exact h1.isProb
  have hN := noises_of_increments hprob hmo hZ'
  obtain ⟨X, X', st, g, e, g1, g2, g3, g4, g5, g6, g7⟩ :=
    coupling_of_scheme hS hdt hcoef hinit hdraw hT.le hL hZ' ha hm
  refine ⟨X, st, e, fun t ht hI i => ?_⟩
  have hid : IdentDistrib (fun s => X t s i) (fun ω => X' t ω i) μ P :=
    g7.comp (measurable_pi_apply (X := fun _ => ℝ) ((⟨t, ht, hI⟩ : {t : ℝ // t ∈ tl.data ∧ t ∈ Set.Icc t0 (t0 + T)}), i))
  have hl := (hclose hN hY hδ g1 g2 g3 g4 g6 t (g5 t ht hI)).1 i
  refine ⟨hid.integrable_iff.2 (hl.integrable one_le_two), ?_⟩
  rw [hid.integral_eq, solution_mean hT hL hv hA hM hy hN hY hI i]
  have h := herr g1 g2 hδ g4 (means_euler hT.le hL hv hN hA g1 g2 g3 g6) t (g5 t ht hI) ⟨by linarith [hI.1], hI.2⟩
  have := (norm_le_pi_norm _ i).trans h
  simpa only [Real.norm_eq_abs, Pi.sub_apply] using this

end

/-! ### Examples -/

theorem exSum (f : exIds → ℝ) : ∑ j : exIds, f j = f exW + f exJ := by
  have : (Finset.univ : Finset exIds) = {exW, exJ} := by decide
  rw [this, Finset.sum_pair (by decide)]

/-- The drift once jumps are replaced by their mean. -/
theorem exMeanDrift {ι : Type} [Fintype ι] (q t : ℝ) (x : ι → ℝ) (i : ι) :
    meanDrift (fun _ x i => exCoef idT * x i) (fun (j : exIds) (_ : ℝ) x i => exCoef j.1 * x i)
      (fun j : exIds => if j.1 = idJ then q else 0) t x i = (1 / 20 + q / 10) * x i := by
  unfold meanDrift
  rw [exSum]
  simp [exCoef, idT, idW, idJ]
  ring

theorem exMeanDrift_affine {ι : Type} [Fintype ι] (q t : ℝ) :
    IsAffineIn (ι := ι) (meanDrift (fun _ x i => exCoef idT * x i) (fun (j : exIds) (_ : ℝ) x i => exCoef j.1 * x i)
      (fun j : exIds => if j.1 = idJ then q else 0) t) := by
  classical
  refine ⟨fun _ => 0, fun i k => if k = i then 1 / 20 + q / 10 else 0, fun x i => ?_⟩
  rw [exMeanDrift]
  simp

theorem exMeanDrift_field {ι : Type} [Fintype ι] (q t0 T : ℝ) :
    LipschitzField (ι := ι) (meanDrift (fun _ x i => exCoef idT * x i)
      (fun (j : exIds) (_ : ℝ) x i => exCoef j.1 * x i) (fun j : exIds => if j.1 = idJ then q else 0)) t0 T
      |1 / 20 + q / 10| := by
  intro t _ u _ x y
  have e : ∀ t (x : ι → ℝ), meanDrift (fun _ x i => exCoef idT * x i)
      (fun (j : exIds) (_ : ℝ) x i => exCoef j.1 * x i) (fun j : exIds => if j.1 = idJ then q else 0) t x =
        (1 / 20 + q / 10) • x := fun t x => funext fun i => exMeanDrift q t x i
  rw [e, e, ← smul_sub, norm_smul, Real.norm_eq_abs]
  exact mul_le_mul_of_nonneg_left (le_add_of_nonneg_right (by positivity)) (abs_nonneg _)

/-- Diffusion and jumps, `dx = 0.05*x*dt + 0.2*x*dw + 0.1*x*dj` from `10`, with two steps of one half each: the mean of
the values simulated for time `2` is `10*(1 + 0.35/2)**2`. -/
example : ∃ (Ω : Type) (_ : MeasurableSpace Ω) (P : Measure Ω) (Z : ℝ → Ω → exIds → Fin 3 → ℝ)
    (X : ℝ → Ω → Fin 3 → ℝ),
    HasLaw (fun ω => Z 2 ω - Z 1 ω) (Measure.pi fun j : exIds => Measure.pi fun _ : Fin 3 =>
      if j.1 = idJ then compoundPoisson 3 (Measure.dirac 1) else gaussianReal 0 1) P ∧
    (∀ ω, (exJumps (pathNoise fun u ω => Z u ω exW) (pathNoise fun u ω => Z u ω exJ)).call 10 .none 0
      ⟨[3], [1, 3 / 2, 2]⟩ ω = .ok ([some (X 1 ω), some (X (3 / 2) ω), some (X 2 ω)], ω)) ∧
    ∀ i, ∫ ω, X 2 ω i ∂P = 10 * (1 + 7 / 40) ^ 2 := by
  obtain ⟨Ω, mΩ, P, Z, hP, hI, hN⟩ := exists_noises (ι := Fin 3) exIds
  have hL := exLipschitzN (ι := Fin 3) (exCoef idT) (fun j : exIds => exCoef j.1) 1 1
  obtain ⟨X, e, h1, h2, h3, h4⟩ := C102_mean
    (S := exJumps (pathNoise fun u ω => Z u ω exW) (pathNoise fun u ω => Z u ω exJ))
    (c := fun id _ x i => exCoef id * x i) (t0 := 1) (T := 1) (exJumps_ok _ _) rfl (exJumps_coef _ _) rfl zero_le_one hL
    (m := fun j : exIds => if j.1 = idJ then 3 else 0) (v := fun j : exIds => if j.1 = idJ then 3 else 1)
    (fun j => by split_ifs <;> norm_num) (fun t _ => exMeanDrift_affine 3 t) hN exAlongS
    (by intro u hu; simp at hu; rcases hu with rfl | rfl | rfl <;> norm_num)
    (exJumps_realises Z (by norm_num) (by simp))
  refine ⟨Ω, mΩ, P, Z, X, ?_, h1, fun i => ?_⟩
  · have := hI.law 1 (by norm_num) 2 (by norm_num) le_rfl (by norm_num)
    norm_num at this
    exact this
  · have s1 := h3 1 (3 / 2) ⟨by simp, by simp, .inl ⟨le_rfl, by norm_num, by
      intro c hc h; simp at hc; rcases hc with rfl | rfl | rfl <;> norm_num at h⟩⟩ le_rfl (by norm_num) (by norm_num) i
    have s2 := h3 (3 / 2) 2 ⟨by simp, by simp, .inl ⟨by norm_num, by norm_num, by
      intro c hc h; simp at hc; rcases hc with rfl | rfl | rfl <;> norm_num at h⟩⟩ (by norm_num) (by norm_num)
      (by norm_num) i
    have d := fun t x => exMeanDrift (ι := Fin 3) 3 t x i
    unfold meanDrift at d
    have h2 : e 1 i = 10 := by rw [h2]; rfl
    have s1 := s1.trans (congrArg (fun z => e 1 i + z * (3 / 2 - 1)) (d 1 (e 1)))
    have s2 := s2.trans (congrArg (fun z => e (3 / 2) i + z * (2 - 3 / 2)) (d (3 / 2) (e (3 / 2))))
    rw [(h4 2 (by simp) (by norm_num) i).2, s2, s1, h2]
    norm_num

/-- The mean of the solution at time `2` is `10*exp(0.35)`. -/
example : ∃ (Ω : Type) (_ : MeasurableSpace Ω) (P : Measure Ω) (Z : ℝ → Ω → exIds → Fin 3 → ℝ) (K : ℝ)
    (X : ℝ → Ω → Fin 3 → ℝ) (Y : ℝ → Ω → Fin 3 → ℝ),
    Solves P (fun _ x i => exCoef idT * x i) (fun (j : exIds) _ x i => exCoef j.1 * x i) 1 1
      (fun _ => 10) (fun u ω c => Z u ω c.1 c.2) Y ∧
    (∀ ω, (exJumps (pathNoise fun u ω => Z u ω exW) (pathNoise fun u ω => Z u ω exJ)).call 10 .none 0
      ⟨[3], [1, 3 / 2, 2]⟩ ω = .ok ([some (X 1 ω), some (X (3 / 2) ω), some (X 2 ω)], ω)) ∧
    ∀ i, ∫ ω, Y 2 ω i ∂P = 10 * Real.exp (7 / 20) ∧ |∫ ω, X 2 ω i ∂P - 10 * Real.exp (7 / 20)| ≤ K * (1 / 2) := by
  obtain ⟨Ω, mΩ, P, Z, hP, hI, hN⟩ := exists_noises (ι := Fin 3) exIds
  have hL := exLipschitzN (ι := Fin 3) (exCoef idT) (fun j : exIds => exCoef j.1) 1 1
  have hv : ∀ j : exIds, (0 : ℝ) < if j.1 = idJ then 3 else 1 := fun j => by split_ifs <;> norm_num
  obtain ⟨y, K, hK, hy, h⟩ := C102_order
    (S := exJumps (pathNoise fun u ω => Z u ω exW) (pathNoise fun u ω => Z u ω exJ))
    (c := fun id _ x i => exCoef id * x i) (t0 := 1) (T := 1) (exJumps_ok _ _) rfl (exJumps_coef _ _) rfl one_pos hL
    (m := fun j : exIds => if j.1 = idJ then 3 else 0) (v := fun j : exIds => if j.1 = idJ then 3 else 1)
    hv (fun t _ => exMeanDrift_affine 3 t) (exMeanDrift_field 3 1 1)
  haveI : Nonempty exIds := ⟨exW⟩
  obtain ⟨K0, -, h0⟩ := exists_solution_all zero_le_one hL (fun _ => 10) _ hv
  obtain ⟨Y, hY, -⟩ := h0 hN
  have hyt : y 2 = fun _ => 10 * Real.exp (7 / 20) := by
    have hz : SolvesOde (ι := Fin 3) (meanDrift (fun _ x i => exCoef idT * x i)
        (fun (j : exIds) (_ : ℝ) x i => exCoef j.1 * x i) (fun j : exIds => if j.1 = idJ then 3 else 0)) 1 1
        (fun _ => 10) (fun t _ => 10 * Real.exp (7 / 20 * (t - 1))) := by
      refine ⟨by simp, fun t _ => HasDerivAt.hasDerivWithinAt (hasDerivAt_pi.2 fun i => ?_)⟩
      have h1 : HasDerivAt (fun t : ℝ => 7 / 20 * (t - 1)) (7 / 20) t := by
        simpa using ((hasDerivAt_id t).sub_const 1).const_mul (7 / 20 : ℝ)
      have h2 := (h1.exp).const_mul 10
      rw [exMeanDrift]
      have e : (1 / 20 + 3 / 10) * (10 * Real.exp (7 / 20 * (t - 1))) =
          10 * (Real.exp (7 / 20 * (t - 1)) * (7 / 20)) := by ring
      rw [e]
      exact h2
    have := ode_unique (exMeanDrift_field 3 1 1) one_pos hy hz (x := 2) (by norm_num)
    rw [this]
    norm_num
  obtain ⟨h1, h2⟩ := h hN
  obtain ⟨X, e1, e2⟩ := h2 (δ := 1 / 2) (by norm_num) exAlongS exMesh (exJumps_realises Z (by norm_num) (by simp))
  refine ⟨Ω, mΩ, P, Z, K, X, Y, hY, e1, fun i => ⟨?_, ?_⟩⟩
  · rw [h1 hY 2 (by norm_num) i, hyt]
  · have := e2 2 (by simp) (by norm_num) i
    rwa [hyt] at this

/-- With the Wiener source and the source of jumps of the library: three jumps per unit of time, of mean `-1`. -/
example : ∃ (Ω : Type) (_ : MeasurableSpace Ω) (P : Measure Ω) (Z : ℝ → Ω → exIds → Cells ([2] ++ [3]) → ℝ) (K : ℝ)
    (X : ℝ → (ℕ → Item ℝ) → Cells ([2] ++ [3]) → ℝ) (Y : ℝ → Ω → Cells ([2] ++ [3]) → ℝ) (st : (ℕ → Item ℝ) → ℕ → Item ℝ),
    Solves P (fun _ x i => exCoef idT * x i) (fun (j : exIds) _ x i => exCoef j.1 * x i) 1 1
      (fun _ => 10) (fun u ω c => Z u ω c.1 c.2) Y ∧
    (∀ s, exMerton.call 10 .none 0 ⟨[3], [1, 3 / 2, 2]⟩ s =
      .ok ([some (X 1 s), some (X (3 / 2) s), some (X 2 s)], st s)) ∧
    ∀ i, |∫ s, X 2 s i ∂exState - ∫ ω, Y 2 ω i ∂P| ≤ K * (1 / 2) := by
  have h2 : MemLp id 2 exJumpLaw := memLp_id_gaussianReal 2
  obtain ⟨Ω, mΩ, P, Z, hP, hI, hN⟩ := exists_noise_paths (ι := Cells ([2] ++ [3])) exIds (by norm_num : (0 : ℝ) ≤ 3)
    exJumpLaw h2
  have hL := exLipschitzN (ι := Cells ([2] ++ [3])) (exCoef idT) (fun j : exIds => exCoef j.1) 1 1
  have hv : ∀ j : exIds, (0 : ℝ) < if j.1 = idJ then 3 * ∫ x, x ^ 2 ∂exJumpLaw else 1 := fun j => by
    split_ifs
    · exact mul_pos (by norm_num) exJumpLaw_sq
    · exact one_pos
  haveI : Nonempty exIds := ⟨exW⟩
  obtain ⟨K0, -, h0⟩ := exists_solution_all zero_le_one hL (fun _ => 10) _ hv
  obtain ⟨Y, hY, -⟩ := h0 hN
  obtain ⟨K, -, h⟩ := C102_draws (S := exMerton) (c := fun id _ x i => exCoef id * x i) (t0 := 1) (T := 1)
    (exJumps_ok _ _) rfl (exJumps_coef _ _) rfl exMerton_draws one_pos hL hv
    (fun j => jumpDiffusion_moments (by norm_num) h2 j) (fun t _ => exMeanDrift_affine _ t) (exMeanDrift_field _ 1 1)
  obtain ⟨X, st, e1, e2⟩ := h hI hY (δ := 1 / 2) (by norm_num) exAlongS exMesh
  exact ⟨Ω, mΩ, P, Z, K, X, Y, st, hY, e1, fun i => (e2 2 (by simp) (by norm_num) i).2⟩

end Sdepy
