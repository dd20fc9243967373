import Verif.Lemmas.Variances
import Verif.Props.Means

/-!
# Property C104: mean squares and variances of simulated values, for linear equations
-/

set_option linter.unusedSectionVars false

open MeasureTheory ProbabilityTheory

namespace Sdepy

open Spec

section
variable {ι J : Type} [Fintype ι] [Fintype J] [Nonempty J]
  {a : ℝ → (ι → ℝ) → ι → ℝ} {b : J → ℝ → (ι → ℝ) → ι → ℝ} {t0 T L M : ℝ} {x0 : ι → ℝ} {m v : J → ℝ}
  {p q r n w : ℝ → ι → ℝ} {y : ℝ → ι ⊕ ι → ℝ}

/-- A difference of mean squares, in terms of the mean square of the difference. -/
theorem square_sub_le {Ω : Type} [MeasurableSpace Ω] {P : Measure Ω} [IsProbabilityMeasure P] {X Y : Ω → ι → ℝ}
    (hX : ∀ i, MemLp (fun ω => X ω i) 2 P) (hY : ∀ i, MemLp (fun ω => Y ω i) 2 P) (i : ι) {ε : ℝ} (hε : 0 < ε) :
    |∫ ω, X ω i ^ 2 ∂P - ∫ ω, Y ω i ^ 2 ∂P| ≤
      ε * ∫ ω, Y ω i ^ 2 ∂P + (1 + 1 / ε) * meanSq P fun ω i => X ω i - Y ω i := by
  have i1 := (hX i).integrable_sq
  have i2 := (hY i).integrable_sq
  have i3 : Integrable (fun ω => (X ω i - Y ω i) ^ 2) P := ((hX i).sub (hY i)).integrable_sq
  rw [← integral_sub i1 i2]
  have h1 : ∫ ω, |X ω i ^ 2 - Y ω i ^ 2| ∂P ≤ ∫ ω, (ε * Y ω i ^ 2 + (1 + 1 / ε) * (X ω i - Y ω i) ^ 2) ∂P := by
    refine integral_mono (i1.sub i2).abs ((i2.const_mul _).add (i3.const_mul _)) fun ω => ?_
    show |X ω i ^ 2 - Y ω i ^ 2| ≤ ε * Y ω i ^ 2 + (1 + 1 / ε) * (X ω i - Y ω i) ^ 2
    generalize hd : X ω i - Y ω i = d
    have hx : X ω i = Y ω i + d := by linarith
    rw [hx]
    generalize Y ω i = z
    have e1 : 0 ≤ ε * z ^ 2 - 2 * (z * d) + 1 / ε * d ^ 2 := by
      have : ε * z ^ 2 - 2 * (z * d) + 1 / ε * d ^ 2 = 1 / ε * (ε * z - d) ^ 2 := by field_simp; ring
      rw [this]; positivity
    have e2 : 0 ≤ ε * z ^ 2 + 2 * (z * d) + 1 / ε * d ^ 2 := by
      have : ε * z ^ 2 + 2 * (z * d) + 1 / ε * d ^ 2 = 1 / ε * (ε * z + d) ^ 2 := by field_simp; ring
      rw [this]; positivity
    have e3 := sq_nonneg d
    rw [abs_le]
    constructor <;> linarith
  refine (abs_integral_le_integral_abs).trans (h1.trans ?_)
  rw [integral_add (i2.const_mul _) (i3.const_mul _), integral_const_mul, integral_const_mul]
  refine add_le_add le_rfl (mul_le_mul_of_nonneg_left ?_ (by positivity))
  exact Finset.single_le_sum (f := fun c => ∫ ω, (X ω c - Y ω c) ^ 2 ∂P)
    (fun c _ => integral_nonneg fun ω => sq_nonneg _) (Finset.mem_univ i)

/-- Means and mean squares of solutions solve an ordinary differential equation. -/
theorem solution_moments (hT : 0 < T) (hL : LipschitzCoefs a b t0 T L) (hv : ∀ j, 0 < v j)
    (hc : CellMoments a b m v t0 T p q r n w) (hM : LipschitzField (momentField p q r n w) t0 T M)
    (hy : SolvesOde (momentField p q r n w) t0 T (Sum.elim x0 fun i => x0 i ^ 2) y)
    {Ω : Type} [MeasurableSpace Ω] {P : Measure Ω} [IsProbabilityMeasure P] {Z : ℝ → Ω → J × ι → ℝ} {Y : ℝ → Ω → ι → ℝ}
    (hZ : Noises P t0 (Set.Icc t0 (t0 + T)) m v Z) (hU : UncorrelatedNoise P t0 (Set.Icc t0 (t0 + T)) m Z)
    (hY : Solves P a b t0 T x0 Z Y) {t : ℝ} (ht : t ∈ Set.Icc t0 (t0 + T)) (i : ι) :
    ∫ ω, Y t ω i ∂P = y t (.inl i) ∧ ∫ ω, Y t ω i ^ 2 ∂P = y t (.inr i) ∧
    Var[fun ω => Y t ω i; P] = y t (.inr i) - y t (.inl i) ^ 2 := by
  obtain ⟨K, hK, h1⟩ := solution_close_all hT.le hL x0 m hv
  obtain ⟨K', hK', h2⟩ := moments_error hT hL hv hc hM hy
  have hlY := hY.memLp t ht
  set S := ∫ ω, Y t ω i ^ 2 ∂P with hS
  have key : ∀ ε : ℝ, 0 < ε → |∫ ω, Y t ω i ∂P - y t (.inl i)| ≤ √(K * ε ^ 2) + K' * ε ^ 2 ∧
      |S - y t (.inr i)| ≤ ε * S + (ε + 1) * (K * ε) + K' * ε ^ 2 := by
    intro ε hε
    have hδ : 0 < ε ^ 2 := by positivity
    obtain ⟨g, g1, g2, g3, g4, g5⟩ := exists_grid hδ ht
    obtain ⟨X, hX⟩ := exists_schemes g1 g2 a b x0 Z
    obtain ⟨l1, l2⟩ := h1 hZ hY hδ.le g1 g2 g4 g5 hX t g3
    obtain ⟨-, l3, l4, -⟩ := h2 hZ hU hδ.le g1 g2 g4 g5 hX t g3 i
    have l5 := (mean_sub_le l1 hlY i).trans (Real.sqrt_le_sqrt l2)
    have l6 := square_sub_le l1 hlY i hε
    rw [← hS] at l6
    have l7 : (1 + 1 / ε) * meanSq P (fun ω i => X t ω i - Y t ω i) ≤ (ε + 1) * (K * ε) := by
      refine (mul_le_mul_of_nonneg_left l2 (by positivity)).trans_eq ?_
      field_simp
    constructor
    · have l8 := abs_sub_le (∫ ω, Y t ω i ∂P) (∫ ω, X t ω i ∂P) (y t (.inl i))
      rw [abs_sub_comm (∫ ω, Y t ω i ∂P) (∫ ω, X t ω i ∂P)] at l8
      linarith
    · have l8 := abs_sub_le S (∫ ω, X t ω i ^ 2 ∂P) (y t (.inr i))
      rw [abs_sub_comm S (∫ ω, X t ω i ^ 2 ∂P)] at l8
      linarith
  have z1 : ∫ ω, Y t ω i ∂P = y t (.inl i) := by
    have hlim : Filter.Tendsto (fun ε : ℝ => √(K * ε ^ 2) + K' * ε ^ 2) (nhdsWithin 0 (Set.Ioi 0)) (nhds 0) := by
      have hc : Continuous fun ε : ℝ => √(K * ε ^ 2) + K' * ε ^ 2 := by fun_prop
      have := hc.tendsto 0
      simp only [ne_eq, OfNat.ofNat_ne_zero, not_false_eq_true, zero_pow, mul_zero, Real.sqrt_zero, add_zero] at this
      exact this.mono_left nhdsWithin_le_nhds
    have := ge_of_tendsto hlim (Filter.eventually_of_mem self_mem_nhdsWithin fun ε hε => (key ε hε).1)
    linarith [abs_eq_zero.1 (le_antisymm this (abs_nonneg _))]
  have z2 : S = y t (.inr i) := by
    have hlim : Filter.Tendsto (fun ε : ℝ => ε * S + (ε + 1) * (K * ε) + K' * ε ^ 2) (nhdsWithin 0 (Set.Ioi 0))
        (nhds 0) := by
      have hc : Continuous fun ε : ℝ => ε * S + (ε + 1) * (K * ε) + K' * ε ^ 2 := by fun_prop
      have := hc.tendsto 0
      simp only [ne_eq, OfNat.ofNat_ne_zero, not_false_eq_true, zero_pow, mul_zero, zero_mul, add_zero] at this
      exact this.mono_left nhdsWithin_le_nhds
    have := ge_of_tendsto hlim (Filter.eventually_of_mem self_mem_nhdsWithin fun ε hε => (key ε hε).2)
    linarith [abs_eq_zero.1 (le_antisymm this (abs_nonneg _))]
  refine ⟨z1, z2, ?_⟩
  rw [variance_eq_sub (hlY i), z1, ← z2]
  rfl

end

section
variable {Ω ι σ O : Type} [Fintype ι] {S : SDE ℝ (ι → ℝ) O ℕ σ} {c : ℕ → ℝ → (ι → ℝ) → ι → ℝ} {t0 : ℝ} {x0 : ι → ℝ}

/-- **C104** (mean squares). Simulate an equation with any number of sources of noise, whose increments are independent
of the past, uncorrelated with each other, and have mean and variance proportional to the time elapsed. If the drift of
each cell, once increments of noise are replaced by their means, is `p + q*x`, and the variance per unit of time of its
noise is `r + n*x + w*x**2`, with `x` the value of the cell, then means and mean squares of simulated values are, exactly,
obtained from the initial values and their squares by the recursion below; where no other property of the laws of the
noise matters. -/
theorem C104_squares [MeasurableSpace Ω] {P : Measure Ω} [IsProbabilityMeasure P] (hS : SDEOk S)
    (hdt : S.sources.lookup idT = some dtSource)
    (hcoef : ∀ t x, (equation S).coef t x = .ok fun id => c id t x) (hinit : S.init t0 = .ok x0)
    [Nonempty ((equation S).Stochastic idT)] {T L : ℝ} (hT : 0 ≤ T)
    (hL : LipschitzCoefs (c idT) (fun j : (equation S).Stochastic idT => c j.1) t0 T L)
    {m v : (equation S).Stochastic idT → ℝ} (hv : ∀ j, 0 < v j) {p q r n w : ℝ → ι → ℝ}
    (hc : CellMoments (c idT) (fun j : (equation S).Stochastic idT => c j.1) m v t0 T p q r n w)
    {D : Set ℝ} {Z : ℝ → Ω → (equation S).Stochastic idT × ι → ℝ} (hZ : Noises P t0 D m v Z)
    (hU : UncorrelatedNoise P t0 D m Z)
    {fuel : ℕ} {steps : Steps ℝ} {i0 : ℤ} {tl : TArr ℝ} {grid : List ℝ} (h : Along fuel steps i0 tl grid t0)
    (hD : ∀ u ∈ grid, u ∈ D) {s s' : Ω → σ} (hs : RealisesAll (equation S) idT t0 grid Z s s') :
    ∃ (X : ℝ → Ω → ι → ℝ) (e f : ℝ → ι → ℝ),
      (∀ ω, S.call fuel steps i0 tl (s ω) = .ok (tl.data.map fun t => some
        (if S.log then S.expO (S.letX t (X t ω)) else S.letX t (X t ω)), s' ω)) ∧
      e t0 = (if S.log then S.logX x0 else x0) ∧ (∀ i, f t0 i = e t0 i ^ 2) ∧
      (∀ u z, StepOf grid t0 u z → t0 ≤ u → u < z → z ≤ t0 + T → ∀ i,
        e z i = e u i + (p u i + q u i * e u i) * (z - u) ∧
        f z i = f u i +
          (2 * (p u i * e u i + q u i * f u i) + (r u i + n u i * e u i + w u i * f u i)) * (z - u) +
          (p u i ^ 2 + 2 * p u i * q u i * e u i + q u i ^ 2 * f u i) * (z - u) ^ 2) ∧
      ∀ t ∈ tl.data, t ∈ Set.Icc t0 (t0 + T) → ∀ i, MemLp (fun ω => X t ω i) 2 P ∧
        ∫ ω, X t ω i ∂P = e t i ∧ ∫ ω, X t ω i ^ 2 ∂P = f t i ∧ Var[fun ω => X t ω i; P] = f t i - e t i ^ 2 := by
  obtain ⟨X, e, hX⟩ := C86_scheme hS hdt hcoef hinit h hs
  obtain ⟨h1, h2, h3⟩ := along_mem h
  refine ⟨X, fun u i => ∫ ω, X u ω i ∂P, fun u i => ∫ ω, X u ω i ^ 2 ∂P, e, ?_, ?_, ?_, fun t ht hI i => ?_⟩
  · funext i
    simp [hX.start]
  · intro i
    simp [hX.start]
  · intro u z huz h0u hlt hz i
    refine ⟨?_, squares_step hT hL hv hZ hU hc h.isGrid.1 h2 hD hX huz h0u hlt hz i⟩
    have := means_step hT hL hv hZ (cell_affine hc) h.isGrid.1 h2 hD hX huz h0u hlt hz i
    rwa [hc.drift u ⟨h0u, hlt.le.trans hz⟩] at this
  · have hl := sums_memLp hT hL hv hZ h.isGrid.1 h2 hD hX (h3 t ht) hI i
    refine ⟨hl, rfl, rfl, ?_⟩
    rw [variance_eq_sub hl]
    rfl

/-- **C104** (order one). For the same equations, means and mean squares of all the solutions are given functions of
time, that solve the ordinary differential equation `de = p + q*e`, `df = 2*(p*e + q*f) + (r + n*e + w*f)`; means, mean
squares and variances of simulated values differ from those of the solutions at most by a constant times the longest step,
whatever the timeline and the steps. -/
theorem C104_order (hS : SDEOk S) (hdt : S.sources.lookup idT = some dtSource)
    (hcoef : ∀ t x, (equation S).coef t x = .ok fun id => c id t x) (hinit : S.init t0 = .ok x0)
    [Nonempty ((equation S).Stochastic idT)] {T L M : ℝ} (hT : 0 < T)
    (hL : LipschitzCoefs (c idT) (fun j : (equation S).Stochastic idT => c j.1) t0 T L)
    {m v : (equation S).Stochastic idT → ℝ} (hv : ∀ j, 0 < v j) {p q r n w : ℝ → ι → ℝ}
    (hc : CellMoments (c idT) (fun j : (equation S).Stochastic idT => c j.1) m v t0 T p q r n w)
    (hM : LipschitzField (momentField p q r n w) t0 T M) :
    ∃ (y : ℝ → ι ⊕ ι → ℝ) (K : ℝ), 0 ≤ K ∧
      SolvesOde (momentField p q r n w) t0 T
        (Sum.elim (if S.log then S.logX x0 else x0) fun i => (if S.log then S.logX x0 else x0) i ^ 2) y ∧
      ∀ {Ω : Type} [MeasurableSpace Ω] {P : Measure Ω} [IsProbabilityMeasure P]
        {Z : ℝ → Ω → (equation S).Stochastic idT × ι → ℝ}, Noises P t0 (Set.Icc t0 (t0 + T)) m v Z →
        UncorrelatedNoise P t0 (Set.Icc t0 (t0 + T)) m Z →
        (∀ {Y : ℝ → Ω → ι → ℝ}, Solves P (c idT) (fun j : (equation S).Stochastic idT => c j.1) t0 T
          (if S.log then S.logX x0 else x0) Z Y → ∀ t ∈ Set.Icc t0 (t0 + T), ∀ i,
            ∫ ω, Y t ω i ∂P = y t (.inl i) ∧ ∫ ω, Y t ω i ^ 2 ∂P = y t (.inr i) ∧
            Var[fun ω => Y t ω i; P] = y t (.inr i) - y t (.inl i) ^ 2) ∧
        ∀ {fuel : ℕ} {steps : Steps ℝ} {i0 : ℤ} {tl : TArr ℝ} {grid : List ℝ} {δ : ℝ} {s s' : Ω → σ}, 0 ≤ δ →
          Along fuel steps i0 tl grid t0 → Mesh grid δ → RealisesAll (equation S) idT t0 grid Z s s' →
          ∃ X : ℝ → Ω → ι → ℝ,
            (∀ ω, S.call fuel steps i0 tl (s ω) = .ok (tl.data.map fun t => some
              (if S.log then S.expO (S.letX t (X t ω)) else S.letX t (X t ω)), s' ω)) ∧
            ∀ t ∈ tl.data, t ∈ Set.Icc t0 (t0 + T) → ∀ i,
              |∫ ω, X t ω i ∂P - y t (.inl i)| ≤ K * δ ∧ |∫ ω, X t ω i ^ 2 ∂P - y t (.inr i)| ≤ K * δ ∧
              |Var[fun ω => X t ω i; P] - (y t (.inr i) - y t (.inl i) ^ 2)| ≤ K * δ := by
  obtain ⟨y, hy⟩ := exists_ode hM hT
    (Sum.elim (if S.log then S.logX x0 else x0) fun i => (if S.log then S.logX x0 else x0) i ^ 2)
  obtain ⟨K, hK, herr⟩ := moments_error hT hL hv hc hM hy
  refine ⟨y, K, hK, hy, ?_⟩
  intro Ω _ P _ Z hZ hU
  refine ⟨fun hY t ht i => solution_moments hT hL hv hc hM hy hZ hU hY ht i, ?_⟩
  intro fuel steps i0 tl grid δ s s' hδ ha hm hs
  obtain ⟨X, e, hX⟩ := C86_scheme hS hdt hcoef hinit ha hs
  obtain ⟨-, h2, h3⟩ := along_mem ha
  obtain ⟨g, g1, g2, g3, g4, g5⟩ := restrict_grid_all hT.le ha.isGrid.1 h2 hm hX
  refine ⟨X, e, fun t ht hI i => ?_⟩
  exact (herr hZ hU hδ g1 g2 (fun u hu => ((g3 u).1 hu).2) g4 g5 t ((g3 t).2 ⟨h3 t ht, hI⟩) i).2

end

section
variable {ι σ O : Type} [Fintype ι] [MeasurableSpace σ] {μ : Measure σ} [IsProbabilityMeasure μ]
  {S : SDE ℝ (ι → ℝ) O ℕ σ} {c : ℕ → ℝ → (ι → ℝ) → ι → ℝ} {t0 : ℝ} {x0 : ι → ℝ}
  {law : (equation S).Stochastic idT → ℝ → Measure (ι → ℝ)}

/-- **C104** (random generators). The same for simulations that draw the increments of noise from a random generator,
those of each source being independent of those of the others: means and variances of simulated values, over the states
of the generator, differ from those of solutions at most by a constant times the longest step. -/
theorem C104_draws (hS : SDEOk S) (hdt : S.sources.lookup idT = some dtSource)
    (hcoef : ∀ t x, (equation S).coef t x = .ok fun id => c id t x) (hinit : S.init t0 = .ok x0)
    [Nonempty ((equation S).Stochastic idT)] (hdraw : (equation S).DrawsNoise idT μ law) {T L M : ℝ} (hT : 0 < T)
    (hL : LipschitzCoefs (c idT) (fun j : (equation S).Stochastic idT => c j.1) t0 T L)
    {m v : (equation S).Stochastic idT → ℝ} (hv : ∀ j, 0 < v j) (hmo : ∀ j, HasMoments (law j) (m j) (v j))
    {p q r n w : ℝ → ι → ℝ}
    (hc : CellMoments (c idT) (fun j : (equation S).Stochastic idT => c j.1) m v t0 T p q r n w)
    (hM : LipschitzField (momentField p q r n w) t0 T M) :
    ∃ K ≥ 0, ∀ {Ω : Type} [MeasurableSpace Ω] {P : Measure Ω} [IsProbabilityMeasure P]
      {Z : ℝ → Ω → (equation S).Stochastic idT → ι → ℝ} {Y : ℝ → Ω → ι → ℝ},
      Increments P t0 (Set.Icc t0 (t0 + T)) (fun h => Measure.pi fun j => law j h) Z →
      Solves P (c idT) (fun j : (equation S).Stochastic idT => c j.1) t0 T (if S.log then S.logX x0 else x0)
        (fun u ω p => Z u ω p.1 p.2) Y →
      ∀ {fuel : ℕ} {steps : Steps ℝ} {i0 : ℤ} {tl : TArr ℝ} {grid : List ℝ} {δ : ℝ}, 0 ≤ δ →
        Along fuel steps i0 tl grid t0 → Mesh grid δ →
        ∃ (X : ℝ → σ → ι → ℝ) (st : σ → σ),
          (∀ s, S.call fuel steps i0 tl s = .ok (tl.data.map fun t => some
            (if S.log then S.expO (S.letX t (X t s)) else S.letX t (X t s)), st s)) ∧
          ∀ t ∈ tl.data, t ∈ Set.Icc t0 (t0 + T) → ∀ i, MemLp (fun s => X t s i) 2 μ ∧
            |∫ s, X t s i ∂μ - ∫ ω, Y t ω i ∂P| ≤ K * δ ∧
            |Var[fun s => X t s i; μ] - Var[fun ω => Y t ω i; P]| ≤ K * δ := by
  obtain ⟨y, hy⟩ := exists_ode hM hT
    (Sum.elim (if S.log then S.logX x0 else x0) fun i => (if S.log then S.logX x0 else x0) i ^ 2)
  obtain ⟨K, hK, herr⟩ := moments_error hT hL hv hc hM hy
  refine ⟨K, hK, ?_⟩
  intro Ω _ P _ Z' Y hZ' hY fuel steps i0 tl grid δ hδ ha hm
  have hprob : ∀ j h, 0 < h → IsProbabilityMeasure (law j h) := by
    intro j h hh
    obtain ⟨ν, h1, h2⟩ := hdraw j 0 h hh.ne'
    rw [← h2 hh]
    exact h1.isProb
  have hN := noises_of_increments hprob hmo hZ'
  have hU := uncorrelated_of_increments hprob hmo hZ'
  obtain ⟨X, X', st, g, e, g1, g2, g3, g4, g5, g6, g7⟩ :=
    coupling_of_scheme hS hdt hcoef hinit hdraw hT.le hL hZ' ha hm
  refine ⟨X, st, e, fun t ht hI i => ?_⟩
  have hid : IdentDistrib (fun s => X t s i) (fun ω => X' t ω i) μ P :=
    g7.comp (measurable_pi_apply (X := fun _ => ℝ) ((⟨t, ht, hI⟩ : {t : ℝ // t ∈ tl.data ∧ t ∈ Set.Icc t0 (t0 + T)}), i))
  obtain ⟨k1, k2, -, k3⟩ := herr hN hU hδ g1 g2 g3 g4 g6 t (g5 t ht hI) i
  obtain ⟨s1, -, s3⟩ := solution_moments hT hL hv hc hM hy hN hU hY hI i
  refine ⟨hid.memLp_iff.2 k1, ?_, ?_⟩
  · rw [hid.integral_eq, s1]
    exact k2
  · rw [hid.variance_eq, s3]
    exact k3

end

/-! ### Examples -/

theorem exNoises_uncorrelated {ι Ω : Type} [Fintype ι] [MeasurableSpace Ω] {P : Measure Ω} [IsProbabilityMeasure P]
    {J : Finset ℕ} {Z : ℝ → Ω → J → ι → ℝ}
    (hI : Increments P 1 (Set.Icc 1 (1 + 1)) (fun h => Measure.pi fun j : J => Measure.pi fun _ : ι =>
        if j.1 = idJ then compoundPoisson (3 * h) (Measure.dirac 1) else gaussianReal 0 h.toNNReal) Z) :
    UncorrelatedNoise P 1 (Set.Icc 1 (1 + 1)) (fun j : J => if j.1 = idJ then 3 else 0) fun u ω c => Z u ω c.1 c.2 := by
  have h := uncorrelated_of_increments (law := fun j : J => jumpNoise idJ 3 (Measure.dirac 1) j)
    (fun j h hh => by
      have : ∀ i : ι, IsProbabilityMeasure
          (if j.1 = idJ then compoundPoisson (3 * h) (Measure.dirac 1) else gaussianReal 0 h.toNNReal) := by
        intro i
        split_ifs <;> infer_instance
      unfold jumpNoise
      infer_instance)
    (fun j => jumpDiffusion_moments (by norm_num) ((memLp_const (1 : ℝ)).ae_eq (ae_eq_dirac id).symm) j) hI
  have e : (fun j : J => if j.1 = idJ then 3 * ∫ x, x ∂(Measure.dirac (1 : ℝ)) else 0) =
      fun j : J => if j.1 = idJ then 3 else 0 := by
    funext j
    simp
  rwa [e] at h

/-- The coefficients of `dx = 0.05*x*dt + 0.2*x*dw + 0.1*x*dj`, with jumps of mean `q` and variance `z` per unit of
time. -/
theorem exCellMoments {ι : Type} [Fintype ι] (q z t0 T : ℝ) :
    CellMoments (ι := ι) (fun _ x i => exCoef idT * x i) (fun (j : exIds) (_ : ℝ) x i => exCoef j.1 * x i)
      (fun j : exIds => if j.1 = idJ then q else 0) (fun j : exIds => if j.1 = idJ then z else 1) t0 T
      (fun _ _ => 0) (fun _ _ => 1 / 20 + q / 10) (fun _ _ => 0) (fun _ _ => 0) (fun _ _ => 1 / 25 + z / 100) where
  drift t _ x i := by rw [exMeanDrift]; ring
  noise t _ x i := by
    rw [exSum]
    simp [exCoef, idT, idW, idJ]
    ring

/-- With constant coefficients. -/
theorem momentField_const {ι : Type} [Fintype ι] (p q r n w : ι → ℝ) (t0 T : ℝ) :
    ∃ M, LipschitzField (momentField (fun _ => p) (fun _ => q) (fun _ => r) (fun _ => n) fun _ => w) t0 T M := by
  refine ⟨3 * (‖p‖ + ‖q‖ + ‖n‖ + ‖w‖), fun t _ u _ x y => ?_⟩
  have h0 : 0 ≤ 3 * (‖p‖ + ‖q‖ + ‖n‖ + ‖w‖) := by positivity
  have h1 : (momentField (fun _ => p) (fun _ => q) (fun _ => r) (fun _ => n) fun _ => w) t x -
      (momentField (fun _ => p) (fun _ => q) (fun _ => r) (fun _ => n) fun _ => w) u y =
        fun c => match c with
        | .inl i => q i * (x (.inl i) - y (.inl i))
        | .inr i => (2 * p i + n i) * (x (.inl i) - y (.inl i)) + (2 * q i + w i) * (x (.inr i) - y (.inr i)) := by
    funext c
    rcases c with i | i <;> simp only [Pi.sub_apply, momentField] <;> ring
  rw [h1]
  refine le_trans ?_ (mul_le_mul_of_nonneg_left (le_add_of_nonneg_right (by positivity)) h0)
  have hc : ∀ c, |x c - y c| ≤ ‖x - y‖ := fun c => norm_le_pi_norm (x - y) c
  have hp := fun i => norm_le_pi_norm p i
  have hq := fun i => norm_le_pi_norm q i
  have hn := fun i => norm_le_pi_norm n i
  have hw := fun i => norm_le_pi_norm w i
  simp only [Real.norm_eq_abs] at hp hq hn hw
  have g0 := norm_nonneg (x - y)
  have gp := norm_nonneg p
  have gq := norm_nonneg q
  have gn := norm_nonneg n
  have gw := norm_nonneg w
  refine (pi_norm_le_iff_of_nonneg (by positivity)).2 fun c => ?_
  rcases c with i | i
  · simp only [Real.norm_eq_abs, abs_mul]
    have := mul_le_mul (hq i) (hc (.inl i)) (abs_nonneg _) gq
    nlinarith [mul_nonneg gp g0, mul_nonneg gq g0, mul_nonneg gn g0, mul_nonneg gw g0]
  · simp only [Real.norm_eq_abs]
    refine (abs_add_le _ _).trans ?_
    rw [abs_mul, abs_mul]
    have b1 : |2 * p i + n i| ≤ 2 * ‖p‖ + ‖n‖ := by
      refine (abs_add_le _ _).trans ?_
      rw [abs_mul, abs_two]
      linarith [hp i, hn i]
    have b2 : |2 * q i + w i| ≤ 2 * ‖q‖ + ‖w‖ := by
      refine (abs_add_le _ _).trans ?_
      rw [abs_mul, abs_two]
      linarith [hq i, hw i]
    have c1 := mul_le_mul b1 (hc (.inl i)) (abs_nonneg _) (by positivity)
    have c2 := mul_le_mul b2 (hc (.inr i)) (abs_nonneg _) (by positivity)
    nlinarith [mul_nonneg gp g0, mul_nonneg gq g0, mul_nonneg gn g0, mul_nonneg gw g0]

/-- Diffusion and jumps, `dx = 0.05*x*dt + 0.2*x*dw + 0.1*x*dj` from `10`, with two steps of one half each: the mean
square of the values simulated for time `2` is `100*(1 + 0.77/2 + 0.1225/4)**2`. -/
example : ∃ (Ω : Type) (_ : MeasurableSpace Ω) (P : Measure Ω) (Z : ℝ → Ω → exIds → Fin 3 → ℝ)
    (X : ℝ → Ω → Fin 3 → ℝ),
    HasLaw (fun ω => Z 2 ω - Z 1 ω) (Measure.pi fun j : exIds => Measure.pi fun _ : Fin 3 =>
      if j.1 = idJ then compoundPoisson 3 (Measure.dirac 1) else gaussianReal 0 1) P ∧
    (∀ ω, (exJumps (pathNoise fun u ω => Z u ω exW) (pathNoise fun u ω => Z u ω exJ)).call 10 .none 0
      ⟨[3], [1, 3 / 2, 2]⟩ ω = .ok ([some (X 1 ω), some (X (3 / 2) ω), some (X 2 ω)], ω)) ∧
    ∀ i, ∫ ω, X 2 ω i ^ 2 ∂P = 100 * (1 + 77 / 200 + 49 / 1600) ^ 2 ∧
      Var[fun ω => X 2 ω i; P] = 100 * (1 + 77 / 200 + 49 / 1600) ^ 2 - 100 * (1 + 7 / 40) ^ 4 := by
  obtain ⟨Ω, mΩ, P, Z, hP, hI, hN⟩ := exists_noises (ι := Fin 3) exIds
  have hL := exLipschitzN (ι := Fin 3) (exCoef idT) (fun j : exIds => exCoef j.1) 1 1
  obtain ⟨X, e, f, h1, h2, h2', h3, h4⟩ := C104_squares
    (S := exJumps (pathNoise fun u ω => Z u ω exW) (pathNoise fun u ω => Z u ω exJ))
    (c := fun id _ x i => exCoef id * x i) (t0 := 1) (T := 1) (exJumps_ok _ _) rfl (exJumps_coef _ _) rfl zero_le_one hL
    (m := fun j : exIds => if j.1 = idJ then 3 else 0) (v := fun j : exIds => if j.1 = idJ then 3 else 1)
    (fun j => by split_ifs <;> norm_num) (exCellMoments 3 3 1 1) hN (exNoises_uncorrelated hI) exAlongS
    (by intro u hu; simp at hu; rcases hu with rfl | rfl | rfl <;> norm_num)
    (exJumps_realises Z (by norm_num) (by simp))
  refine ⟨Ω, mΩ, P, Z, X, ?_, h1, fun i => ?_⟩
  · have := hI.law 1 (by norm_num) 2 (by norm_num) le_rfl (by norm_num)
    norm_num at this
    exact this
  · obtain ⟨s1, s1'⟩ := h3 1 (3 / 2) ⟨by simp, by simp, .inl ⟨le_rfl, by norm_num, by
      intro c hc h; simp at hc; rcases hc with rfl | rfl | rfl <;> norm_num at h⟩⟩ le_rfl (by norm_num) (by norm_num) i
    obtain ⟨s2, s2'⟩ := h3 (3 / 2) 2 ⟨by simp, by simp, .inl ⟨by norm_num, by norm_num, by
      intro c hc h; simp at hc; rcases hc with rfl | rfl | rfl <;> norm_num at h⟩⟩ (by norm_num) (by norm_num)
      (by norm_num) i
    have e1 : e 1 i = 10 := by rw [h2]; rfl
    have f1 : f 1 i = 100 := by rw [h2', e1]; norm_num
    obtain ⟨-, -, h5, h6⟩ := h4 2 (by simp) (by norm_num) i
    rw [h5, h6, s2', s2, s1', s1, f1, e1]
    constructor <;> norm_num

/-- With the Wiener source and the source of jumps of the library: three jumps per unit of time, of mean `-1`. -/
example : ∃ (Ω : Type) (_ : MeasurableSpace Ω) (P : Measure Ω) (Z : ℝ → Ω → exIds → Cells ([2] ++ [3]) → ℝ) (K : ℝ)
    (X : ℝ → (ℕ → Item ℝ) → Cells ([2] ++ [3]) → ℝ) (Y : ℝ → Ω → Cells ([2] ++ [3]) → ℝ) (st : (ℕ → Item ℝ) → ℕ → Item ℝ),
    Solves P (fun _ x i => exCoef idT * x i) (fun (j : exIds) _ x i => exCoef j.1 * x i) 1 1
      (fun _ => 10) (fun u ω c => Z u ω c.1 c.2) Y ∧
    (∀ s, exMerton.call 10 .none 0 ⟨[3], [1, 3 / 2, 2]⟩ s =
      .ok ([some (X 1 s), some (X (3 / 2) s), some (X 2 s)], st s)) ∧
    ∀ i, |Var[fun s => X 2 s i; exState] - Var[fun ω => Y 2 ω i; P]| ≤ K * (1 / 2) := by
  have h2 : MemLp id 2 exJumpLaw := memLp_id_gaussianReal 2
  obtain ⟨Ω, mΩ, P, Z, hP, hI, hN⟩ := exists_noise_paths (ι := Cells ([2] ++ [3])) exIds (by norm_num : (0 : ℝ) ≤ 3)
    exJumpLaw h2
  have hL := exLipschitzN (ι := Cells ([2] ++ [3])) (exCoef idT) (fun j : exIds => exCoef j.1) 1 1
  have hv : ∀ j : exIds, (0 : ℝ) < if j.1 = idJ then 3 * ∫ x, x ^ 2 ∂exJumpLaw else 1 := fun j => by
    split_ifs
    · exact mul_pos (by norm_num) exJumpLaw_sq
    · exact one_pos
  haveI : Nonempty exIds := ⟨exW⟩
  obtain ⟨K0, -, h0⟩ := exists_solution_all zero_le_one hL (fun _ => 10) _ hv
  obtain ⟨Y, hY, -⟩ := h0 hN
  obtain ⟨M, hM⟩ := momentField_const (ι := Cells ([2] ++ [3])) _ _ _ _ _ 1 1
  obtain ⟨K, -, h⟩ := C104_draws (S := exMerton) (c := fun id _ x i => exCoef id * x i) (t0 := 1) (T := 1)
    (exJumps_ok _ _) rfl (exJumps_coef _ _) rfl exMerton_draws one_pos hL hv
    (fun j => jumpDiffusion_moments (by norm_num) h2 j) (exCellMoments _ _ 1 1) hM
  obtain ⟨X, st, e1, e2⟩ := h hI hY (δ := 1 / 2) (by norm_num) exAlongS exMesh
  exact ⟨Ω, mΩ, P, Z, K, X, Y, st, hY, e1, fun i => (e2 2 (by simp) (by norm_num) i).2.2⟩

/-- The mean square of the solution at time `2` is `100*exp(0.77)`. -/
example : ∃ (Ω : Type) (_ : MeasurableSpace Ω) (P : Measure Ω) (Z : ℝ → Ω → exIds → Fin 3 → ℝ) (K : ℝ)
    (X : ℝ → Ω → Fin 3 → ℝ) (Y : ℝ → Ω → Fin 3 → ℝ),
    Solves P (fun _ x i => exCoef idT * x i) (fun (j : exIds) _ x i => exCoef j.1 * x i) 1 1
      (fun _ => 10) (fun u ω c => Z u ω c.1 c.2) Y ∧
    (∀ ω, (exJumps (pathNoise fun u ω => Z u ω exW) (pathNoise fun u ω => Z u ω exJ)).call 10 .none 0
      ⟨[3], [1, 3 / 2, 2]⟩ ω = .ok ([some (X 1 ω), some (X (3 / 2) ω), some (X 2 ω)], ω)) ∧
    ∀ i, Var[fun ω => Y 2 ω i; P] = 100 * Real.exp (77 / 100) - (10 * Real.exp (7 / 20)) ^ 2 ∧
      |∫ ω, X 2 ω i ^ 2 ∂P - 100 * Real.exp (77 / 100)| ≤ K * (1 / 2) := by
  obtain ⟨Ω, mΩ, P, Z, hP, hI, hN⟩ := exists_noises (ι := Fin 3) exIds
  have hL := exLipschitzN (ι := Fin 3) (exCoef idT) (fun j : exIds => exCoef j.1) 1 1
  have hv : ∀ j : exIds, (0 : ℝ) < if j.1 = idJ then 3 else 1 := fun j => by split_ifs <;> norm_num
  obtain ⟨M, hM⟩ := momentField_const (ι := Fin 3) (fun _ => 0) (fun _ => 1 / 20 + 3 / 10) (fun _ => 0) (fun _ => 0)
    (fun _ => 1 / 25 + 3 / 100) 1 1
  obtain ⟨y, K, hK, hy, h⟩ := C104_order
    (S := exJumps (pathNoise fun u ω => Z u ω exW) (pathNoise fun u ω => Z u ω exJ))
    (c := fun id _ x i => exCoef id * x i) (t0 := 1) (T := 1) (exJumps_ok _ _) rfl (exJumps_coef _ _) rfl one_pos hL
    (m := fun j : exIds => if j.1 = idJ then 3 else 0) (v := fun j : exIds => if j.1 = idJ then 3 else 1)
    hv (exCellMoments 3 3 1 1) hM
  haveI : Nonempty exIds := ⟨exW⟩
  obtain ⟨K0, -, h0⟩ := exists_solution_all zero_le_one hL (fun _ => 10) _ hv
  obtain ⟨Y, hY, -⟩ := h0 hN
  have hz : SolvesOde (momentField (ι := Fin 3) (fun _ _ => 0) (fun _ _ => 1 / 20 + 3 / 10) (fun _ _ => 0)
      (fun _ _ => 0) (fun _ _ => 1 / 25 + 3 / 100)) 1 1 (Sum.elim (fun _ => 10) fun _ => (10 : ℝ) ^ 2)
      (fun t => Sum.elim (fun _ => 10 * Real.exp (7 / 20 * (t - 1))) fun _ => 100 * Real.exp (77 / 100 * (t - 1))) := by
    refine ⟨?_, fun t _ => HasDerivAt.hasDerivWithinAt (hasDerivAt_pi.2 fun c => ?_)⟩
    · funext c
      rcases c with i | i <;> norm_num
    · have h1 : ∀ k : ℝ, HasDerivAt (fun t : ℝ => k * (t - 1)) k t := fun k => by
        simpa using ((hasDerivAt_id t).sub_const 1).const_mul k
      rcases c with i | i
      · have h2 := ((h1 (7 / 20)).exp).const_mul 10
        refine h2.congr_deriv ?_
        simp only [momentField, Sum.elim_inl]
        ring
      · have h2 := ((h1 (77 / 100)).exp).const_mul 100
        refine h2.congr_deriv ?_
        simp only [momentField, Sum.elim_inr, Sum.elim_inl]
        ring
  have hyt := ode_unique hM one_pos hy hz (x := 2) (by norm_num)
  obtain ⟨h1, h2⟩ := h hN (exNoises_uncorrelated hI)
  obtain ⟨X, e1, e2⟩ := h2 (δ := 1 / 2) (by norm_num) exAlongS exMesh (exJumps_realises Z (by norm_num) (by simp))
  refine ⟨Ω, mΩ, P, Z, K, X, Y, hY, e1, fun i => ⟨?_, ?_⟩⟩
  · rw [(h1 hY 2 (by norm_num) i).2.2, hyt]
    norm_num
  · have := (e2 2 (by simp) (by norm_num) i).2.1
    rw [hyt] at this
    norm_num at this
    norm_num
    exact this

end Sdepy
