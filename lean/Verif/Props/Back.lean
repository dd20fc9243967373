import Verif.Lemmas.Back
import Verif.Props.StrongN

/-!
# Property C91: convergence in mean square, backwards from the initial time
-/

set_option linter.unusedSectionVars false

open MeasureTheory ProbabilityTheory

namespace Sdepy

open Spec

section
variable {Ω ι σ O : Type} [Fintype ι] {S : SDE ℝ (ι → ℝ) O ℕ σ} {c : ℕ → ℝ → (ι → ℝ) → ι → ℝ}
  {t0 : ℝ} {x0 : ι → ℝ}

/-- **C91** (scheme). For times before `t0`, the values returned by the integration of an equation are those
of the Euler scheme followed backwards along the grid of integration steps: coefficients are taken at the later end of
each step. -/
theorem C91_scheme (hS : SDEOk S) (hdt : S.sources.lookup idT = some dtSource)
    (hcoef : ∀ t x, (equation S).coef t x = .ok fun id => c id t x) (hinit : S.init t0 = .ok x0)
    {fuel : ℕ} {steps : Steps ℝ} {i0 : ℤ} {tl : TArr ℝ} {grid : List ℝ}
    (h : Along fuel steps i0 tl grid t0) {Z : ℝ → Ω → (equation S).Stochastic idT × ι → ℝ} {s s' : Ω → σ}
    (hZ : RealisesAll (equation S) idT t0 grid Z s s') :
    ∃ X : ℝ → Ω → ι → ℝ,
      (∀ ω, S.call fuel steps i0 tl (s ω) = .ok (tl.data.map fun t => some
        (if S.log then S.expO (S.letX t (X t ω)) else S.letX t (X t ω)), s' ω)) ∧
      SumsBack (c idT) (fun j : (equation S).Stochastic idT => c j.1) t0 (if S.log then S.logX x0 else x0) grid Z X X := by
  obtain ⟨X, e, h0, h1⟩ := scheme_both hS hdt hcoef hinit h hZ
  exact ⟨X, e, h0, fun u v huv _ _ => h1 u v huv⟩

/-- **C91** (convergence). Take any two simulations of an equation, with one or more sources of noise besides time, whose
increments are independent of what happened between their start and `t0`, and have mean and variance proportional to the time
elapsed; initial time and values, and noise, are the same; timelines and integration steps are not. At all times that belong
to both timelines, from `t0` back to `t0 - T`, the mean square of the difference of simulated values is at most a constant
times the longest step; the constant only depends on the equation, on mean and variance of the noise, on the
initial values and on `T`. -/
theorem C91_strong (hS : SDEOk S) (hdt : S.sources.lookup idT = some dtSource)
    (hcoef : ∀ t x, (equation S).coef t x = .ok fun id => c id t x) (hinit : S.init t0 = .ok x0)
    [Nonempty ((equation S).Stochastic idT)] {T L : ℝ} (hT : 0 ≤ T)
    (hL : LipschitzCoefs (c idT) (fun j : (equation S).Stochastic idT => c j.1) (t0 - T) T L)
    (m : (equation S).Stochastic idT → ℝ) {v : (equation S).Stochastic idT → ℝ} (hv : ∀ j, 0 < v j) :
    ∃ K ≥ 0, ∀ {Ω : Type} [MeasurableSpace Ω] {P : Measure Ω} [IsProbabilityMeasure P] {D : Set ℝ}
      {Z : ℝ → Ω → (equation S).Stochastic idT × ι → ℝ} {fuel1 fuel2 : ℕ} {steps1 steps2 : Steps ℝ} {i1 i2 : ℤ}
      {tl1 tl2 : TArr ℝ} {grid1 grid2 : List ℝ} {δ : ℝ} {s1 s1' s2 s2' : Ω → σ}, NoisesBack P t0 D m v Z → 0 ≤ δ →
      Along fuel1 steps1 i1 tl1 grid1 t0 → (∀ u ∈ grid1, u ∈ Set.Icc (t0 - T) t0 → u ∈ D) → Mesh grid1 δ →
      Along fuel2 steps2 i2 tl2 grid2 t0 → (∀ u ∈ grid2, u ∈ Set.Icc (t0 - T) t0 → u ∈ D) → Mesh grid2 δ →
      RealisesAll (equation S) idT t0 grid1 Z s1 s1' → RealisesAll (equation S) idT t0 grid2 Z s2 s2' →
      ∃ X1 X2 : ℝ → Ω → ι → ℝ,
        (∀ ω, S.call fuel1 steps1 i1 tl1 (s1 ω) = .ok (tl1.data.map fun t => some
          (if S.log then S.expO (S.letX t (X1 t ω)) else S.letX t (X1 t ω)), s1' ω)) ∧
        (∀ ω, S.call fuel2 steps2 i2 tl2 (s2 ω) = .ok (tl2.data.map fun t => some
          (if S.log then S.expO (S.letX t (X2 t ω)) else S.letX t (X2 t ω)), s2' ω)) ∧
        ∀ t ∈ tl1.data, t ∈ tl2.data → t0 - T ≤ t → t ≤ t0 →
          (∀ i, MemLp (fun ω => X1 t ω i) 2 P) ∧ (∀ i, MemLp (fun ω => X2 t ω i) 2 P) ∧
          meanSq P (fun ω i => X1 t ω i - X2 t ω i) ≤ K * δ := by
  obtain ⟨K, hK, h⟩ := schemes_close_all hT (lipschitz_reflect hL) (if S.log then S.logX x0 else x0) m hv
  refine ⟨K, hK, ?_⟩
  intro Ω _ P _ D Z fuel1 fuel2 steps1 steps2 i1 i2 tl1 tl2 grid1 grid2 δ s1 s1' s2 s2' hZ hδ ha1 hD1 hm1
    ha2 hD2 hm2 hc1 hc2
  obtain ⟨X1, e1, f1⟩ := C91_scheme hS hdt hcoef hinit ha1 hc1
  obtain ⟨X2, e2, f2⟩ := C91_scheme hS hdt hcoef hinit ha2 hc2
  refine ⟨X1, X2, e1, e2, fun t ht1 ht2 h0 hTt => ?_⟩
  obtain ⟨g, g1, g2, g3, g4, g5⟩ := restrict_grid_back hT ha1.isGrid.1 (along_mem ha1).2.1 hm1 f1
  obtain ⟨k, k1, k2, k3, k4, k5⟩ := restrict_grid_back hT ha2.isGrid.1 (along_mem ha2).2.1 hm2 f2
  have := h (noises_reflect hZ) hδ (reflectGrid_pairwise g1) (reflectGrid_start g2)
    (fun u hu => hD1 _ ((g3 _).1 (mem_reflectGrid.1 hu)).1 ((g3 _).1 (mem_reflectGrid.1 hu)).2) (reflectGrid_mesh g4)
    (reflectGrid_pairwise k1) (reflectGrid_start k2)
    (fun u hu => hD2 _ ((k3 _).1 (mem_reflectGrid.1 hu)).1 ((k3 _).1 (mem_reflectGrid.1 hu)).2) (reflectGrid_mesh k4)
    (sums_reflect g5) (sums_reflect k5) (2 * t0 - t)
    (mem_reflectGrid.2 (by rw [sub_sub_cancel]; exact (g3 t).2 ⟨(along_mem ha1).2.2 t ht1, h0, hTt⟩))
    (mem_reflectGrid.2 (by rw [sub_sub_cancel]; exact (k3 t).2 ⟨(along_mem ha2).2.2 t ht2, h0, hTt⟩))
    (by linarith) (by linarith)
  simpa only [sub_sub_cancel] using this

theorem reflect_Icc {t0 T : ℝ} : {u : ℝ | 2 * t0 - u ∈ Set.Icc (t0 - T) t0} = Set.Icc t0 (t0 + T) := by
  ext u
  simp only [Set.mem_setOf_eq, Set.mem_Icc]
  constructor <;> rintro ⟨h1, h2⟩ <;> constructor <;> linarith

/-- **C91** (solution). Given noise defined at all times from `t0 - T` to `t0`, whose increments are independent of
what happened between their start and `t0`, and have mean and variance proportional to the time elapsed, the equation has
one and only one solution, backwards from the initial values. Any simulation that realises that noise at the points of
its grid, yields values, at times from `t0` back to `t0 - T`, such that the mean square of their difference from the
solution is at most a constant times the longest step. -/
theorem C91_solution (hS : SDEOk S) (hdt : S.sources.lookup idT = some dtSource)
    (hcoef : ∀ t x, (equation S).coef t x = .ok fun id => c id t x) (hinit : S.init t0 = .ok x0)
    [Nonempty ((equation S).Stochastic idT)] {T L : ℝ} (hT : 0 ≤ T)
    (hL : LipschitzCoefs (c idT) (fun j : (equation S).Stochastic idT => c j.1) (t0 - T) T L)
    (m : (equation S).Stochastic idT → ℝ) {v : (equation S).Stochastic idT → ℝ} (hv : ∀ j, 0 < v j) :
    ∃ K ≥ 0, ∀ {Ω : Type} [MeasurableSpace Ω] {P : Measure Ω} [IsProbabilityMeasure P]
      {Z : ℝ → Ω → (equation S).Stochastic idT × ι → ℝ}, NoisesBack P t0 (Set.Icc (t0 - T) t0) m v Z →
      ∃ Y : ℝ → Ω → ι → ℝ, SolvesBack P (c idT) (fun j : (equation S).Stochastic idT => c j.1) t0 T
          (if S.log then S.logX x0 else x0) Z Y ∧
        (∀ Y', SolvesBack P (c idT) (fun j : (equation S).Stochastic idT => c j.1) t0 T
          (if S.log then S.logX x0 else x0) Z Y' → ∀ t ∈ Set.Icc (t0 - T) t0, Y' t =ᵐ[P] Y t) ∧
        ∀ {fuel : ℕ} {steps : Steps ℝ} {i0 : ℤ} {tl : TArr ℝ} {grid : List ℝ} {δ : ℝ} {s s' : Ω → σ}, 0 ≤ δ →
          Along fuel steps i0 tl grid t0 → Mesh grid δ → RealisesAll (equation S) idT t0 grid Z s s' →
          ∃ X : ℝ → Ω → ι → ℝ,
            (∀ ω, S.call fuel steps i0 tl (s ω) = .ok (tl.data.map fun t => some
              (if S.log then S.expO (S.letX t (X t ω)) else S.letX t (X t ω)), s' ω)) ∧
            ∀ t ∈ tl.data, t0 - T ≤ t → t ≤ t0 →
              (∀ i, MemLp (fun ω => X t ω i) 2 P) ∧ meanSq P (fun ω i => X t ω i - Y t ω i) ≤ K * δ := by
  obtain ⟨K, hK, h⟩ := exists_solution_all hT (lipschitz_reflect hL) (if S.log then S.logX x0 else x0) m hv
  refine ⟨K, hK, ?_⟩
  intro Ω _ P _ Z hZ
  have hZ' := noises_reflect hZ
  rw [reflect_Icc] at hZ'
  obtain ⟨Y, hY, hX⟩ := h hZ'
  have hB := solves_reflect_inv hY
  refine ⟨fun u => Y (2 * t0 - u), hB, fun Y' hY' t ht => ae_eq_of_meanSq (hY'.memLp t ht) (hB.memLp t ht) ?_, ?_⟩
  · have := solution_unique_all hT (lipschitz_reflect hL) hv hZ' (solves_reflect hY') hY (2 * t0 - t)
      ⟨by linarith [ht.2], by linarith [ht.1]⟩
    simpa only [sub_sub_cancel] using this
  intro fuel steps i0 tl grid δ s s' hδ ha hm hc
  obtain ⟨X, e, f⟩ := C91_scheme hS hdt hcoef hinit ha hc
  refine ⟨X, e, fun t ht h0t htT => ?_⟩
  obtain ⟨g, g1, g2, g3, g4, g5⟩ := restrict_grid_back hT ha.isGrid.1 (along_mem ha).2.1 hm f
  have := hX hδ (reflectGrid_pairwise g1) (reflectGrid_start g2)
    (fun u hu => by
      have := ((g3 _).1 (mem_reflectGrid.1 hu)).2
      exact ⟨by linarith [this.2], by linarith [this.1]⟩) (reflectGrid_mesh g4) (sums_reflect g5) (2 * t0 - t)
    (mem_reflectGrid.2 (by rw [sub_sub_cancel]; exact (g3 t).2 ⟨(along_mem ha).2.2 t ht, h0t, htT⟩))
  simpa only [sub_sub_cancel] using this

end

/-! ### Examples: a geometric Brownian motion with jumps, followed backwards from its value at time 1 -/

/-- Noise, reflected about `t0`. -/
theorem noises_back {Ω ι J : Type} [MeasurableSpace Ω] [Fintype ι] [Fintype J] {P : Measure Ω} {t0 : ℝ} {D : Set ℝ}
    {m v : J → ℝ} {Z : ℝ → Ω → J × ι → ℝ} (h : Noises P t0 D m v Z) :
    NoisesBack P t0 {u | 2 * t0 - u ∈ D} m v fun u => Z (2 * t0 - u) where
  meas u hu := h.meas _ hu
  memLp s hs t ht h0 hst c := h.memLp _ hs _ ht (by linarith) (by linarith) c
  mean s hs t ht h0 hst j i := by
    rw [h.mean _ hs _ ht (by linarith) (by linarith) j i]
    ring
  var s hs t ht h0 hst j i := by
    have := h.var _ hs _ ht (by linarith) (by linarith) j i
    rw [show 2 * t0 - t - (2 * t0 - s) = s - t by ring] at this
    exact this
  indep s hs t ht h0 hst := by
    have := h.indep _ hs _ ht (by linarith) (by linarith)
    let f : ({u : ℝ // u ∈ D ∧ u ≤ 2 * t0 - s} × (J × ι) → ℝ) →
        {u : ℝ // u ∈ {u | 2 * t0 - u ∈ D} ∧ s ≤ u} × (J × ι) → ℝ :=
      fun z p => z (⟨2 * t0 - p.1.1, p.1.2.1, by linarith [p.1.2.2]⟩, p.2)
    have hf : Measurable f := measurable_pi_lambda _ fun p => measurable_pi_apply _
    exact this.comp hf measurable_id

theorem exAlongB : Along 10 .none (-1) ⟨[3], [0, 1 / 2, 1]⟩ [0, 1 / 2, (1 : ℝ)] 1 where
  valid := ⟨rfl, by norm_num⟩
  start := ⟨2, ⟨by simp, .inr rfl⟩, rfl⟩
  nsteps := by rintro n ⟨⟩
  isGrid := by
    refine ⟨by norm_num, ?_⟩
    intro t
    simp [Requested]
  hfuel := by simp

theorem exAlongB2 : Along 10 .none 1 ⟨[2], [0, 1]⟩ [0, (1 : ℝ)] 1 where
  valid := ⟨rfl, by norm_num⟩
  start := ⟨1, ⟨by simp, .inl rfl⟩, rfl⟩
  nsteps := by rintro n ⟨⟩
  isGrid := by
    refine ⟨by norm_num, ?_⟩
    intro t
    simp [Requested]
  hfuel := by simp

theorem exMeshB : Mesh [0, 1 / 2, (1 : ℝ)] (1 / 2) := by
  intro a ha b hb hab hn
  simp only [List.mem_cons, List.not_mem_nil, or_false] at ha hb
  rcases ha with rfl | rfl | rfl <;> rcases hb with rfl | rfl | rfl <;> try norm_num
  exact absurd (hn (1 / 2) (by simp)) (by norm_num)

/-- The solution of `dx = x/20*dt + x/5*dw + x/10*dj`, that has value 10 at time 1, for earlier times, compared with a
simulation with two steps. -/
example : ∃ (Ω : Type) (_ : MeasurableSpace Ω) (P : Measure Ω) (Z : ℝ → Ω → exIds → Fin 3 → ℝ) (K : ℝ)
    (X : ℝ → Ω → Fin 3 → ℝ) (Y : ℝ → Ω → Fin 3 → ℝ),
    HasLaw (fun ω => Z 0 ω - Z 1 ω) (Measure.pi fun j : exIds => Measure.pi fun _ : Fin 3 =>
      if j.1 = idJ then compoundPoisson 3 (Measure.dirac 1) else gaussianReal 0 1) P ∧
    SolvesBack P (fun _ x i => 1 / 20 * x i) (fun (j : exIds) _ x i => (if j.1 = idW then 1 / 5 else 1 / 10) * x i) 1 1
      (fun _ => 10) (fun u ω c => Z u ω c.1 c.2) Y ∧
    (∀ ω, (exJumps (pathNoise fun u ω => Z u ω exW) (pathNoise fun u ω => Z u ω exJ)).call 10 .none (-1)
      ⟨[3], [0, 1 / 2, 1]⟩ ω = .ok ([some (X 0 ω), some (X (1 / 2) ω), some (X 1 ω)], ω)) ∧
    meanSq P (fun ω c => X 0 ω c - Y 0 ω c) ≤ K * (1 / 2) := by
  obtain ⟨Ω, mΩ, P, Z', hP, hI, hN⟩ := exists_noises (ι := Fin 3) exIds
  obtain ⟨Z, hZ⟩ : ∃ Z : ℝ → Ω → exIds → Fin 3 → ℝ, Z = fun u => Z' (2 * 1 - u) := ⟨_, rfl⟩
  have hN' := noises_back hN
  have hD : {u : ℝ | 2 * 1 - u ∈ Set.Icc (1 : ℝ) (1 + 1)} = Set.Icc (1 - 1) 1 := by
    ext u
    simp only [Set.mem_setOf_eq, Set.mem_Icc]
    constructor <;> rintro ⟨h1, h2⟩ <;> constructor <;> linarith
  rw [hD] at hN'
  have hc : ∀ j : exIds, exCoef j.1 = if j.1 = idW then 1 / 5 else 1 / 10 := by
    rintro ⟨j, hj⟩
    have h : j = idW ∨ j = idJ := by simpa [exIds, idT, idW, idJ] using hj
    rcases h with rfl | rfl <;> simp [exCoef, idT, idW, idJ]
  have hL := exLipschitzN (ι := Fin 3) (exCoef idT) (fun j : exIds => exCoef j.1) (1 - 1) 1
  obtain ⟨K, hK, h⟩ := C91_solution (S := exJumps (pathNoise fun u ω => Z u ω exW) (pathNoise fun u ω => Z u ω exJ))
    (c := fun id _ x i => exCoef id * x i) (t0 := 1) (T := 1) (exJumps_ok _ _) rfl (exJumps_coef _ _) rfl zero_le_one hL
    (fun j : exIds => if j.1 = idJ then 3 else 0) (v := fun j : exIds => if j.1 = idJ then 3 else 1)
    (fun j => by split_ifs <;> norm_num)
  obtain ⟨Y, hY, -, hX⟩ := h (Z := fun u ω (c : exIds × Fin 3) => Z u ω c.1 c.2) (by rw [hZ]; exact hN')
  obtain ⟨X, e1, e2⟩ := hX (δ := 1 / 2) (by norm_num) exAlongB exMeshB (exJumps_realises Z (by norm_num) (by simp))
  refine ⟨Ω, mΩ, P, Z, K, X, Y, ?_, ?_, e1, (e2 0 (by simp) (by norm_num) (by norm_num)).2⟩
  · have := hI.law 1 (by norm_num) 2 (by norm_num) le_rfl (by norm_num)
    norm_num at this
    rw [hZ]
    norm_num
    exact this
  · simp only [← hc]
    have : (1 : ℝ) / 20 = exCoef idT := by simp [exCoef]
    rw [this]
    exact hY

/-- Two simulations backwards, with one and with two steps, that share their noise. -/
example : ∃ (Ω : Type) (_ : MeasurableSpace Ω) (P : Measure Ω) (Z : ℝ → Ω → exIds → Fin 3 → ℝ) (K : ℝ)
    (X1 X2 : ℝ → Ω → Fin 3 → ℝ),
    let S := exJumps (pathNoise fun u ω => Z u ω exW) (pathNoise fun u ω => Z u ω exJ)
    (∀ ω, S.call 10 .none 1 ⟨[2], [0, 1]⟩ ω = .ok ([some (X1 0 ω), some (X1 1 ω)], ω)) ∧
    (∀ ω, S.call 10 .none (-1) ⟨[3], [0, 1 / 2, 1]⟩ ω =
      .ok ([some (X2 0 ω), some (X2 (1 / 2) ω), some (X2 1 ω)], ω)) ∧
    meanSq P (fun ω c => X1 0 ω c - X2 0 ω c) ≤ K := by
  obtain ⟨Ω, mΩ, P, Z', hP, hI, hN⟩ := exists_noises (ι := Fin 3) exIds
  obtain ⟨Z, hZ⟩ : ∃ Z : ℝ → Ω → exIds → Fin 3 → ℝ, Z = fun u => Z' (2 * 1 - u) := ⟨_, rfl⟩
  have hL := exLipschitzN (ι := Fin 3) (exCoef idT) (fun j : exIds => exCoef j.1) (1 - 1) 1
  obtain ⟨K, hK, h⟩ := C91_strong (S := exJumps (pathNoise fun u ω => Z u ω exW) (pathNoise fun u ω => Z u ω exJ))
    (c := fun id _ x i => exCoef id * x i) (t0 := 1) (T := 1) (exJumps_ok _ _) rfl (exJumps_coef _ _) rfl zero_le_one hL
    (fun j : exIds => if j.1 = idJ then 3 else 0) (v := fun j : exIds => if j.1 = idJ then 3 else 1)
    (fun j => by split_ifs <;> norm_num)
  obtain ⟨X1, X2, e1, e2, e3⟩ := h (δ := 1) (Z := fun u ω (c : exIds × Fin 3) => Z u ω c.1 c.2)
    (by rw [hZ]; exact noises_back hN) zero_le_one exAlongB2
    (by intro u hu _; simp at hu; rcases hu with rfl | rfl <;> norm_num)
    (by intro a ha b hb _ _; simp at ha hb; rcases ha with rfl | rfl <;> rcases hb with rfl | rfl <;> norm_num)
    exAlongB (by
      intro u hu _; simp only [List.mem_cons, List.not_mem_nil, or_false] at hu
      rcases hu with rfl | rfl | rfl <;> norm_num)
    (by
      intro a ha b hb _ _; simp only [List.mem_cons, List.not_mem_nil, or_false] at ha hb
      rcases ha with rfl | rfl | rfl <;> rcases hb with rfl | rfl | rfl <;> norm_num)
    (exJumps_realises Z (by norm_num) (by simp)) (exJumps_realises Z (by norm_num) (by simp))
  refine ⟨Ω, mΩ, P, Z, K, X1, X2, e1, e2, ?_⟩
  have := (e3 0 (by simp) (by simp) (by norm_num) (by norm_num)).2.2
  rwa [mul_one] at this

/-- The values simulated, for given paths of the noise: the step back from time 1 uses values at time 1. -/
example (w n : ℝ → ℝ) : ∃ X : ℝ → Unit → Unit → ℝ,
    (exJumps (pathNoise fun u _ _ => w u) (pathNoise fun u _ _ => n u)).call 10 .none (-1) ⟨[3], [0, 1 / 2, 1]⟩ () =
      .ok ([some (X 0 ()), some (X (1 / 2) ()), some (X 1 ())], ()) ∧
    X (1 / 2) () () = 10 - 10 / 20 * (1 / 2) + 10 / 5 * (w (1 / 2) - w 1) + 10 / 10 * (n (1 / 2) - n 1) := by
  obtain ⟨X, e1, e2⟩ := C91_scheme (S := exJumps (pathNoise fun u _ _ => w u) (pathNoise fun u _ _ => n u))
    (c := fun id _ x i => exCoef id * x i) (t0 := 1) (exJumps_ok _ _) rfl (exJumps_coef _ _) rfl exAlongB
    (exJumps_realises (Ω := Unit) (ι := Unit) (fun u _ j _ => if j.1 = idW then w u else n u) (by norm_num) (by simp))
  refine ⟨X, e1 (), ?_⟩
  have h := e2.step 1 (1 / 2) ⟨by simp, by simp, .inr ⟨le_rfl, by norm_num, by
    intro c hc h; simp only [List.mem_cons, List.not_mem_nil, or_false] at hc
    rcases hc with rfl | rfl | rfl <;> norm_num at h⟩⟩ le_rfl (by norm_num) () ()
  have h0 : X 1 () = fun _ => 10 := e2.start ()
  rw [h0] at h
  have hsum : ∀ f : exIds → ℝ, ∑ j : exIds, f j = f exW + f exJ := by
    intro f
    have : (Finset.univ : Finset exIds) = {exW, exJ} := by decide
    rw [this, Finset.sum_pair (by decide)]
  refine h.trans ((congrArg _ (hsum fun j => exCoef j.1 * 10 * ((if j.1 = idW then w (1 / 2) else n (1 / 2)) -
    if j.1 = idW then w 1 else n 1))).trans ?_)
  simp [exCoef, idT, idW, idJ]
  ring

end Sdepy
