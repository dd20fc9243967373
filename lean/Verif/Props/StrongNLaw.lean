import Verif.Lemmas.StrongNLaw
import Verif.Props.StrongN
import Verif.Props.StrongLaw
import Verif.Props.JumpLaw

/-!
# Property C87: laws of simulated values, for equations with more than one source of noise, jumps included
-/

set_option linter.unusedSectionVars false

open MeasureTheory ProbabilityTheory Filter Topology

namespace Sdepy

open Spec

/-- The mean square of the difference of a scheme from any solution is at most a constant times the longest step. -/
theorem solution_close_all {ι J : Type} [Fintype ι] [Fintype J] [Nonempty J] {a : ℝ → (ι → ℝ) → ι → ℝ}
    {b : J → ℝ → (ι → ℝ) → ι → ℝ} {t0 T L : ℝ} (hT : 0 ≤ T) (h : LipschitzCoefs a b t0 T L) (x0 : ι → ℝ) (m : J → ℝ)
    {v : J → ℝ} (hv : ∀ j, 0 < v j) :
    ∃ K ≥ 0, ∀ {Ω : Type} [MeasurableSpace Ω] {P : Measure Ω} [IsProbabilityMeasure P]
      {Z : ℝ → Ω → J × ι → ℝ} {Y : ℝ → Ω → ι → ℝ}, Noises P t0 (Set.Icc t0 (t0 + T)) m v Z → Solves P a b t0 T x0 Z Y →
        ∀ {X : ℝ → Ω → ι → ℝ} {grid : List ℝ} {δ : ℝ}, 0 ≤ δ →
          grid.Pairwise (· < ·) → t0 ∈ grid → (∀ u ∈ grid, u ∈ Set.Icc t0 (t0 + T)) → Mesh grid δ →
          AreSums a b t0 x0 grid Z X X → ∀ t ∈ grid,
            (∀ i, MemLp (fun ω => X t ω i) 2 P) ∧ meanSq P (fun ω i => X t ω i - Y t ω i) ≤ K * δ := by
  obtain ⟨K, hK, hex⟩ := exists_solution_all hT h x0 m hv
  refine ⟨2 * K, by positivity, ?_⟩
  intro Ω _ P _ Z Y hZ hY X grid δ hδ hg h0 hI hm hX t ht
  obtain ⟨Y0, hY0, hc⟩ := hex hZ
  obtain ⟨hl, hc⟩ := hc hδ hg h0 hI hm hX t ht
  refine ⟨hl, ?_⟩
  have h1 := meanSq_two hl (hY0.memLp t (hI t ht)) (hY.memLp t (hI t ht))
  have h2 := solution_unique_all hT h hv hZ hY0 hY t (hI t ht)
  rw [h2] at h1
  linarith

section
variable {ι σ O : Type} [Fintype ι] [MeasurableSpace σ] {μ : Measure σ} [IsProbabilityMeasure μ]
  {S : SDE ℝ (ι → ℝ) O ℕ σ} {c : ℕ → ℝ → (ι → ℝ) → ι → ℝ} {t0 : ℝ} {x0 : ι → ℝ}
  {law : (equation S).Stochastic idT → ℝ → Measure (ι → ℝ)}

/-- Values simulated, and the values of the Euler scheme driven by another noise with the same law: they have the same
joint law, at all times of the timeline from `t0` to `t0 + T`. -/
theorem coupling_of_scheme (hS : SDEOk S) (hdt : S.sources.lookup idT = some dtSource)
    (hcoef : ∀ t x, (equation S).coef t x = .ok fun id => c id t x) (hinit : S.init t0 = .ok x0)
    [Nonempty ((equation S).Stochastic idT)] (hdraw : (equation S).DrawsNoise idT μ law) {T L : ℝ} (hT : 0 ≤ T)
    (hL : LipschitzCoefs (c idT) (fun j : (equation S).Stochastic idT => c j.1) t0 T L)
    {Ω : Type} [MeasurableSpace Ω] {P : Measure Ω} [IsProbabilityMeasure P]
    {Z' : ℝ → Ω → (equation S).Stochastic idT → ι → ℝ}
    (hZ' : Increments P t0 (Set.Icc t0 (t0 + T)) (fun h => Measure.pi fun j => law j h) Z')
    {fuel : ℕ} {steps : Steps ℝ} {i0 : ℤ} {tl : TArr ℝ} {grid : List ℝ} {δ : ℝ}
    (ha : Along fuel steps i0 tl grid t0) (hm : Mesh grid δ) :
    ∃ (X : ℝ → σ → ι → ℝ) (X' : ℝ → Ω → ι → ℝ) (st : σ → σ) (g : List ℝ),
      (∀ s, S.call fuel steps i0 tl s = .ok (tl.data.map fun t => some
        (if S.log then S.expO (S.letX t (X t s)) else S.letX t (X t s)), st s)) ∧
      g.Pairwise (· < ·) ∧ t0 ∈ g ∧ (∀ u ∈ g, u ∈ Set.Icc t0 (t0 + T)) ∧ Mesh g δ ∧
      (∀ t ∈ tl.data, t ∈ Set.Icc t0 (t0 + T) → t ∈ g) ∧
      AreSums (c idT) (fun j : (equation S).Stochastic idT => c j.1) t0 (if S.log then S.logX x0 else x0) g
        (fun u ω p => Z' u ω p.1 p.2) X' X' ∧
      IdentDistrib
        (fun s (p : {t : ℝ // t ∈ tl.data ∧ t ∈ Set.Icc t0 (t0 + T)} × ι) => X p.1 s p.2)
        (fun ω (p : {t : ℝ // t ∈ tl.data ∧ t ∈ Set.Icc t0 (t0 + T)} × ι) => X' p.1 ω p.2) μ P := by
  obtain ⟨-, h2, h3⟩ := along_mem ha
  have hk : ∀ t dt s, (equation S).noise idT t dt s = .ok (fun _ => dt, s) := by
    intro t dt s
    simp only [equation, hdt]
    rfl
  obtain ⟨Z, st, hZ0, hR, hlaws⟩ := exists_realised hdraw hk ha.isGrid.1 h2 hT
  obtain ⟨X, hcall, hX⟩ := C86_scheme hS hdt hcoef hinit ha hR
  obtain ⟨g, g1, g2, g3, g4, g5⟩ := restrict_grid_all hT ha.isGrid.1 h2 hm hX
  have hgI : ∀ u ∈ g, u ∈ Set.Icc t0 (t0 + T) := fun u hu => ((g3 u).1 hu).2
  obtain ⟨X', hX'⟩ := exists_schemes g1 g2 (c idT) (fun j : (equation S).Stochastic idT => c j.1)
    (if S.log then S.logX x0 else x0) fun u ω (p : (equation S).Stochastic idT × ι) => Z' u ω p.1 p.2
  have hmem : ∀ t ∈ tl.data, t ∈ Set.Icc t0 (t0 + T) → t ∈ g := fun t h1 h2 => (g3 t).2 ⟨h3 t h1, h2⟩
  refine ⟨X, X', st, g, hcall, g1, g2, hgI, g4, hmem, hX', ?_⟩
  obtain ⟨f, hf, hfX⟩ := scheme_function_all hL g1 g2 hgI (if S.log then S.logX x0 else x0)
  have hlaw := stepLaws_law (hlaws g3) (stepLaws_of_increments hZ' g2 hgI) g1 g2 fun u hu => (hgI u hu).1
  have hu : Measurable fun (w : {u : ℝ // u ∈ g} → (equation S).Stochastic idT → ι → ℝ)
      (p : {t : ℝ // t ∈ tl.data ∧ t ∈ Set.Icc t0 (t0 + T)} × ι) => f w p.1 p.2 :=
    measurable_pi_lambda _ fun p => (measurable_pi_apply p.2).comp (hf p.1 (hmem _ p.1.2.1 p.1.2.2))
  have e1 : (fun s (p : {t : ℝ // t ∈ tl.data ∧ t ∈ Set.Icc t0 (t0 + T)} × ι) => X p.1 s p.2) =
      (fun w p => f w p.1 p.2) ∘ fun s (u : {u : ℝ // u ∈ g}) => Z u s - Z t0 s := by
    funext s p
    simp only [Function.comp_apply]
    rw [hfX g5 p.1 (hmem _ p.1.2.1 p.1.2.2)]
    rfl
  have e2 : (fun ω (p : {t : ℝ // t ∈ tl.data ∧ t ∈ Set.Icc t0 (t0 + T)} × ι) => X' p.1 ω p.2) =
      (fun w p => f w p.1 p.2) ∘ fun ω (u : {u : ℝ // u ∈ g}) => Z' u ω - Z' t0 ω := by
    funext ω p
    simp only [Function.comp_apply]
    rw [hfX hX' p.1 (hmem _ p.1.2.1 p.1.2.2)]
    rfl
  rw [e1, e2]
  exact hlaw.comp hu

/-- Simulations that draw increments of given laws, and a solution driven by noise whose increments have the same laws:
if schemes driven by the noise of the solution are close to it, there are values with the joint law of those simulated
that are as close. -/
theorem coupling_of_close (hS : SDEOk S) (hdt : S.sources.lookup idT = some dtSource)
    (hcoef : ∀ t x, (equation S).coef t x = .ok fun id => c id t x) (hinit : S.init t0 = .ok x0)
    [Nonempty ((equation S).Stochastic idT)] (hdraw : (equation S).DrawsNoise idT μ law) {T L : ℝ} (hT : 0 ≤ T)
    (hL : LipschitzCoefs (c idT) (fun j : (equation S).Stochastic idT => c j.1) t0 T L)
    {Ω : Type} [MeasurableSpace Ω] {P : Measure Ω} [IsProbabilityMeasure P]
    {Z' : ℝ → Ω → (equation S).Stochastic idT → ι → ℝ} {Y : ℝ → Ω → ι → ℝ}
    (hZ' : Increments P t0 (Set.Icc t0 (t0 + T)) (fun h => Measure.pi fun j => law j h) Z')
    {fuel : ℕ} {steps : Steps ℝ} {i0 : ℤ} {tl : TArr ℝ} {grid : List ℝ} {δ B : ℝ}
    (hclose : ∀ {X : ℝ → Ω → ι → ℝ} {g : List ℝ}, g.Pairwise (· < ·) → t0 ∈ g →
      (∀ u ∈ g, u ∈ Set.Icc t0 (t0 + T)) → Mesh g δ →
      AreSums (c idT) (fun j : (equation S).Stochastic idT => c j.1) t0 (if S.log then S.logX x0 else x0) g
        (fun u ω p => Z' u ω p.1 p.2) X X → ∀ t ∈ g,
        (∀ i, MemLp (fun ω => X t ω i) 2 P) ∧ meanSq P (fun ω i => X t ω i - Y t ω i) ≤ B)
    (ha : Along fuel steps i0 tl grid t0) (hm : Mesh grid δ) :
    ∃ (X : ℝ → σ → ι → ℝ) (X' : ℝ → Ω → ι → ℝ) (st : σ → σ),
      (∀ s, S.call fuel steps i0 tl s = .ok (tl.data.map fun t => some
        (if S.log then S.expO (S.letX t (X t s)) else S.letX t (X t s)), st s)) ∧
      IdentDistrib
        (fun s (p : {t : ℝ // t ∈ tl.data ∧ t ∈ Set.Icc t0 (t0 + T)} × ι) => X p.1 s p.2)
        (fun ω (p : {t : ℝ // t ∈ tl.data ∧ t ∈ Set.Icc t0 (t0 + T)} × ι) => X' p.1 ω p.2) μ P ∧
      ∀ t ∈ tl.data, t ∈ Set.Icc t0 (t0 + T) →
        (∀ i, MemLp (fun ω => X' t ω i) 2 P) ∧ meanSq P (fun ω i => X' t ω i - Y t ω i) ≤ B := by
  obtain ⟨X, X', st, g, hcall, g1, g2, g3, g4, g5, g6, g7⟩ := coupling_of_scheme hS hdt hcoef hinit hdraw hT hL hZ' ha hm
  exact ⟨X, X', st, hcall, g7, fun t h1 h2 => hclose g1 g2 g3 g4 g6 t (g5 t h1 h2)⟩

/-- **C87** (coupling). Simulations of an equation with any number of sources of noise, that draw from a random generator
increments of given laws; and a solution of the same equation, driven by any noise whose increments have the same laws,
and are independent of the past. There are values with the joint law of those simulated, at all times of the timeline
from `t0` to `t0 + T`, such that the mean square of their difference from the solution is at most a constant times the
longest step. -/
theorem C87_coupling (hS : SDEOk S) (hdt : S.sources.lookup idT = some dtSource)
    (hcoef : ∀ t x, (equation S).coef t x = .ok fun id => c id t x) (hinit : S.init t0 = .ok x0)
    [Nonempty ((equation S).Stochastic idT)] (hdraw : (equation S).DrawsNoise idT μ law) {T L : ℝ} (hT : 0 ≤ T)
    (hL : LipschitzCoefs (c idT) (fun j : (equation S).Stochastic idT => c j.1) t0 T L)
    {m v : (equation S).Stochastic idT → ℝ} (hv : ∀ j, 0 < v j) (hmo : ∀ j, HasMoments (law j) (m j) (v j)) :
    ∃ K ≥ 0, ∀ {Ω : Type} [MeasurableSpace Ω] {P : Measure Ω} [IsProbabilityMeasure P]
      {Z : ℝ → Ω → (equation S).Stochastic idT → ι → ℝ} {Y : ℝ → Ω → ι → ℝ},
      Increments P t0 (Set.Icc t0 (t0 + T)) (fun h => Measure.pi fun j => law j h) Z →
      Solves P (c idT) (fun j : (equation S).Stochastic idT => c j.1) t0 T (if S.log then S.logX x0 else x0)
        (fun u ω p => Z u ω p.1 p.2) Y →
      ∀ {fuel : ℕ} {steps : Steps ℝ} {i0 : ℤ} {tl : TArr ℝ} {grid : List ℝ} {δ : ℝ}, 0 ≤ δ →
        Along fuel steps i0 tl grid t0 → Mesh grid δ →
        ∃ (X : ℝ → σ → ι → ℝ) (X' : ℝ → Ω → ι → ℝ) (st : σ → σ),
          (∀ s, S.call fuel steps i0 tl s = .ok (tl.data.map fun t => some
            (if S.log then S.expO (S.letX t (X t s)) else S.letX t (X t s)), st s)) ∧
          IdentDistrib
            (fun s (p : {t : ℝ // t ∈ tl.data ∧ t ∈ Set.Icc t0 (t0 + T)} × ι) => X p.1 s p.2)
            (fun ω (p : {t : ℝ // t ∈ tl.data ∧ t ∈ Set.Icc t0 (t0 + T)} × ι) => X' p.1 ω p.2) μ P ∧
          ∀ t ∈ tl.data, t ∈ Set.Icc t0 (t0 + T) →
            (∀ i, MemLp (fun ω => X' t ω i) 2 P) ∧ meanSq P (fun ω i => X' t ω i - Y t ω i) ≤ K * δ := by
  obtain ⟨K, hK, hclose⟩ := solution_close_all hT hL (if S.log then S.logX x0 else x0) m hv
  refine ⟨K, hK, ?_⟩
  intro Ω _ P _ Z' Y hZ' hY fuel steps i0 tl grid δ hδ ha hm
  have hprob : ∀ j h, 0 < h → IsProbabilityMeasure (law j h) := by
    intro j h hh
    obtain ⟨ν, h1, h2⟩ := hdraw j 0 h hh.ne'
    rw [← h2 hh]
    exact h1.isProb
  exact coupling_of_close hS hdt hcoef hinit hdraw hT hL hZ' (hclose (noises_of_increments hprob hmo hZ') hY hδ) ha hm

/-- **C87** (expectations). The expectation of any function of the values simulated for a time `t` of the timeline, that
is Lipschitz of constant `M`, differs from that of the solution by at most `M*√(K*δ)`, where `δ` is the longest step. -/
theorem C87_expectation (hS : SDEOk S) (hdt : S.sources.lookup idT = some dtSource)
    (hcoef : ∀ t x, (equation S).coef t x = .ok fun id => c id t x) (hinit : S.init t0 = .ok x0)
    [Nonempty ((equation S).Stochastic idT)] (hdraw : (equation S).DrawsNoise idT μ law) {T L : ℝ} (hT : 0 ≤ T)
    (hL : LipschitzCoefs (c idT) (fun j : (equation S).Stochastic idT => c j.1) t0 T L)
    {m v : (equation S).Stochastic idT → ℝ} (hv : ∀ j, 0 < v j) (hmo : ∀ j, HasMoments (law j) (m j) (v j)) :
    ∃ K ≥ 0, ∀ {Ω : Type} [MeasurableSpace Ω] {P : Measure Ω} [IsProbabilityMeasure P]
      {Z : ℝ → Ω → (equation S).Stochastic idT → ι → ℝ} {Y : ℝ → Ω → ι → ℝ},
      Increments P t0 (Set.Icc t0 (t0 + T)) (fun h => Measure.pi fun j => law j h) Z →
      Solves P (c idT) (fun j : (equation S).Stochastic idT => c j.1) t0 T (if S.log then S.logX x0 else x0)
        (fun u ω p => Z u ω p.1 p.2) Y →
      ∀ {fuel : ℕ} {steps : Steps ℝ} {i0 : ℤ} {tl : TArr ℝ} {grid : List ℝ} {δ : ℝ}, 0 ≤ δ →
        Along fuel steps i0 tl grid t0 → Mesh grid δ →
        ∃ (X : ℝ → σ → ι → ℝ) (st : σ → σ),
          (∀ s, S.call fuel steps i0 tl s = .ok (tl.data.map fun t => some
            (if S.log then S.expO (S.letX t (X t s)) else S.letX t (X t s)), st s)) ∧
          ∀ t ∈ tl.data, t ∈ Set.Icc t0 (t0 + T) → ∀ (φ : (ι → ℝ) → ℝ) (M : ℝ), 0 ≤ M →
            (∀ x y, |φ x - φ y| ≤ M * √(∑ i, (x i - y i) ^ 2)) →
            Integrable (fun s => φ (X t s)) μ ∧ Integrable (fun ω => φ (Y t ω)) P ∧
            |∫ s, φ (X t s) ∂μ - ∫ ω, φ (Y t ω) ∂P| ≤ M * √(K * δ) := by
  obtain ⟨K, hK, h⟩ := C87_coupling hS hdt hcoef hinit hdraw hT hL hv hmo
  refine ⟨K, hK, ?_⟩
  intro Ω _ P _ Z Y hZ hY fuel steps i0 tl grid δ hδ ha hm
  obtain ⟨X, X', st, e1, e2, e3⟩ := h hZ hY hδ ha hm
  refine ⟨X, st, e1, fun t ht htI φ M hM hφ => ?_⟩
  have hφc := lipschitz_continuous hφ
  obtain ⟨hl, hms⟩ := e3 t ht htI
  have hYl := hY.memLp t htI
  have hid : IdentDistrib (fun s => φ (X t s)) (fun ω => φ (X' t ω)) μ P := by
    have hu : Measurable fun (w : {t : ℝ // t ∈ tl.data ∧ t ∈ Set.Icc t0 (t0 + T)} × ι → ℝ) =>
        φ fun i => w (⟨t, ht, htI⟩, i) :=
      hφc.measurable.comp (measurable_pi_lambda _ fun i => measurable_pi_apply _)
    exact e2.comp hu
  have i1 := lipschitz_integrable hl hφ hφc
  have i2 := lipschitz_integrable hYl hφ hφc
  refine ⟨hid.integrable_iff.2 i1, i2, ?_⟩
  rw [hid.integral_eq, ← integral_sub i1 i2]
  refine (abs_integral_le_integral_abs).trans ?_
  obtain ⟨d1, d2⟩ := mean_dist_le (P := P) (X := fun ω i => X' t ω i - Y t ω i) fun i => (hl i).sub (hYl i)
  calc ∫ ω, |φ (X' t ω) - φ (Y t ω)| ∂P ≤ ∫ ω, M * √(∑ i, (X' t ω i - Y t ω i) ^ 2) ∂P :=
        integral_mono (i1.sub i2).abs (d1.const_mul M) fun ω => hφ _ _
    _ = M * ∫ ω, √(∑ i, (X' t ω i - Y t ω i) ^ 2) ∂P := integral_const_mul _ _
    _ ≤ M * √(K * δ) := mul_le_mul_of_nonneg_left (d2.trans (Real.sqrt_le_sqrt hms)) hM

/-- **C87** (laws). Given simulations with steps shorter and shorter, the joint law of the values simulated, at any times
common to all timelines, converges to that of the solution. -/
theorem C87_law (hS : SDEOk S) (hdt : S.sources.lookup idT = some dtSource)
    (hcoef : ∀ t x, (equation S).coef t x = .ok fun id => c id t x) (hinit : S.init t0 = .ok x0)
    [Nonempty ((equation S).Stochastic idT)] (hdraw : (equation S).DrawsNoise idT μ law) {T L : ℝ} (hT : 0 ≤ T)
    (hL : LipschitzCoefs (c idT) (fun j : (equation S).Stochastic idT => c j.1) t0 T L)
    {m v : (equation S).Stochastic idT → ℝ} (hv : ∀ j, 0 < v j) (hmo : ∀ j, HasMoments (law j) (m j) (v j))
    {Ω : Type} [MeasurableSpace Ω] {P : Measure Ω} [IsProbabilityMeasure P]
    {Z : ℝ → Ω → (equation S).Stochastic idT → ι → ℝ} {Y : ℝ → Ω → ι → ℝ}
    (hZ : Increments P t0 (Set.Icc t0 (t0 + T)) (fun h => Measure.pi fun j => law j h) Z)
    (hY : Solves P (c idT) (fun j : (equation S).Stochastic idT => c j.1) t0 T (if S.log then S.logX x0 else x0)
        (fun u ω p => Z u ω p.1 p.2) Y)
    {fuel : ℕ → ℕ} {steps : ℕ → Steps ℝ} {i0 : ℕ → ℤ} {tl : ℕ → TArr ℝ} {grid : ℕ → List ℝ} {δ : ℕ → ℝ}
    (hδ : ∀ q, 0 ≤ δ q) (hδ0 : Tendsto δ atTop (𝓝 0)) (ha : ∀ q, Along (fuel q) (steps q) (i0 q) (tl q) (grid q) t0)
    (hm : ∀ q, Mesh (grid q) (δ q)) (J : Finset ℝ)
    (hJt : ∀ q, ∀ t ∈ J, t ∈ (tl q).data) (hJI : ∀ t ∈ J, t ∈ Set.Icc t0 (t0 + T)) :
    ∃ (X : ℕ → ℝ → σ → ι → ℝ) (st : ℕ → σ → σ),
      (∀ q s, S.call (fuel q) (steps q) (i0 q) (tl q) s = .ok ((tl q).data.map fun t => some
        (if S.log then S.expO (S.letX t (X q t s)) else S.letX t (X q t s)), st q s)) ∧
      TendstoInDistribution (fun q s (p : J × ι) => X q p.1 s p.2) atTop
        (fun ω (p : J × ι) => Y p.1 ω p.2) (fun _ => μ) P := by
  obtain ⟨K, hK, h⟩ := C87_coupling hS hdt hcoef hinit hdraw hT hL hv hmo
  choose X X' st e1 e2 e3 using fun q => h hZ hY (hδ q) (ha q) (hm q)
  refine ⟨X, st, e1, ?_⟩
  have hYm : AEMeasurable (fun ω (p : J × ι) => Y p.1 ω p.2) P :=
    aemeasurable_pi_lambda _ fun p => (hY.memLp p.1 (hJI _ p.1.2) p.2).aestronglyMeasurable.aemeasurable
  have hX'm : ∀ q, AEMeasurable (fun ω (p : J × ι) => X' q p.1 ω p.2) P := fun q =>
    aemeasurable_pi_lambda _ fun p => ((e3 q p.1 (hJt q _ p.1.2) (hJI _ p.1.2)).1 p.2).aestronglyMeasurable.aemeasurable
  have hid : ∀ q, IdentDistrib (fun s (p : J × ι) => X q p.1 s p.2) (fun ω (p : J × ι) => X' q p.1 ω p.2) μ P := by
    intro q
    have hu : Measurable fun (w : {t : ℝ // t ∈ (tl q).data ∧ t ∈ Set.Icc t0 (t0 + T)} × ι → ℝ)
        (p : J × ι) => w (⟨p.1, hJt q _ p.1.2, hJI _ p.1.2⟩, p.2) :=
      measurable_pi_lambda _ fun p => measurable_pi_apply _
    exact (e2 q).comp hu
  have hmeas : TendstoInMeasure P (fun q ω (p : J × ι) => X' q p.1 ω p.2) atTop
      (fun ω (p : J × ι) => Y p.1 ω p.2) := by
    rw [tendstoInMeasure_iff_measureReal_dist]
    intro ε hε
    have hlim : Tendsto (fun q => ((J.card : ℝ) * (K * δ q)) / ε ^ 2) atTop (𝓝 0) := by
      have := ((hδ0.const_mul K).const_mul (J.card : ℝ)).div_const (ε ^ 2)
      simpa using this
    refine squeeze_zero (fun _ => measureReal_nonneg) (fun q => ?_) hlim
    have hl : ∀ p : J × ι, MemLp (fun ω => X' q p.1 ω p.2 - Y p.1 ω p.2) 2 P := fun p =>
      ((e3 q p.1 (hJt q _ p.1.2) (hJI _ p.1.2)).1 p.2).sub (hY.memLp p.1 (hJI _ p.1.2) p.2)
    have hint : Integrable (fun ω => ∑ p : J × ι, (X' q p.1 ω p.2 - Y p.1 ω p.2) ^ 2) P :=
      integrable_finsetSum _ fun p _ => (hl p).integrable_sq
    have hmk := mul_meas_ge_le_integral_of_nonneg
      (.of_forall fun ω => Finset.sum_nonneg fun (p : J × ι) _ => sq_nonneg (X' q p.1 ω p.2 - Y p.1 ω p.2)) hint
      (ε ^ 2)
    have hsum : ∫ ω, ∑ p : J × ι, (X' q p.1 ω p.2 - Y p.1 ω p.2) ^ 2 ∂P ≤ (J.card : ℝ) * (K * δ q) := by
      rw [integral_finsetSum _ fun p _ => (hl p).integrable_sq, Fintype.sum_prod_type]
      refine (Finset.sum_le_card_nsmul _ _ (K * δ q) fun t _ => ?_).trans_eq ?_
      · exact (e3 q t (hJt q _ t.2) (hJI _ t.2)).2
      · simp
    rw [le_div_iff₀ (by positivity), mul_comm]
    refine le_trans (mul_le_mul_of_nonneg_left (measureReal_mono fun ω hω => ?_) (by positivity)) (hmk.trans hsum)
    simp only [Set.mem_setOf_eq] at hω ⊢
    by_contra hlt
    push Not at hlt
    refine absurd hω (not_le.2 ((dist_pi_lt_iff hε).2 fun p => ?_))
    rw [Real.dist_eq]
    refine abs_lt_of_sq_lt_sq (lt_of_le_of_lt ?_ hlt) hε.le
    exact Finset.single_le_sum (f := fun p : J × ι => (X' q p.1 ω p.2 - Y p.1 ω p.2) ^ 2)
      (fun p _ => sq_nonneg _) (Finset.mem_univ p)
  have hdist := hmeas.tendstoInDistribution hX'm
  refine ⟨fun q => (hid q).aemeasurable_fst, hYm, ?_⟩
  refine hdist.tendsto.congr fun q => Subtype.ext ?_
  exact (hid q).map_eq.symm

end

/-! ### Noise of the sources of the library -/

theorem jumpDiffusion_moments {ι : Type} [Fintype ι] {J : Finset ℕ} {l : ℝ} (hl : 0 ≤ l) {ν : Measure ℝ}
    [IsProbabilityMeasure ν] (h2 : MemLp id 2 ν) (j : J) : HasMoments (jumpNoise (ι := ι) idJ l ν j)
      (if j.1 = idJ then l * ∫ x, x ∂ν else 0) (if j.1 = idJ then l * ∫ x, x ^ 2 ∂ν else 1) := by
  unfold jumpNoise
  by_cases hj : j.1 = idJ
  · simp only [if_pos hj]
    exact jumps_moments hl h2
  · simp only [if_neg hj]
    exact wiener_moments

section
variable {σ O : Type} [MeasurableSpace σ] {μ : Measure σ} [IsProbabilityMeasure μ]
  {paths : ℕ} {wshape : List ℕ} {rng : Rng σ} {draw : (List ℕ → ℝ) → List ℕ → σ → (List ℕ → ℤ) × σ}

/-- **C87** (sources). The sources of the library, with a Wiener source and a compound Poisson source whose intensity and
jumps do not depend on time, draw such noise from a random generator that provides normal and Poisson variates, and
jumps. -/
theorem C87_sources (hr : NormalDraws μ rng) (hd : PoissonDraws μ draw) (hne : Nonempty (Cells (wshape ++ [paths])))
    {l : ℝ} (hl : 0 ≤ l) {y : ℝ → Py (Rvs ℝ σ)} {rvs : Rvs ℝ σ} (hy : ∀ t, y t = .ok rvs) {ν : Measure ℝ}
    [IsProbabilityMeasure ν] (hv : VariatesLaw μ ν rvs) {S : SDE ℝ (Cells (wshape ++ [paths]) → ℝ) O ℕ σ}
    (hsrc : S.sources = [(idT, dtSource), (idW, wienerCells (wshape ++ [paths]) ⟨paths, wshape, .none⟩ rng),
      (idJ, cpoissonNoise (wshape ++ [paths]) ⟨paths, wshape, poissonCall ⟨paths, wshape, .arr (.scalar l)⟩ draw, y⟩)]) :
    (equation S).DrawsNoise idT μ (jumpNoise idJ l ν) := by
  rintro ⟨j, hj⟩ t dt hdt
  have h : j = idW ∨ j = idJ := by
    simp only [equation, hsrc, List.map_cons, List.map_nil, List.toFinset_cons, List.toFinset_nil, Finset.mem_erase,
      Finset.mem_insert, Finset.notMem_empty, or_false] at hj
    tauto
  rcases h with rfl | rfl
  · have hn := C66_noise (W := ⟨paths, wshape, .none⟩) rfl hr t dt
    have he : (equation S).noise idW t dt =
        wienerCells (wshape ++ [paths]) ⟨paths, wshape, .none⟩ rng t dt := by
      simp only [equation, hsrc]
      rfl
    refine ⟨_, he ▸ hn, fun hpos => ?_⟩
    simp only [jumpNoise, if_neg (show idW ≠ idJ by decide), abs_of_pos hpos]
    congr!
  · have hn := C66_source (S := ⟨paths, wshape, poissonCall ⟨paths, wshape, .arr (.scalar l)⟩ draw, y⟩) (t := t) hd rfl
      hne hdt (.const _) (by simp [Arr.scalar, BcOk, bcOkRev]) (fun c _ => hl) (hy _) hv
    have he : (equation S).noise idJ t dt = cpoissonNoise (wshape ++ [paths])
        ⟨paths, wshape, poissonCall ⟨paths, wshape, .arr (.scalar l)⟩ draw, y⟩ t dt := by
      simp only [equation, hsrc]
      rfl
    refine ⟨_, he ▸ hn, fun hpos => ?_⟩
    simp only [jumpNoise, if_true, abs_of_pos hpos, sign_pos hpos, SignType.coe_one, one_mul]
    congr! 2 with c
    exact Measure.map_id

/-- **C87** (Merton). The noise of the sources that `merton_jumpdiff_process` instantiates, for constant parameters. -/
theorem C87_merton {sample : ℕ → ℕ → σ → (ℕ → ℕ → ℝ) × σ} (hr : NormalDraws μ rng) (hd : PoissonDraws μ draw)
    (hs : SampleDraws μ stdNormal sample) (hne : Nonempty (Cells (wshape ++ [paths]))) {l : ℝ} (hl : 0 ≤ l) (a : ℝ)
    {b : ℝ} (hb : 0 ≤ b) :
    ∃ (W : WienerSrc) (Sj : CPoissonSrc ℝ ℝ σ), wienerNew paths wshape .none .none = .ok W ∧
      mertonSourceDj paths wshape draw sample (.arr (.scalar l)) (.const a) (.const b) = .ok Sj ∧
      ∀ {S : SDE ℝ (Cells (wshape ++ [paths]) → ℝ) O ℕ σ},
        S.sources = [(idT, dtSource), (idW, wienerCells (wshape ++ [paths]) W rng),
          (idJ, cpoissonNoise (wshape ++ [paths]) Sj)] →
        (equation S).DrawsNoise idT μ (jumpNoise idJ l (gaussianReal a (b ^ 2).toNNReal)) := by
  obtain ⟨rv, hrv, hv⟩ := C66_normal_variates hs a hb
  have hrv' : norm_rv (T := ℝ) (.const a) (.const b) = .ok (.plain rv) := by
    simp only [norm_rv, makeVariable, List.any_cons, RvParam.callable, List.any_nil, Bool.or_self,
      Bool.false_eq_true, if_false, List.map_cons, RvParam.number, List.map_nil, List.getD_cons_zero,
      List.getD_cons_succ, hrv]
  refine ⟨⟨paths, wshape, .none⟩, ⟨paths, wshape, poissonCall ⟨paths, wshape, .arr (.scalar l)⟩ draw,
    fun _ => .ok (rvsOf rv sample)⟩, rfl, ?_, fun hsrc => C87_sources hr hd hne hl (fun _ => rfl) hv hsrc⟩
  simp only [mertonSourceDj, hrv', sourceDj]
  rw [poissonNew_arr (by simp [Arr.scalar, BcOk, bcOkRev])]
  rfl

end

/-! ### Examples -/

/-- Paths of such noise, at all times of an interval. -/
theorem exists_noise_paths {ι : Type} [Fintype ι] (J : Finset ℕ) {l : ℝ} (hl : 0 ≤ l) (ν : Measure ℝ)
    [IsProbabilityMeasure ν] (h2 : MemLp id 2 ν) :
    ∃ (Ω : Type) (_ : MeasurableSpace Ω) (P : Measure Ω) (Z : ℝ → Ω → J → ι → ℝ), IsProbabilityMeasure P ∧
      Increments P 1 (Set.Icc 1 (1 + 1)) (fun h => Measure.pi fun j : J => jumpNoise idJ l ν j h) Z ∧
      Noises P 1 (Set.Icc 1 (1 + 1)) (fun j : J => if j.1 = idJ then l * ∫ x, x ∂ν else 0)
        (fun j : J => if j.1 = idJ then l * ∫ x, x ^ 2 ∂ν else 1) fun u ω c => Z u ω c.1 c.2 := by
  have hcell : ∀ j : J, ∃ (Ω : Type) (_ : MeasurableSpace Ω) (P : Measure Ω) (Z : ℝ → Ω → ℝ), IsProbabilityMeasure P ∧
      (∀ u, Measurable (Z u)) ∧ Increments P 1 (Set.Icc 1 (1 + 1)) (fun h =>
        if j.1 = idJ then compoundPoisson (l * h) ν else gaussianReal 0 h.toNNReal) Z := by
    intro j
    by_cases h : j.1 = idJ
    · simp only [if_pos h]
      exact exists_jumps 1 one_pos hl _
    · simp only [if_neg h]
      exact exists_wiener_cell 1 _
  obtain ⟨Ω, mΩ, P, Z, hP, -, hZ⟩ := exists_product fun j : J => exists_product fun _ : ι => hcell j
  refine ⟨Ω, mΩ, P, Z, hP, hZ, noises_of_increments (fun j h hh => ?_) (jumpDiffusion_moments hl h2) hZ⟩
  unfold jumpNoise
  by_cases hj : j.1 = idJ
  · simp only [if_pos hj]
    haveI : IsProbabilityMeasure (compoundPoisson (l * h) ν) :=
      Measure.isProbabilityMeasure_map measurable_sumTo.aemeasurable
    infer_instance
  · simp only [if_neg hj]
    infer_instance

theorem exJumpLaw_sq : 0 < ∫ x, x ^ 2 ∂(gaussianReal (-1) ((1 / 2 : ℝ) ^ 2).toNNReal) := by
  have h := ProbabilityTheory.variance_eq_sub
    (memLp_id_gaussianReal (μ := -1) (v := ((1 / 2 : ℝ) ^ 2).toNNReal) 2)
  rw [variance_id_gaussianReal] at h
  simp only [id_eq, integral_id_gaussianReal, Pi.pow_apply] at h
  rw [Real.coe_toNNReal _ (by norm_num)] at h
  linarith

/-- `dx = x/20*dt + x/5*dw + x/10*dj`, from the value 10 at time 1, with the Wiener source and the source of jumps of
the library, for 3 jumps per unit of time, of law `N(-1, 1/4)`. -/
noncomputable abbrev exMerton : SDE ℝ (Cells ([2] ++ [3]) → ℝ) (Cells ([2] ++ [3]) → ℝ) ℕ (ℕ → Item ℝ) :=
  exJumps (wienerCells ([2] ++ [3]) ⟨3, [2], .none⟩ (itemRng ℝ)) (cpoissonNoise ([2] ++ [3]) ⟨3, [2],
    poissonCall ⟨3, [2], .arr (.scalar 3)⟩ (itemDraw ℝ),
    fun _ => .ok (rvsOf (frozen 0 1 (-1) (1 / 2) .inf) (itemSample ℝ))⟩)

noncomputable abbrev exState : Measure (ℕ → Item ℝ) := Measure.infinitePi fun _ : ℕ => itemLaw stdNormal

noncomputable abbrev exJumpLaw : Measure ℝ := gaussianReal (-1) ((1 / 2 : ℝ) ^ 2).toNNReal

theorem exMerton_draws : (equation exMerton).DrawsNoise idT exState (jumpNoise idJ 3 exJumpLaw) :=
  C87_sources (itemRng_draws stdNormal) (itemDraw_draws stdNormal) exCells (by norm_num) (fun _ => rfl) (by
    rw [exJumpLaw, ← stdNormal_affine]
    refine rvsOf_law (by fun_prop) (fun z => ?_) (itemSample_draws stdNormal)
    simp only [frozen]
    rw [if_neg (by norm_num)]) rfl

/-- The simulation, with two steps, against the solution driven by paths of the same noise. -/
example : ∃ (Ω : Type) (_ : MeasurableSpace Ω) (P : Measure Ω) (Z : ℝ → Ω → exIds → Cells ([2] ++ [3]) → ℝ) (K : ℝ)
    (X : ℝ → (ℕ → Item ℝ) → Cells ([2] ++ [3]) → ℝ) (Y : ℝ → Ω → Cells ([2] ++ [3]) → ℝ) (st : (ℕ → Item ℝ) → ℕ → Item ℝ),
    Solves P (fun _ x i => exCoef idT * x i) (fun (j : exIds) _ x i => exCoef j.1 * x i) 1 1
      (fun _ => 10) (fun u ω c => Z u ω c.1 c.2) Y ∧
    (∀ s, exMerton.call 10 .none 0 ⟨[3], [1, 3 / 2, 2]⟩ s =
      .ok ([some (X 1 s), some (X (3 / 2) s), some (X 2 s)], st s)) ∧
    ∀ i, |∫ s, |X 2 s i| ∂exState - ∫ ω, |Y 2 ω i| ∂P| ≤ √(K * (1 / 2)) := by
  have h2 : MemLp id 2 exJumpLaw := memLp_id_gaussianReal 2
  obtain ⟨Ω, mΩ, P, Z, hP, hI, hN⟩ := exists_noise_paths (ι := Cells ([2] ++ [3])) exIds (by norm_num : (0 : ℝ) ≤ 3)
    exJumpLaw h2
  have hL := exLipschitzN (ι := Cells ([2] ++ [3])) (exCoef idT) (fun j : exIds => exCoef j.1) 1 1
  have hv : ∀ j : exIds, (0 : ℝ) < if j.1 = idJ then 3 * ∫ x, x ^ 2 ∂exJumpLaw else 1 := fun j => by
    split_ifs
    · exact mul_pos (by norm_num) exJumpLaw_sq
    · exact one_pos
  haveI : Nonempty exIds := ⟨exW⟩
  obtain ⟨K0, -, h0⟩ := exists_solution_all zero_le_one hL (fun _ => 10) _ hv
  obtain ⟨Y, hY, -⟩ := h0 hN
  obtain ⟨K, -, h⟩ := C87_expectation (S := exMerton) (c := fun id _ x i => exCoef id * x i) (t0 := 1) (T := 1)
    (exJumps_ok _ _) rfl (exJumps_coef _ _) rfl exMerton_draws zero_le_one hL hv
    (fun j => jumpDiffusion_moments (by norm_num) h2 j)
  obtain ⟨X, st, e1, e2⟩ := h hI hY (δ := 1 / 2) (by norm_num) exAlongS exMesh
  refine ⟨Ω, mΩ, P, Z, K, X, Y, st, hY, e1, fun i => ?_⟩
  have := (e2 2 (by simp) (by norm_num) (fun x => |x i|) 1 zero_le_one fun x y => by
    rw [one_mul]
    refine (abs_abs_sub_abs_le_abs_sub _ _).trans (Real.le_sqrt_of_sq_le ?_)
    rw [sq_abs]
    exact Finset.single_le_sum (f := fun c => (x c - y c) ^ 2) (fun p _ => sq_nonneg _) (Finset.mem_univ i)).2.2
  rwa [one_mul] at this

/-- Simulations with finer and finer steps. -/
example : ∃ (Ω : Type) (_ : MeasurableSpace Ω) (P : Measure Ω) (_ : IsProbabilityMeasure P)
    (Z : ℝ → Ω → exIds → Cells ([2] ++ [3]) → ℝ) (grid : ℕ → List ℝ)
    (X : ℕ → ℝ → (ℕ → Item ℝ) → Cells ([2] ++ [3]) → ℝ) (Y : ℝ → Ω → Cells ([2] ++ [3]) → ℝ)
    (st : ℕ → (ℕ → Item ℝ) → ℕ → Item ℝ),
    Solves P (fun _ x i => exCoef idT * x i) (fun (j : exIds) _ x i => exCoef j.1 * x i) 1 1
      (fun _ => 10) (fun u ω c => Z u ω c.1 c.2) Y ∧
    (∀ q s, exMerton.call (grid q).length (.iter (grid q)) 0 ⟨[2], [1, 2]⟩ s =
      .ok ([some (X q 1 s), some (X q 2 s)], st q s)) ∧
    TendstoInDistribution (fun q s (p : ({2} : Finset ℝ) × Cells ([2] ++ [3])) => X q p.1 s p.2) atTop
      (fun ω (p : ({2} : Finset ℝ) × Cells ([2] ++ [3])) => Y p.1 ω p.2) (fun _ => exState) P := by
  have h2 : MemLp id 2 exJumpLaw := memLp_id_gaussianReal 2
  obtain ⟨Ω, mΩ, P, Z, hP, hI, hN⟩ := exists_noise_paths (ι := Cells ([2] ++ [3])) exIds (by norm_num : (0 : ℝ) ≤ 3)
    exJumpLaw h2
  have hL := exLipschitzN (ι := Cells ([2] ++ [3])) (exCoef idT) (fun j : exIds => exCoef j.1) 1 1
  have hv : ∀ j : exIds, (0 : ℝ) < if j.1 = idJ then 3 * ∫ x, x ^ 2 ∂exJumpLaw else 1 := fun j => by
    split_ifs
    · exact mul_pos (by norm_num) exJumpLaw_sq
    · exact one_pos
  haveI : Nonempty exIds := ⟨exW⟩
  obtain ⟨K0, -, h0⟩ := exists_solution_all zero_le_one hL (fun _ => 10) _ hv
  obtain ⟨Y, hY, -⟩ := h0 hN
  obtain ⟨grid, g1, g2⟩ := exAlongSeq
  obtain ⟨X, st, e1, e2⟩ := C87_law (S := exMerton) (c := fun id _ x i => exCoef id * x i) (t0 := 1) (T := 1)
    (exJumps_ok _ _) rfl (exJumps_coef _ _) rfl exMerton_draws zero_le_one hL hv
    (fun j => jumpDiffusion_moments (by norm_num) h2 j) hI hY (fun q => by positivity)
    tendsto_one_div_add_atTop_nhds_zero_nat g2 g1 {2}
    (fun q t ht => by rw [Finset.mem_singleton.1 ht]; simp)
    (fun t ht => by rw [Finset.mem_singleton.1 ht]; norm_num)
  exact ⟨Ω, mΩ, P, hP, Z, grid, X, Y, st, hY, e1, e2⟩

example := C87_merton (O := ℝ) (itemRng_draws stdNormal) (itemDraw_draws stdNormal) (itemSample_draws stdNormal)
  exCells (l := 3) (by norm_num) (-1) (b := 1 / 2) (by norm_num)

end Sdepy
