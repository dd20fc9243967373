import Verif.Props.Additive
import Verif.Props.BackLaw
import Verif.Props.EstimatesN

/-!
# Property C95: expectations and Monte Carlo estimates for equations with additive noise, with order one
-/

set_option linter.unusedSectionVars false

open MeasureTheory ProbabilityTheory

namespace Sdepy

open Spec

/-- The mean square of the difference of a scheme from any solution is at most a constant times the square of the longest
step, and values of the scheme have second moments. -/
theorem order_one_close {ι J : Type} [Fintype ι] [Fintype J] [Nonempty J] {a : ℝ → (ι → ℝ) → ι → ℝ}
    {b : J → ℝ → ι → ℝ} {t0 T L : ℝ} (hT : 0 ≤ T) (h : AdditiveNoise a b t0 T L) (x0 : ι → ℝ) (m : J → ℝ)
    {v : J → ℝ} (hv : ∀ j, 0 < v j) :
    ∃ K ≥ 0, ∀ {Ω : Type} [MeasurableSpace Ω] {P : Measure Ω} [IsProbabilityMeasure P]
      {Z : ℝ → Ω → J × ι → ℝ} {Y : ℝ → Ω → ι → ℝ}, Noises P t0 (Set.Icc t0 (t0 + T)) m v Z →
      Solves P a (fun j t _ => b j t) t0 T x0 Z Y →
        ∀ {δ : ℝ}, 0 < δ → ∀ {X : ℝ → Ω → ι → ℝ} {grid : List ℝ},
          grid.Pairwise (· < ·) → t0 ∈ grid → (∀ u ∈ grid, u ∈ Set.Icc t0 (t0 + T)) → Mesh grid δ →
          AreSums a (fun j t _ => b j t) t0 x0 grid Z X X → ∀ t ∈ grid,
            (∀ i, MemLp (fun ω => X t ω i) 2 P) ∧ meanSq P (fun ω i => X t ω i - Y t ω i) ≤ K * δ ^ 2 := by
  obtain ⟨K, hK, h1⟩ := order_one hT h x0 m hv
  obtain ⟨K', -, h2⟩ := solution_close_all hT (h.lipschitz hT) x0 m hv
  refine ⟨K, hK, ?_⟩
  intro Ω _ P _ Z Y hZ hY δ hδ X grid g1 g2 g3 g4 g5 t ht
  exact ⟨(h2 hZ hY hδ.le g1 g2 g3 g4 g5 t ht).1, h1 hZ hY hδ g1 g2 g3 g4 g5 t ht⟩

section
variable {ι σ O : Type} [Fintype ι] [MeasurableSpace σ] {μ : Measure σ} [IsProbabilityMeasure μ]
  {S : SDE ℝ (ι → ℝ) O ℕ σ} {a : ℝ → (ι → ℝ) → ι → ℝ} {b : ℕ → ℝ → ι → ℝ} {t0 : ℝ} {x0 : ι → ℝ}
  {law : (equation S).Stochastic idT → ℝ → Measure (ι → ℝ)}

/-- **C95** (expectations). Simulations of an equation with additive noise and smooth drift, that draw from a random
generator increments of given laws; and a solution of the same equation, driven by any noise whose increments have
the same laws, and are independent of the past. The expectation of any function of the values simulated for a time `t` of
the timeline, that is Lipschitz of constant `M`, differs from that of the solution by at most `M*K*δ`, where `δ` is the
longest step. `K` only depends on the equation, on mean and variance of the noise, on the initial values and on `T`. -/
theorem C95_expectation (hS : SDEOk S) (hdt : S.sources.lookup idT = some dtSource)
    (hcoef : ∀ t x, (equation S).coef t x = .ok fun id => if id = idT then a t x else b id t)
    (hinit : S.init t0 = .ok x0) [Nonempty ((equation S).Stochastic idT)]
    (hdraw : (equation S).DrawsNoise idT μ law) {T L : ℝ} (hT : 0 ≤ T)
    (hL : AdditiveNoise a (fun j : (equation S).Stochastic idT => b j.1) t0 T L)
    {m v : (equation S).Stochastic idT → ℝ} (hv : ∀ j, 0 < v j) (hmo : ∀ j, HasMoments (law j) (m j) (v j)) :
    ∃ K ≥ 0, ∀ {Ω : Type} [MeasurableSpace Ω] {P : Measure Ω} [IsProbabilityMeasure P]
      {Z : ℝ → Ω → (equation S).Stochastic idT → ι → ℝ} {Y : ℝ → Ω → ι → ℝ},
      Increments P t0 (Set.Icc t0 (t0 + T)) (fun h => Measure.pi fun j => law j h) Z →
      Solves P a (fun (j : (equation S).Stochastic idT) t _ => b j.1 t) t0 T (if S.log then S.logX x0 else x0)
        (fun u ω p => Z u ω p.1 p.2) Y →
      ∀ {fuel : ℕ} {steps : Steps ℝ} {i0 : ℤ} {tl : TArr ℝ} {grid : List ℝ} {δ : ℝ}, 0 < δ →
        Along fuel steps i0 tl grid t0 → Mesh grid δ →
        ∃ (X : ℝ → σ → ι → ℝ) (st : σ → σ),
          (∀ s, S.call fuel steps i0 tl s = .ok (tl.data.map fun t => some
            (if S.log then S.expO (S.letX t (X t s)) else S.letX t (X t s)), st s)) ∧
          ∀ t ∈ tl.data, t ∈ Set.Icc t0 (t0 + T) → ∀ (φ : (ι → ℝ) → ℝ) (M : ℝ), 0 ≤ M →
            (∀ x y, |φ x - φ y| ≤ M * √(∑ i, (x i - y i) ^ 2)) →
            Integrable (fun s => φ (X t s)) μ ∧ Integrable (fun ω => φ (Y t ω)) P ∧
            |∫ s, φ (X t s) ∂μ - ∫ ω, φ (Y t ω) ∂P| ≤ M * (K * δ) := by
  obtain ⟨ca, cb⟩ := additive_coefs hcoef
  obtain ⟨K, hK, hclose⟩ := order_one_close hT hL (if S.log then S.logX x0 else x0) m hv
  refine ⟨√K, Real.sqrt_nonneg K, ?_⟩
  intro Ω _ P _ Z Y hZ hY fuel steps i0 tl grid δ hδ ha hm
  have hprob : ∀ j h, 0 < h → IsProbabilityMeasure (law j h) := by
    intro j h hh
    obtain ⟨ν, h1, h2⟩ := hdraw j 0 h hh.ne'
    rw [← h2 hh]
    exact h1.isProb
  obtain ⟨X, X', st, e1, e2, e3⟩ := coupling_of_close (c := fun id t x => if id = idT then a t x else b id t) (Y := Y)
    hS hdt hcoef hinit hdraw hT (by rw [ca, cb]; exact hL.lipschitz hT) hZ
    (by rw [ca, cb]; exact hclose (noises_of_increments hprob hmo hZ) hY hδ) ha hm
  refine ⟨X, st, e1, fun t ht htI φ M hM hφ => ?_⟩
  obtain ⟨hl, hms⟩ := e3 t ht htI
  have hu : Measurable fun (w : {t : ℝ // t ∈ tl.data ∧ t ∈ Set.Icc t0 (t0 + T)} × ι → ℝ) (i : ι) =>
      w (⟨t, ht, htI⟩, i) := measurable_pi_lambda _ fun i => measurable_pi_apply _
  have := expectation_of_coupling (e2.comp hu) hl (hY.memLp t htI) hms hM hφ
  rwa [Real.sqrt_mul hK, Real.sqrt_sq hδ.le] at this

/-- **C95** (expectations, backwards). The same, for times from `t0` back to `t0 - T`. -/
theorem C95_expectation_back (hS : SDEOk S) (hdt : S.sources.lookup idT = some dtSource)
    (hcoef : ∀ t x, (equation S).coef t x = .ok fun id => if id = idT then a t x else b id t)
    (hinit : S.init t0 = .ok x0) [Nonempty ((equation S).Stochastic idT)]
    (hdraw : (equation S).DrawsNoiseBack idT μ law) {T L : ℝ} (hT : 0 ≤ T)
    (hL : AdditiveNoise a (fun j : (equation S).Stochastic idT => b j.1) (t0 - T) T L)
    {m v : (equation S).Stochastic idT → ℝ} (hv : ∀ j, 0 < v j) (hmo : ∀ j, HasMoments (law j) (m j) (v j)) :
    ∃ K ≥ 0, ∀ {Ω : Type} [MeasurableSpace Ω] {P : Measure Ω} [IsProbabilityMeasure P]
      {Z : ℝ → Ω → (equation S).Stochastic idT → ι → ℝ} {Y : ℝ → Ω → ι → ℝ},
      IncrementsBack P t0 (Set.Icc (t0 - T) t0) (fun h => Measure.pi fun j => law j h) Z →
      SolvesBack P a (fun (j : (equation S).Stochastic idT) t _ => b j.1 t) t0 T (if S.log then S.logX x0 else x0)
        (fun u ω p => Z u ω p.1 p.2) Y →
      ∀ {fuel : ℕ} {steps : Steps ℝ} {i0 : ℤ} {tl : TArr ℝ} {grid : List ℝ} {δ : ℝ}, 0 < δ →
        Along fuel steps i0 tl grid t0 → Mesh grid δ →
        ∃ (X : ℝ → σ → ι → ℝ) (st : σ → σ),
          (∀ s, S.call fuel steps i0 tl s = .ok (tl.data.map fun t => some
            (if S.log then S.expO (S.letX t (X t s)) else S.letX t (X t s)), st s)) ∧
          ∀ t ∈ tl.data, t ∈ Set.Icc (t0 - T) t0 → ∀ (φ : (ι → ℝ) → ℝ) (M : ℝ), 0 ≤ M →
            (∀ x y, |φ x - φ y| ≤ M * √(∑ i, (x i - y i) ^ 2)) →
            Integrable (fun s => φ (X t s)) μ ∧ Integrable (fun ω => φ (Y t ω)) P ∧
            |∫ s, φ (X t s) ∂μ - ∫ ω, φ (Y t ω) ∂P| ≤ M * (K * δ) := by
  obtain ⟨ca, cb⟩ := additive_coefs hcoef
  obtain ⟨K, hK, hclose⟩ := order_one_close hT (additive_reflect hL) (if S.log then S.logX x0 else x0) m hv
  refine ⟨√K, Real.sqrt_nonneg K, ?_⟩
  intro Ω _ P _ Z Y hZ hY fuel steps i0 tl grid δ hδ ha hm
  have hprob : ∀ j h, 0 < h → IsProbabilityMeasure (law j h) := by
    intro j h hh
    obtain ⟨ν, h1, h2⟩ := hdraw j 0 (-h) (by linarith)
    have := h2 (by linarith)
    rw [neg_neg] at this
    rw [← this]
    exact h1.isProb
  have hZr := increments_reflect hZ
  rw [reflect_Icc] at hZr
  obtain ⟨X, X', st, e1, e2, e3⟩ := coupling_of_close_back (c := fun id t x => if id = idT then a t x else b id t)
    (Y := Y) hS hdt hcoef hinit hdraw hT (by rw [ca, cb]; exact hL.lipschitz hT) hZ
    (by rw [ca, cb]; exact hclose (noises_of_increments hprob hmo hZr) (solves_reflect hY) hδ) ha hm
  refine ⟨X, st, e1, fun t ht htI φ M hM hφ => ?_⟩
  obtain ⟨hl, hms⟩ := e3 t ht htI
  have hu : Measurable fun (w : {t : ℝ // t ∈ tl.data ∧ t ∈ Set.Icc (t0 - T) t0} × ι → ℝ) (i : ι) =>
      w (⟨t, ht, htI⟩, i) := measurable_pi_lambda _ fun i => measurable_pi_apply _
  have := expectation_of_coupling (e2.comp hu) hl (hY.memLp t htI) hms hM hφ
  rwa [Real.sqrt_mul hK, Real.sqrt_sq hδ.le] at this

end

section
variable {κ : Type} [Fintype κ] {ids : Finset ℕ} {a : ℝ → (κ → ℝ) → κ → ℝ} {b : ℕ → ℝ → κ → ℝ} {t0 : ℝ}

/-- **C95** (`montecarlo`). A simulation with many paths, all with the same initial values, of an equation with additive
noise and smooth drift is repeated `R` times; sources draw from a random generator, `N` paths being independent,
increments of given laws. The mean computed by `montecarlo`, in a component of the samples cumulated, one for each run, of
a function of the values simulated for a time `t` of the timeline, that is Lipschitz of constant `M`, estimates
the expectation of the same function of a solution: its mean square error is at most twice the variance of the function of
the solution, divided by the number of paths in all runs, plus `3*M²*K*δ²`, where `δ` is the longest step. -/
theorem C95_montecarlo [Nonempty {id // id ∈ ids.erase idT}] {T L : ℝ} (hT : 0 ≤ T)
    (hL : AdditiveNoise a (fun j : {id // id ∈ ids.erase idT} => b j.1) t0 T L) (y0 : κ → ℝ)
    {law : ℕ → ℝ → Measure (κ → ℝ)} (hpr : ∀ j ∈ ids.erase idT, ∀ h > 0, IsProbabilityMeasure (law j h))
    {m v : ℕ → ℝ} (hv : ∀ j ∈ ids.erase idT, 0 < v j) (hmo : ∀ j ∈ ids.erase idT, HasMoments (law j) (m j) (v j)) :
    ∃ K ≥ 0, ∀ {σ C O : Type} {N : ℕ} [MeasurableSpace σ] [Fintype C] {μ : Measure σ}
      [IsProbabilityMeasure μ] (e : C ≃ Fin N × κ) {S : SDE ℝ (C → ℝ) O ℕ σ} {x0 : C → ℝ}, 0 < N →
      SDEOk S → S.sources.lookup idT = some dtSource → (equation S).ids = ids →
      (∀ t x, (equation S).coef t x = .ok fun id p =>
        if id = idT then a t (fun k => x (e.symm ((e p).1, k))) (e p).2 else b id t (e p).2) →
      S.init t0 = .ok x0 → (∀ p, (if S.log then S.logX x0 else x0) p = y0 (e p).2) →
      (equation S).DrawsNoise idT μ (fun j h => pathsLaw e (law j.1 h)) →
      ∀ {Ω : Type} [MeasurableSpace Ω] {P : Measure Ω} [IsProbabilityMeasure P]
      {Z : ℝ → Ω → {id // id ∈ ids.erase idT} → κ → ℝ} {Y : ℝ → Ω → κ → ℝ},
      Increments P t0 (Set.Icc t0 (t0 + T)) (fun h => Measure.pi fun j : {id // id ∈ ids.erase idT} => law j.1 h) Z →
      Solves P a (fun (j : {id // id ∈ ids.erase idT}) t _ => b j.1 t) t0 T y0 (fun u ω p => Z u ω p.1 p.2) Y →
      ∀ {fuel : ℕ} {steps : Steps ℝ} {i0 : ℤ} {tl : TArr ℝ} {grid : List ℝ} {δ : ℝ}, 0 < δ →
        Along fuel steps i0 tl grid t0 → Mesh grid δ →
        ∃ (X : ℕ → ℝ → σ → C → ℝ) (ss : ℕ → σ → σ), (∀ s, ss 0 s = s) ∧
          (∀ r s, S.call fuel steps i0 tl (ss r s) = .ok (tl.data.map fun t => some
            (if S.log then S.expO (S.letX t (X r t s)) else S.letX t (X r t s)), ss (r + 1) s)) ∧
          ∀ R > 0, ∀ t ∈ tl.data, t ∈ Set.Icc t0 (t0 + T) → ∀ (φ : (κ → ℝ) → ℝ) (M : ℝ), 0 ≤ M →
            (∀ x y, |φ x - φ y| ≤ M * √(∑ k, (x k - y k) ^ 2)) →
            ∀ {auto : String → Option (ℝ × ℝ) → List ℝ → Py (List ℝ)} {bins : Bins ℝ} {range : Option (ℝ × ℝ)}
              {vs c : List ℕ} {smp : σ → ℕ → Batch ℝ} {mc : σ → MC ℝ}, AutoOk auto → InRange vs c →
              (∀ s, ∀ r < R, (smp s r).vshape = vs ∧
                (smp s r).raw c = List.ofFn fun i => φ fun k => X r t s (e.symm (i, k))) →
              (∀ s, McHistory auto bins range "all" ((List.range R).map (smp s)) (mc s)) →
              ∃ E : σ → ℝ, (∀ s, ∃ m, (mc s).mean = some m ∧ m.shape = vs ∧ m.get c = some (E s)) ∧ MemLp E 2 μ ∧
                ∫ s, (E s - ∫ ω, φ (Y t ω) ∂P) ^ 2 ∂μ ≤
                  2 * Var[fun ω => φ (Y t ω); P] / (R * N) + 3 * (M ^ 2 * (K * δ ^ 2)) := by
  obtain ⟨K, hK, hclose⟩ := order_one_close hT hL y0 (fun j => m j.1) (v := fun j => v j.1) fun j => hv j.1 j.2
  refine ⟨K, hK, ?_⟩
  intro σ C O N _ _ μ _ e S x0 hN hS hdt hids hcoef hinit hx0 hdraw Ω _ P _ Z Y hZ hY fuel steps i0 tl grid δ hδ ha hm
  have : Nonempty (Fin N) := ⟨⟨0, hN⟩⟩
  have hprob : ∀ (j : {id // id ∈ ids.erase idT}) h, 0 < h → IsProbabilityMeasure (law j.1 h) :=
    fun j h hh => hpr j.1 j.2 h hh
  have ca : (fun t x => if idT = idT then a t x else b idT t) = a := by simp
  have cb : (fun (j : {id // id ∈ ids.erase idT}) t (x : κ → ℝ) => if j.1 = idT then a t x else b j.1 t) =
      fun j t _ => b j.1 t := by
    funext j t x
    rw [if_neg (Finset.ne_of_mem_erase j.2)]
  obtain ⟨X, ss, e0, e1, e2⟩ := estimate_of_close (a := fun id t x => if id = idT then a t x else b id t) (Y := Y) hT
    (by rw [ca, cb]; exact hL.lipschitz hT) y0 hpr e hS hdt hids
    (fun t x => by
      rw [hcoef t x]
      congr 1
      funext id p
      split_ifs <;> rfl) hinit hx0 hdraw hZ hY.memLp
    (by rw [ca, cb]; exact hclose (noises_of_increments hprob (fun j => hmo j.1 j.2) hZ) hY hδ) ha hm
  refine ⟨X, ss, e0, e1, ?_⟩
  intro R hR t ht htI φ M hM hφ auto bins range vs c smp mc hau hc hs hmc
  obtain ⟨f1, -, f2⟩ := e2 R hR t ht htI φ M hM hφ
  rw [Fintype.card_fin] at f1 f2
  exact ⟨_, fun s => mean_of_samples hau hc hN hR (hs s) (hmc s), f1, f2⟩

end

/-! ### Examples: `dx = sin(x)*dt + t*dw + 2*dj`, with the sources of the library -/

/-- `dx = sin(x)*dt + t*dw + 2*dj`, from the value 10 at time 1, with the Wiener source and the source of jumps of the
library, for 3 jumps per unit of time, of law `N(-1, 1/4)`. -/
noncomputable abbrev exAddJ : SDE ℝ (Cells ([2] ++ [3]) → ℝ) (Cells ([2] ++ [3]) → ℝ) ℕ (ℕ → Item ℝ) :=
  exAdd (wienerCells ([2] ++ [3]) ⟨3, [2], .none⟩ (itemRng ℝ)) (cpoissonNoise ([2] ++ [3]) ⟨3, [2],
    poissonCall ⟨3, [2], .arr (.scalar 3)⟩ (itemDraw ℝ),
    fun _ => .ok (rvsOf (frozen 0 1 (-1) (1 / 2) .inf) (itemSample ℝ))⟩)

theorem exVariates : VariatesLaw exState exJumpLaw (rvsOf (frozen 0 1 (-1) (1 / 2) .inf) (itemSample ℝ)) := by
  rw [exJumpLaw, ← stdNormal_affine]
  refine rvsOf_law (by fun_prop) (fun z => ?_) (itemSample_draws stdNormal)
  simp only [frozen]
  rw [if_neg (by norm_num)]

theorem exAddJ_draws : (equation exAddJ).DrawsNoise idT exState (jumpNoise idJ 3 exJumpLaw) :=
  C87_sources (itemRng_draws stdNormal) (itemDraw_draws stdNormal) exCells (by norm_num) (fun _ => rfl) exVariates rfl

theorem exAddJ_back : (equation exAddJ).DrawsNoiseBack idT exState (jumpNoise idJ 3 exJumpLawB) :=
  C92_sources (itemRng_draws stdNormal) (itemDraw_draws stdNormal) exCells (by norm_num) (fun _ => rfl) exVariates rfl

theorem exVar (j : ℕ) : (0 : ℝ) < if j = idJ then 3 * ∫ x, x ^ 2 ∂exJumpLaw else 1 := by
  split_ifs
  · exact mul_pos (by norm_num) exJumpLaw_sq
  · exact one_pos

theorem abs_coord {ι : Type} [Fintype ι] (i : ι) (x y : ι → ℝ) : |(|x i| - |y i|)| ≤ 1 * √(∑ c, (x c - y c) ^ 2) := by
  rw [one_mul]
  refine (abs_abs_sub_abs_le_abs_sub _ _).trans (Real.le_sqrt_of_sq_le ?_)
  rw [sq_abs]
  exact Finset.single_le_sum (f := fun c => (x c - y c) ^ 2) (fun p _ => sq_nonneg _) (Finset.mem_univ i)

/-- The simulation, with two steps, against the solution driven by paths of the same noise. -/
example : ∃ (Ω : Type) (_ : MeasurableSpace Ω) (P : Measure Ω) (Z : ℝ → Ω → exIds → Cells ([2] ++ [3]) → ℝ) (K : ℝ)
    (X : ℝ → (ℕ → Item ℝ) → Cells ([2] ++ [3]) → ℝ) (Y : ℝ → Ω → Cells ([2] ++ [3]) → ℝ) (st : (ℕ → Item ℝ) → ℕ → Item ℝ),
    Solves P (fun _ x i => Real.sin (x i)) (fun (j : exIds) t _ _ => exBeta j.1 t) 1 1
      (fun _ => 10) (fun u ω c => Z u ω c.1 c.2) Y ∧
    (∀ s, exAddJ.call 10 .none 0 ⟨[3], [1, 3 / 2, 2]⟩ s =
      .ok ([some (X 1 s), some (X (3 / 2) s), some (X 2 s)], st s)) ∧
    ∀ i, |∫ s, |X 2 s i| ∂exState - ∫ ω, |Y 2 ω i| ∂P| ≤ K * (1 / 2) := by
  have h2 : MemLp id 2 exJumpLaw := memLp_id_gaussianReal 2
  obtain ⟨Ω, mΩ, P, Z, hP, hI, hN⟩ := exists_noise_paths (ι := Cells ([2] ++ [3])) exIds (by norm_num : (0 : ℝ) ≤ 3)
    exJumpLaw h2
  have hL := exAdd_smooth (ι := Cells ([2] ++ [3])) (fun j : exIds => j.1) 1 1
  haveI : Nonempty exIds := ⟨exW⟩
  obtain ⟨K0, -, h0⟩ := exists_solution_all zero_le_one (hL.lipschitz zero_le_one) (fun _ => 10) _
    fun j : exIds => exVar j.1
  obtain ⟨Y, hY, -⟩ := h0 hN
  obtain ⟨K, -, h⟩ := C95_expectation (S := exAddJ) (b := fun id t _ => exBeta id t) (t0 := 1) (T := 1)
    (exAdd_ok _ _) rfl (exAdd_coef _ _) rfl exAddJ_draws zero_le_one hL (fun j : exIds => exVar j.1)
    (fun j => jumpDiffusion_moments (by norm_num) h2 j)
  obtain ⟨X, st, e1, e2⟩ := h hI hY (δ := 1 / 2) (by norm_num) exAlongS exMesh
  refine ⟨Ω, mΩ, P, Z, K, X, Y, st, hY, e1, fun i => ?_⟩
  have := (e2 2 (by simp) (by norm_num) (fun x => |x i|) 1 zero_le_one (abs_coord i)).2.2
  rwa [one_mul] at this

/-- The simulation, with two steps backwards, against the solution that has value 10 at time 1. -/
example : ∃ (Ω : Type) (_ : MeasurableSpace Ω) (P : Measure Ω) (Z : ℝ → Ω → exIds → Cells ([2] ++ [3]) → ℝ) (K : ℝ)
    (X : ℝ → (ℕ → Item ℝ) → Cells ([2] ++ [3]) → ℝ) (Y : ℝ → Ω → Cells ([2] ++ [3]) → ℝ) (st : (ℕ → Item ℝ) → ℕ → Item ℝ),
    SolvesBack P (fun _ x i => Real.sin (x i)) (fun (j : exIds) t _ _ => exBeta j.1 t) 1 1
      (fun _ => 10) (fun u ω c => Z u ω c.1 c.2) Y ∧
    (∀ s, exAddJ.call 10 .none (-1) ⟨[3], [0, 1 / 2, 1]⟩ s =
      .ok ([some (X 0 s), some (X (1 / 2) s), some (X 1 s)], st s)) ∧
    ∀ i, |∫ s, |X 0 s i| ∂exState - ∫ ω, |Y 0 ω i| ∂P| ≤ K * (1 / 2) := by
  have h2 : MemLp id 2 exJumpLawB := by
    rw [exJumpLawB_eq]
    exact memLp_id_gaussianReal 2
  haveI : IsProbabilityMeasure exJumpLawB := by rw [exJumpLawB_eq]; infer_instance
  obtain ⟨Ω, mΩ, P, Z, hP, hI, hN⟩ := exists_noise_paths (ι := Cells ([2] ++ [3])) exIds (by norm_num : (0 : ℝ) ≤ 3)
    exJumpLawB h2
  have hD : {u : ℝ | 2 * 1 - u ∈ Set.Icc (1 : ℝ) (1 + 1)} = Set.Icc (1 - 1) 1 := by
    ext u
    simp only [Set.mem_setOf_eq, Set.mem_Icc]
    constructor <;> rintro ⟨h1, h2⟩ <;> constructor <;> linarith
  have hI' := increments_back hI
  rw [hD] at hI'
  have hL := exAdd_smooth (ι := Cells ([2] ++ [3])) (fun j : exIds => j.1) (1 - 1) 1
  haveI : Nonempty exIds := ⟨exW⟩
  obtain ⟨K0, -, h0⟩ := exists_solution_all zero_le_one ((additive_reflect hL).lipschitz zero_le_one) (fun _ => 10) _
    exMoments_back.1
  obtain ⟨Y, hY, -⟩ := h0 hN
  have hYb : SolvesBack P (fun _ x i => Real.sin (x i)) (fun (j : exIds) t _ _ => exBeta j.1 t) 1 1
      (fun _ => 10) (fun u ω c => Z (2 * 1 - u) ω c.1 c.2) fun u => Y (2 * 1 - u) := by
    refine solves_reflect_inv ?_
    simp only [sub_sub_cancel]
    exact hY
  obtain ⟨K, -, h⟩ := C95_expectation_back (S := exAddJ) (b := fun id t _ => exBeta id t) (t0 := 1) (T := 1)
    (exAdd_ok _ _) rfl (exAdd_coef _ _) rfl exAddJ_back zero_le_one hL exMoments_back.1 exMoments_back.2
  obtain ⟨X, st, e1, e2⟩ := h hI' hYb (δ := 1 / 2) (by norm_num) exAlongB exMeshB
  refine ⟨Ω, mΩ, P, fun u => Z (2 * 1 - u), K, X, fun u => Y (2 * 1 - u), st, hYb, e1, fun i => ?_⟩
  have := (e2 0 (by simp) (by norm_num) (fun x => |x i|) 1 zero_le_one (abs_coord i)).2.2
  rwa [one_mul] at this

/-- Three paths and two components, in each of two runs: the mean, by `montecarlo`, of the absolute value at 2 of the
second component. -/
example : ∃ (Ω : Type) (_ : MeasurableSpace Ω) (P : Measure Ω)
    (Z : ℝ → Ω → {id // id ∈ ({idT, idW, idJ} : Finset ℕ).erase idT} → Cells [2] → ℝ) (Y : ℝ → Ω → Cells [2] → ℝ) (K : ℝ)
    (X : ℕ → ℝ → (ℕ → Item ℝ) → Cells ([2] ++ [3]) → ℝ) (ss : ℕ → (ℕ → Item ℝ) → ℕ → Item ℝ)
    (mc : (ℕ → Item ℝ) → MC ℝ) (E : (ℕ → Item ℝ) → ℝ),
    Solves P (fun _ x k => Real.sin (x k)) (fun j t _ _ => exBeta j.1 t) 1 1 (fun _ => 10)
      (fun u ω c => Z u ω c.1 c.2) Y ∧
    (∀ r s, exAddJ.call 10 .none 0 ⟨[3], [1, 3 / 2, 2]⟩ (ss r s) =
      .ok ([some (X r 1 s), some (X r (3 / 2) s), some (X r 2 s)], ss (r + 1) s)) ∧
    (∀ s, McHistory exAuto .none none "all" ((List.range 2).map fun r => exSmp fun i =>
      |X r 2 s ((cellPath [2] 3).symm (i, ⟨[1], by decide⟩))|) (mc s)) ∧
    (∀ s, ∃ m, (mc s).mean = some m ∧ m.shape = [] ∧ m.get [] = some (E s)) ∧
    ∫ s, (E s - ∫ ω, |Y 2 ω ⟨[1], by decide⟩| ∂P) ^ 2 ∂exState ≤
      2 * Var[fun ω => |Y 2 ω ⟨[1], by decide⟩|; P] / 6 + 3 * (K * (1 / 4)) := by
  have h2 : MemLp id 2 exJumpLaw := memLp_id_gaussianReal 2
  obtain ⟨Ω, mΩ, P, Z, hP, hI, hN⟩ := exists_noise_paths (ι := Cells [2]) (({idT, idW, idJ} : Finset ℕ).erase idT)
    (by norm_num : (0 : ℝ) ≤ 3) exJumpLaw h2
  have hL := exAdd_smooth (ι := Cells [2]) (fun j : {id // id ∈ ({idT, idW, idJ} : Finset ℕ).erase idT} => j.1) 1 1
  obtain ⟨K0, -, h0⟩ := exists_solution_all zero_le_one (hL.lipschitz zero_le_one) (fun _ => 10) _
    (v := fun j => if j.1 = idJ then 3 * ∫ x, x ^ 2 ∂exJumpLaw else 1) fun j => exVar j.1
  obtain ⟨Y, hY, -⟩ := h0 hN
  obtain ⟨K, -, h⟩ := C95_montecarlo (ids := {idT, idW, idJ}) (b := fun id t _ => exBeta id t) (t0 := 1) (T := 1)
    zero_le_one hL (fun _ : Cells [2] => 10) (law := jumpLaw idJ 3 exJumpLaw)
    (fun j _ h _ => by
      have : IsProbabilityMeasure (compoundPoisson (3 * h) exJumpLaw) :=
        Measure.isProbabilityMeasure_map measurable_sumTo.aemeasurable
      unfold jumpLaw
      infer_instance)
    (m := fun j => if j = idJ then 3 * ∫ x, x ∂exJumpLaw else 0) (fun j _ => exVar j)
    (fun j hj => jumpDiffusion_moments (J := ({idT, idW, idJ} : Finset ℕ).erase idT) (by norm_num) h2 ⟨j, hj⟩)
  obtain ⟨X, ss, -, e1, e2⟩ := h (N := 3) (cellPath [2] 3) (S := exAddJ) (by norm_num) (exAdd_ok _ _) rfl
    (exAdd_ids _ _) (fun t x => by
      rw [exAdd_coef]
      congr 1
      funext id p
      simp only [Prod.mk.eta, Equiv.symm_apply_apply]
      split_ifs <;> rfl) rfl (fun _ => rfl)
    (C89_sources (itemRng_draws stdNormal) (itemDraw_draws stdNormal) exCells (by norm_num) (fun _ => rfl) exVariates rfl)
    hI hY (δ := 1 / 2) (by norm_num) exAlongS exMesh
  choose mc hmc using fun s => exHistory (fun r => exSmp fun i => |X r 2 s ((cellPath [2] 3).symm (i, ⟨[1], by decide⟩))|)
    (fun r => rfl) (fun r => ⟨by simp [exSmp], by simp [exSmp], .inl rfl⟩) 2
  obtain ⟨E, f1, -, f2⟩ := e2 2 (by norm_num) 2 (by simp) (by norm_num) (fun x => |x ⟨[1], by decide⟩|) 1 zero_le_one
    (abs_coord _)
    exAuto_ok (vs := []) (c := []) (by simp [InRange]) (fun s r _ => ⟨rfl, by
      simp [exSmp, Batch.raw, Batch.ax, List.ofFn_succ, List.range_succ]⟩) hmc
  refine ⟨Ω, mΩ, P, Z, Y, K, X, ss, mc, E, hY, e1, hmc, f1, f2.trans (le_of_eq ?_)⟩
  norm_num

end Sdepy
