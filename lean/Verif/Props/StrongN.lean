import Verif.Lemmas.StrongN
import Verif.Lemmas.StrongNLink
import Verif.Lemmas.NoiseCells
import Verif.Props.StrongSolution

/-!
# Property C86: convergence in mean square for equations with more than one source of noise, jumps included
-/

set_option linter.unusedSectionVars false

open MeasureTheory ProbabilityTheory

namespace Sdepy

open Spec

section
variable {Ω ι σ O : Type} [Fintype ι] {S : SDE ℝ (ι → ℝ) O ℕ σ} {c : ℕ → ℝ → (ι → ℝ) → ι → ℝ}
  {t0 : ℝ} {x0 : ι → ℝ}

/-- Values returned by the integration of an equation follow the Euler scheme, forwards and backwards from `t0`. -/
theorem scheme_both (hS : SDEOk S) (hdt : S.sources.lookup idT = some dtSource)
    (hcoef : ∀ t x, (equation S).coef t x = .ok fun id => c id t x) (hinit : S.init t0 = .ok x0)
    {fuel : ℕ} {steps : Steps ℝ} {i0 : ℤ} {tl : TArr ℝ} {grid : List ℝ}
    (h : Along fuel steps i0 tl grid t0) {Z : ℝ → Ω → (equation S).Stochastic idT × ι → ℝ} {s s' : Ω → σ}
    (hZ : RealisesAll (equation S) idT t0 grid Z s s') :
    ∃ X : ℝ → Ω → ι → ℝ,
      (∀ ω, S.call fuel steps i0 tl (s ω) = .ok (tl.data.map fun t => some
        (if S.log then S.expO (S.letX t (X t ω)) else S.letX t (X t ω)), s' ω)) ∧
      (∀ ω, X t0 ω = if S.log then S.logX x0 else x0) ∧
      ∀ u v, StepOf grid t0 u v → ∀ ω i, X v ω i = X u ω i + c idT u (X u ω) i * (v - u) +
        ∑ j : (equation S).Stochastic idT, c j.1 u (X u ω) i * (Z v ω (j, i) - Z u ω (j, i)) := by
  obtain ⟨h1, h2, h3⟩ := along_mem h
  choose V hV hVZ using hZ
  choose X hX hX0 hXs using fun ω => solution_of_noises hcoef h.isGrid.1 h2
    (if S.log then S.logX x0 else x0) (hV ω)
  have hk : idT ∈ (equation S).ids := by
    have hm : idT ∈ S.sources.map Prod.fst := by
      rcases List.lookup_eq_some_iff.1 hdt with ⟨l1, l2, e, -⟩
      rw [e]; simp
    simpa [equation] using hm
  have hz : ∀ t dt s, (equation S).noise idT t dt s = .ok (fun _ => dt, s) := by
    intro t dt s
    simp only [equation, hdt]
    rfl
  have htime : ∀ ω, ∀ u ∈ grid, ∀ i, V ω u idT i = V ω t0 idT i + (u - t0) := by
    intro ω u hu i
    obtain ⟨s1, w1, w2⟩ := cumulated_split h.isGrid.1 h2 (hV ω)
    rcases lt_trichotomy u t0 with hlt | rfl | hlt
    · exact cumulate_time hk hz w1 u (by simp [hu, hlt]) i
    · simp
    · exact cumulate_time hk hz w2 u (by simp [hu, hlt]) i
  refine ⟨fun u ω => X ω u, fun ω => ?_, hX0, fun u v huv ω i => ?_⟩
  · rw [call_along S hS h (s ω), hinit]
    simp only [bind, Except.bind, pure, Except.pure, hX ω, Except.ok.injEq, Prod.mk.injEq, and_true]
    apply List.map_congr_left
    intro t ht
    rw [lookup_map_self (fun u => X ω u) (h3 t ht)]
    rfl
  · beta_reduce
    rw [hXs ω u v huv i, ← Finset.add_sum_erase _ _ hk, htime ω u huv.1, htime ω v huv.2.1, ← Finset.sum_coe_sort]
    have e : ∀ j : (equation S).Stochastic idT, c j.1 u (X ω u) i * (V ω v j.1 i - V ω u j.1 i) =
        c j.1 u (X ω u) i * (Z v ω (j, i) - Z u ω (j, i)) := by
      intro j
      rw [hVZ ω u huv.1, hVZ ω v huv.2.1]
      ring
    rw [Finset.sum_congr rfl fun j _ => e j]
    ring

/-- **C86** (scheme). The values returned by the integration of an equation, with time as one of its sources, are those
of the Euler scheme along the grid of integration steps, driven by the noise realised by all the other sources. -/
theorem C86_scheme (hS : SDEOk S) (hdt : S.sources.lookup idT = some dtSource)
    (hcoef : ∀ t x, (equation S).coef t x = .ok fun id => c id t x) (hinit : S.init t0 = .ok x0)
    {fuel : ℕ} {steps : Steps ℝ} {i0 : ℤ} {tl : TArr ℝ} {grid : List ℝ}
    (h : Along fuel steps i0 tl grid t0) {Z : ℝ → Ω → (equation S).Stochastic idT × ι → ℝ} {s s' : Ω → σ}
    (hZ : RealisesAll (equation S) idT t0 grid Z s s') :
    ∃ X : ℝ → Ω → ι → ℝ,
      (∀ ω, S.call fuel steps i0 tl (s ω) = .ok (tl.data.map fun t => some
        (if S.log then S.expO (S.letX t (X t ω)) else S.letX t (X t ω)), s' ω)) ∧
      AreSums (c idT) (fun j : (equation S).Stochastic idT => c j.1) t0 (if S.log then S.logX x0 else x0) grid Z X X := by
  obtain ⟨X, e, h0, h1⟩ := scheme_both hS hdt hcoef hinit h hZ
  exact ⟨X, e, h0, fun u v huv _ _ => h1 u v huv⟩

/-- **C86** (convergence). Take any two simulations of an equation, with one or more sources of noise besides time, whose
increments are independent of the past, and have mean and variance proportional to the time elapsed; initial
time and values, and noise, are the same; timelines and integration steps are not. At all times that belong to both
timelines, up to `t0 + T`, the mean square of the difference of simulated values is at most a constant times the
longest step; the constant only depends on the equation, on mean and variance of the noise, on the
initial values and on `T`. -/
theorem C86_strong (hS : SDEOk S) (hdt : S.sources.lookup idT = some dtSource)
    (hcoef : ∀ t x, (equation S).coef t x = .ok fun id => c id t x) (hinit : S.init t0 = .ok x0)
    [Nonempty ((equation S).Stochastic idT)] {T L : ℝ} (hT : 0 ≤ T)
    (hL : LipschitzCoefs (c idT) (fun j : (equation S).Stochastic idT => c j.1) t0 T L)
    (m : (equation S).Stochastic idT → ℝ) {v : (equation S).Stochastic idT → ℝ} (hv : ∀ j, 0 < v j) :
    ∃ K ≥ 0, ∀ {Ω : Type} [MeasurableSpace Ω] {P : Measure Ω} [IsProbabilityMeasure P] {D : Set ℝ}
      {Z : ℝ → Ω → (equation S).Stochastic idT × ι → ℝ} {fuel1 fuel2 : ℕ} {steps1 steps2 : Steps ℝ} {i1 i2 : ℤ}
      {tl1 tl2 : TArr ℝ} {grid1 grid2 : List ℝ} {δ : ℝ} {s1 s1' s2 s2' : Ω → σ}, Noises P t0 D m v Z → 0 ≤ δ →
      Along fuel1 steps1 i1 tl1 grid1 t0 → (∀ u ∈ grid1, u ∈ D) → Mesh grid1 δ →
      Along fuel2 steps2 i2 tl2 grid2 t0 → (∀ u ∈ grid2, u ∈ D) → Mesh grid2 δ →
      RealisesAll (equation S) idT t0 grid1 Z s1 s1' → RealisesAll (equation S) idT t0 grid2 Z s2 s2' →
      ∃ X1 X2 : ℝ → Ω → ι → ℝ,
        (∀ ω, S.call fuel1 steps1 i1 tl1 (s1 ω) = .ok (tl1.data.map fun t => some
          (if S.log then S.expO (S.letX t (X1 t ω)) else S.letX t (X1 t ω)), s1' ω)) ∧
        (∀ ω, S.call fuel2 steps2 i2 tl2 (s2 ω) = .ok (tl2.data.map fun t => some
          (if S.log then S.expO (S.letX t (X2 t ω)) else S.letX t (X2 t ω)), s2' ω)) ∧
        ∀ t ∈ tl1.data, t ∈ tl2.data → t0 ≤ t → t ≤ t0 + T →
          (∀ i, MemLp (fun ω => X1 t ω i) 2 P) ∧ (∀ i, MemLp (fun ω => X2 t ω i) 2 P) ∧
          meanSq P (fun ω i => X1 t ω i - X2 t ω i) ≤ K * δ := by
  obtain ⟨K, hK, h⟩ := schemes_close_all hT hL (if S.log then S.logX x0 else x0) m hv
  refine ⟨K, hK, ?_⟩
  intro Ω _ P _ D Z fuel1 fuel2 steps1 steps2 i1 i2 tl1 tl2 grid1 grid2 δ s1 s1' s2 s2' hZ hδ ha1 hD1 hm1
    ha2 hD2 hm2 hc1 hc2
  obtain ⟨X1, e1, f1⟩ := C86_scheme hS hdt hcoef hinit ha1 hc1
  obtain ⟨X2, e2, f2⟩ := C86_scheme hS hdt hcoef hinit ha2 hc2
  exact ⟨X1, X2, e1, e2, fun t ht1 ht2 h0 hTt => h hZ hδ ha1.isGrid.1 (along_mem ha1).2.1 hD1 hm1 ha2.isGrid.1
    (along_mem ha2).2.1 hD2 hm2 f1 f2 t ((along_mem ha1).2.2 t ht1) ((along_mem ha2).2.2 t ht2) h0 hTt⟩

/-- The part of a grid between `t0` and `t0 + T`. -/
theorem restrict_grid_all {J : Type} [Fintype J] {a : ℝ → (ι → ℝ) → ι → ℝ} {b : J → ℝ → (ι → ℝ) → ι → ℝ}
    {grid : List ℝ} {t0 T δ : ℝ} {Z : ℝ → Ω → J × ι → ℝ} {X : ℝ → Ω → ι → ℝ} (hT : 0 ≤ T)
    (hg : grid.Pairwise (· < ·)) (h0 : t0 ∈ grid) (hm : Mesh grid δ) (hX : AreSums a b t0 x0 grid Z X X) :
    ∃ g : List ℝ, g.Pairwise (· < ·) ∧ t0 ∈ g ∧ (∀ u, u ∈ g ↔ u ∈ grid ∧ u ∈ Set.Icc t0 (t0 + T)) ∧ Mesh g δ ∧
      AreSums a b t0 x0 g Z X X := by
  classical
  have hmem : ∀ u, u ∈ grid.filter (fun u => u ∈ Set.Icc t0 (t0 + T)) ↔ u ∈ grid ∧ u ∈ Set.Icc t0 (t0 + T) := by
    intro u
    rw [List.mem_filter, decide_eq_true_iff]
  refine ⟨grid.filter (fun u => u ∈ Set.Icc t0 (t0 + T)), hg.filter _, (hmem _).2 ⟨h0, le_rfl, by linarith⟩, hmem, ?_,
    hX.start, ?_⟩
  · intro u hu v hv huv hn
    have hu' := (hmem u).1 hu
    have hv' := (hmem v).1 hv
    exact hm u hu'.1 v hv'.1 huv fun c hc hcc => hn c ((hmem c).2 ⟨hc, by linarith [hu'.2.1, hcc.1],
      by linarith [hv'.2.2, hcc.2]⟩) hcc
  · rintro s t ⟨hs, ht, h⟩ h0s hst ω i
    have hs' := (hmem s).1 hs
    have ht' := (hmem t).1 ht
    refine hX.step s t ⟨hs'.1, ht'.1, .inl ⟨h0s, hst, fun c hc hcc => ?_⟩⟩ h0s hst ω i
    have hcm := (hmem c).2 ⟨hc, by linarith [hs'.2.1, hcc.1], by linarith [ht'.2.2, hcc.2]⟩
    rcases h with ⟨-, -, h⟩ | ⟨-, h, -⟩
    · exact h c hcm hcc
    · linarith

theorem ae_eq_of_meanSq [MeasurableSpace Ω] {P : Measure Ω} {X Y : Ω → ι → ℝ} (hX : ∀ i, MemLp (fun ω => X ω i) 2 P)
    (hY : ∀ i, MemLp (fun ω => Y ω i) 2 P) (h0 : meanSq P (fun ω i => X ω i - Y ω i) = 0) : X =ᵐ[P] Y := by
  unfold meanSq at h0
  rw [Finset.sum_eq_zero_iff_of_nonneg fun i _ => integral_nonneg fun ω => sq_nonneg _] at h0
  have hae : ∀ᵐ ω ∂P, ∀ i, (X ω i - Y ω i) ^ 2 = 0 := by
    refine ae_all_iff.2 fun i => ?_
    filter_upwards [(integral_eq_zero_iff_of_nonneg (fun ω => sq_nonneg _)
      ((hX i).sub (hY i)).integrable_sq).1 (h0 i (Finset.mem_univ i))] with ω h
    exact h
  filter_upwards [hae] with ω h
  funext i
  exact sub_eq_zero.1 (pow_eq_zero_iff two_ne_zero |>.1 (h i))

/-- **C86** (solution). Given noise defined at all times from `t0` to `t0 + T`, whose increments are independent of the
past, and have mean and variance proportional to the time elapsed, the equation has one and only one solution from the
initial values. Any simulation that realises that noise at the points of its grid, yields values, at times up to
`t0 + T`, such that the mean square of their difference from the solution is at most a constant times the longest step. -/
theorem C86_solution (hS : SDEOk S) (hdt : S.sources.lookup idT = some dtSource)
    (hcoef : ∀ t x, (equation S).coef t x = .ok fun id => c id t x) (hinit : S.init t0 = .ok x0)
    [Nonempty ((equation S).Stochastic idT)] {T L : ℝ} (hT : 0 ≤ T)
    (hL : LipschitzCoefs (c idT) (fun j : (equation S).Stochastic idT => c j.1) t0 T L)
    (m : (equation S).Stochastic idT → ℝ) {v : (equation S).Stochastic idT → ℝ} (hv : ∀ j, 0 < v j) :
    ∃ K ≥ 0, ∀ {Ω : Type} [MeasurableSpace Ω] {P : Measure Ω} [IsProbabilityMeasure P]
      {Z : ℝ → Ω → (equation S).Stochastic idT × ι → ℝ}, Noises P t0 (Set.Icc t0 (t0 + T)) m v Z →
      ∃ Y : ℝ → Ω → ι → ℝ, Solves P (c idT) (fun j : (equation S).Stochastic idT => c j.1) t0 T
          (if S.log then S.logX x0 else x0) Z Y ∧
        (∀ Y', Solves P (c idT) (fun j : (equation S).Stochastic idT => c j.1) t0 T
          (if S.log then S.logX x0 else x0) Z Y' → ∀ t ∈ Set.Icc t0 (t0 + T), Y' t =ᵐ[P] Y t) ∧
        ∀ {fuel : ℕ} {steps : Steps ℝ} {i0 : ℤ} {tl : TArr ℝ} {grid : List ℝ} {δ : ℝ} {s s' : Ω → σ}, 0 ≤ δ →
          Along fuel steps i0 tl grid t0 → Mesh grid δ → RealisesAll (equation S) idT t0 grid Z s s' →
          ∃ X : ℝ → Ω → ι → ℝ,
            (∀ ω, S.call fuel steps i0 tl (s ω) = .ok (tl.data.map fun t => some
              (if S.log then S.expO (S.letX t (X t ω)) else S.letX t (X t ω)), s' ω)) ∧
            ∀ t ∈ tl.data, t0 ≤ t → t ≤ t0 + T →
              (∀ i, MemLp (fun ω => X t ω i) 2 P) ∧ meanSq P (fun ω i => X t ω i - Y t ω i) ≤ K * δ := by
  obtain ⟨K, hK, h⟩ := exists_solution_all hT hL (if S.log then S.logX x0 else x0) m hv
  refine ⟨K, hK, ?_⟩
  intro Ω _ P _ Z hZ
  obtain ⟨Y, hY, hX⟩ := h hZ
  refine ⟨Y, hY, fun Y' hY' t ht => ae_eq_of_meanSq (hY'.memLp t ht) (hY.memLp t ht)
    (solution_unique_all hT hL hv hZ hY' hY t ht), ?_⟩
  intro fuel steps i0 tl grid δ s s' hδ ha hm hc
  obtain ⟨X, e, f⟩ := C86_scheme hS hdt hcoef hinit ha hc
  refine ⟨X, e, fun t ht h0t htT => ?_⟩
  obtain ⟨g, g1, g2, g3, g4, g5⟩ := restrict_grid_all hT ha.isGrid.1 (along_mem ha).2.1 hm f
  exact hX hδ g1 g2 (fun u hu => ((g3 u).1 hu).2) g4 g5 t ((g3 t).2 ⟨(along_mem ha).2.2 t ht, h0t, htT⟩)

end

/-! ### Examples: a geometric Brownian motion with jumps, Gaussian or Poisson -/

/-- Sources that follow given paths, whatever the steps. -/
theorem realise_paths {Ω ι : Type} {z : ℕ → ℝ → ℝ → Ω → Py ((ι → ℝ) × Ω)} {V : ℝ → ℕ → ι → ℝ} {ω : Ω}
    (hz : ∀ id t dt, z id t dt ω = .ok (V (t + dt) id - V t id, ω)) (t dt : ℝ) : ∀ l : List ℕ,
    realise z t dt l ω = .ok (fun id => if id ∈ l then V (t + dt) id - V t id else 0, ω) := by
  intro l
  induction l with
  | nil => simp [realise]
  | cons id l ih =>
    simp only [realise, hz, ih, bind, Except.bind, pure, Except.pure, Except.ok.injEq, Prod.mk.injEq, and_true]
    funext k
    by_cases hk : k = id
    · subst hk; simp
    · simp [Function.update_of_ne hk, hk]

theorem cumulate_paths {Ω Y : Type} [AddCommGroup Y] {z : ℝ → ℝ → Ω → Py (Y × Ω)} {V : ℝ → Y} {ω : Ω}
    (hz : ∀ t dt, z t dt ω = .ok (V (t + dt) - V t, ω)) (t0 : ℝ) : ∀ (ts : List ℝ) (t : ℝ),
    Spec.cumulate z t (V t - V t0) ts ω = .ok (ts.map fun u => (u, V u - V t0), ω) := by
  intro ts
  induction ts with
  | nil => intro t; rfl
  | cons t' ts ih =>
    intro t
    have hw : V t - V t0 + (V t' - V t) = V t' - V t0 := by abel
    simp only [Spec.cumulate, bind, Except.bind, pure, Except.pure, hz, add_sub_cancel, hw, ih, List.map_cons]

theorem cumulated_paths {Ω Y : Type} [AddCommGroup Y] {z : ℝ → ℝ → Ω → Py (Y × Ω)} {V : ℝ → Y} {ω : Ω}
    (hz : ∀ t dt, z t dt ω = .ok (V (t + dt) - V t, ω)) {t0 : ℝ} {grid : List ℝ} (hg : grid.Pairwise (· < ·))
    (h0 : t0 ∈ grid) : cumulated z t0 grid ω = .ok (grid.map fun u => (u, V u - V t0), ω) := by
  have e : (0 : Y) = V t0 - V t0 := by simp
  simp only [cumulated, bind, Except.bind, pure, Except.pure]
  rw [e, cumulate_paths hz t0]
  simp only
  rw [cumulate_paths hz t0]
  simp only [Except.ok.injEq, Prod.mk.injEq, and_true]
  conv_rhs => rw [← filter_split3 hg h0]
  simp

theorem realises_paths {Ω ι : Type} {E : Equation ℝ (ι → ℝ) ℕ Ω} {k : ℕ} {Z : ℝ → Ω → E.Stochastic k × ι → ℝ}
    (hz : ∀ (j : E.Stochastic k) t dt ω, E.noise j.1 t dt ω = .ok (fun i => Z (t + dt) ω (j, i) - Z t ω (j, i), ω))
    (hk : ∀ t dt ω, E.noise k t dt ω = .ok (fun _ => dt, ω)) (h0 : ∀ id ∉ E.ids, ∀ t dt ω, E.noise id t dt ω = .ok (0, ω))
    {t0 : ℝ} {grid : List ℝ} (hg : grid.Pairwise (· < ·)) (hm : t0 ∈ grid) : RealisesAll E k t0 grid Z id id := by
  classical
  intro ω
  let V : ℝ → ℕ → ι → ℝ := fun u id i => if h : id ∈ E.ids.erase k then Z u ω (⟨id, h⟩, i) else
    if id = k then u else 0
  have hV : ∀ id t dt, E.noise id t dt ω = .ok (V (t + dt) id - V t id, ω) := by
    intro id t dt
    by_cases h : id ∈ E.ids.erase k
    · rw [hz ⟨id, h⟩]
      simp only [V, Except.ok.injEq, Prod.mk.injEq, and_true]
      funext i
      simp only [Pi.sub_apply]
      rw [dif_pos h, dif_pos h]
    · by_cases hk' : id = k
      · subst hk'
        rw [hk]
        simp only [V, Except.ok.injEq, Prod.mk.injEq, and_true]
        funext i
        simp
      · have : id ∉ E.ids := fun h' => h (Finset.mem_erase.2 ⟨hk', h'⟩)
        rw [h0 id this]
        simp only [V, Except.ok.injEq, Prod.mk.injEq, and_true]
        funext i
        simp [this, hk']
  let W : ℝ → ℕ → ι → ℝ := fun u id => if id ∈ E.ids then V u id else 0
  have hW : ∀ t dt, E.realised t dt ω = .ok (W (t + dt) - W t, ω) := by
    intro t dt
    unfold Equation.realised
    rw [realise_paths hV]
    simp only [Finset.mem_sort, Except.ok.injEq, Prod.mk.injEq, and_true]
    funext id
    simp only [W, Pi.sub_apply]
    split_ifs <;> simp
  refine ⟨fun u => W u - W t0, cumulated_paths hW hg hm, fun u _ j i => ?_⟩
  simp only [W, Pi.sub_apply, V]
  rw [if_pos (Finset.mem_of_mem_erase j.2), if_pos (Finset.mem_of_mem_erase j.2), dif_pos j.2, dif_pos j.2]

theorem exLipschitzN {ι J : Type} [Fintype ι] [Fintype J] (α : ℝ) (β : J → ℝ) (t0 T : ℝ) :
    LipschitzCoefs (fun _ x (i : ι) => α * x i) (fun j _ x i => β j * x i) t0 T (α ^ 2 + ∑ j, β j ^ 2) := by
  intro t _ u _ x y
  have e : ∑ i : ι, ((α * x i - α * y i) ^ 2 + ∑ j, (β j * x i - β j * y i) ^ 2) =
      (α ^ 2 + ∑ j, β j ^ 2) * ∑ i, (x i - y i) ^ 2 := by
    rw [Finset.mul_sum]
    refine Finset.sum_congr rfl fun i _ => ?_
    rw [add_mul, Finset.sum_mul]
    congr 1
    · ring
    · exact Finset.sum_congr rfl fun j _ => by ring
  rw [e]
  have : 0 ≤ (1 + ∑ i, x i ^ 2) * |t - u| :=
    mul_nonneg (add_nonneg zero_le_one (Finset.sum_nonneg fun i _ => sq_nonneg _)) (abs_nonneg _)
  exact mul_le_mul_of_nonneg_left (by linarith) (by positivity)

/-- `dx = x/20*dt + x/5*dw + x/10*dj`, from the value 10. -/
noncomputable def exJumps {ι σ : Type} (dw dj : Src ℝ ι σ) : SDE ℝ (ι → ℝ) (ι → ℝ) ℕ σ where
  sources := [(idT, dtSource), (idW, dw), (idJ, dj)]
  sde _ x := .ok (some [(idT, fun i => 1 / 20 * x i), (idW, fun i => 1 / 5 * x i), (idJ, fun i => 1 / 10 * x i)])
  init _ := .ok fun _ => 10
  letX _ x := x
  log := false
  logX := id
  expO := id

section
variable {ι σ : Type} (dw dj : Src ℝ ι σ)

theorem exJumps_ok : SDEOk (exJumps dw dj) where
  sources := by simp [DictOk, exJumps, idT, idW, idJ]
  sde := by
    intro t x A h
    simp only [exJumps, Except.ok.injEq, Option.some.injEq] at h
    subst h
    simp [DictOk, idT, idW, idJ]

/-- The coefficients of the equation. -/
noncomputable def exCoef (id : ℕ) : ℝ := if id = idT then 1 / 20 else if id = idW then 1 / 5 else if id = idJ then 1 / 10 else 0

theorem exJumps_coef (t : ℝ) (x : ι → ℝ) :
    (equation (exJumps dw dj)).coef t x = .ok fun id i => exCoef id * x i := by
  have h : ∀ id, entry [(idT, fun i => 1 / 20 * x i), (idW, fun i => 1 / 5 * x i), (idJ, fun i => 1 / 10 * x i)] id =
      fun i => exCoef id * x i := by
    intro id
    unfold exCoef
    by_cases h1 : id = idT
    · subst h1; simp [entry, List.lookup]
    · by_cases h2 : id = idW
      · subst h2; simp [entry, List.lookup, idT, idW]
      · by_cases h3 : id = idJ
        · subst h3; simp [entry, List.lookup, idT, idW, idJ]
        · rw [if_neg h1, if_neg h2, if_neg h3]
          have e1 : (id == idT) = false := by simpa using h1
          have e2 : (id == idW) = false := by simpa using h2
          have e3 : (id == idJ) = false := by simpa using h3
          simp only [entry, List.lookup, e1, e2, e3]
          funext i
          simp
  simp only [equation, exJumps, bind, Except.bind, pure, Except.pure, List.map_cons, List.map_nil]
  rw [if_neg (by rintro ⟨k, h1, h2⟩; exact h2 h1)]
  simp only [Except.ok.injEq]
  funext id
  exact h id

theorem exJumps_ids : (equation (exJumps dw dj)).ids = {idT, idW, idJ} := by
  simp [equation, exJumps]

instance : Nonempty ((equation (exJumps dw dj)).Stochastic idT) :=
  ⟨⟨idW, by rw [exJumps_ids]; simp [idT, idW, idJ]⟩⟩

end

/-- The two sources of noise of the example, at all times of the interval: a Wiener process, and a compound Poisson
process with 3 jumps of unit size, in the mean, per unit of time. -/
theorem exists_noises {ι : Type} [Fintype ι] (J : Finset ℕ) :
    ∃ (Ω : Type) (_ : MeasurableSpace Ω) (P : Measure Ω) (Z : ℝ → Ω → J → ι → ℝ), IsProbabilityMeasure P ∧
      Increments P 1 (Set.Icc 1 (1 + 1)) (fun h => Measure.pi fun j : J => Measure.pi fun _ : ι =>
        if j.1 = idJ then compoundPoisson (3 * h) (Measure.dirac 1) else gaussianReal 0 h.toNNReal) Z ∧
      Noises P 1 (Set.Icc 1 (1 + 1)) (fun j : J => if j.1 = idJ then 3 else 0) (fun j : J => if j.1 = idJ then 3 else 1)
        fun u ω c => Z u ω c.1 c.2 := by
  have hcell : ∀ j : J, ∃ (Ω : Type) (_ : MeasurableSpace Ω) (P : Measure Ω) (Z : ℝ → Ω → ℝ), IsProbabilityMeasure P ∧
      (∀ u, Measurable (Z u)) ∧ Increments P 1 (Set.Icc 1 (1 + 1)) (fun h =>
        if j.1 = idJ then compoundPoisson (3 * h) (Measure.dirac 1) else gaussianReal 0 h.toNNReal) Z := by
    intro j
    by_cases h : j.1 = idJ
    · simp only [if_pos h]
      exact exists_jumps 1 one_pos (by norm_num) _
    · simp only [if_neg h]
      exact exists_wiener_cell 1 _
  obtain ⟨Ω, mΩ, P, Z, hP, -, hZ⟩ := exists_product fun j : J => exists_product fun _ : ι => hcell j
  refine ⟨Ω, mΩ, P, Z, hP, hZ, noises_of_increments (fun j h hh => ?_) (fun j => ?_) hZ⟩
  · by_cases hj : j.1 = idJ
    · simp only [if_pos hj]
      haveI : IsProbabilityMeasure (compoundPoisson (3 * h) (Measure.dirac 1)) :=
        Measure.isProbabilityMeasure_map measurable_sumTo.aemeasurable
      infer_instance
    · simp only [if_neg hj]
      infer_instance
  · by_cases hj : j.1 = idJ
    · simp only [if_pos hj]
      have := jumps_moments (ι := ι) (l := 3) (by norm_num) (ν := Measure.dirac 1)
        ((memLp_const (1 : ℝ)).congr_norm aestronglyMeasurable_id (by simp))
      simpa using this
    · simp only [if_neg hj]
      exact wiener_moments

/-- The sources of noise of the example, other than time. -/
abbrev exIds : Finset ℕ := [idT, idW, idJ].toFinset.erase idT

abbrev exW : exIds := ⟨idW, by decide⟩

abbrev exJ : exIds := ⟨idJ, by decide⟩

theorem exJumps_realises {Ω ι : Type} (Z : ℝ → Ω → exIds → ι → ℝ) {t0 : ℝ} {grid : List ℝ}
    (hg : grid.Pairwise (· < ·)) (hm : t0 ∈ grid) :
    RealisesAll (equation (exJumps (pathNoise fun u ω => Z u ω exW) (pathNoise fun u ω => Z u ω exJ))) idT t0 grid
      (fun u ω (c : exIds × ι) => Z u ω c.1 c.2) id id := by
  refine realises_paths ?_ (fun _ _ _ => rfl) ?_ hg hm
  · rintro ⟨j, hj⟩ t dt ω
    have h : j = idW ∨ j = idJ := by
      rw [exJumps_ids] at hj
      simp only [Finset.mem_erase, Finset.mem_insert, Finset.mem_singleton] at hj
      tauto
    rcases h with rfl | rfl <;> rfl
  · intro id h t dt ω
    rw [exJumps_ids] at h
    simp only [Finset.mem_insert, Finset.mem_singleton, not_or] at h
    have e1 : (id == idT) = false := by simpa using h.1
    have e2 : (id == idW) = false := by simpa using h.2.1
    have e3 : (id == idJ) = false := by simpa using h.2.2
    simp only [equation, exJumps, List.lookup, e1, e2, e3]

theorem exMesh : Mesh [1, 3 / 2, (2 : ℝ)] (1 / 2) := by
  intro a ha b hb hab hn
  simp at ha hb
  rcases ha with rfl | rfl | rfl <;> rcases hb with rfl | rfl | rfl <;> try norm_num
  exact absurd (hn (3 / 2) (by simp)) (by norm_num)

/-- The solution of `dx = x/20*dt + x/5*dw + x/10*dj`, from the value 10 at time 1, driven by a Wiener process and
by a Poisson process, compared with a simulation with two steps. -/
example : ∃ (Ω : Type) (_ : MeasurableSpace Ω) (P : Measure Ω) (Z : ℝ → Ω → exIds → Fin 3 → ℝ) (K : ℝ)
    (X : ℝ → Ω → Fin 3 → ℝ) (Y : ℝ → Ω → Fin 3 → ℝ),
    HasLaw (fun ω => Z 2 ω - Z 1 ω) (Measure.pi fun j : exIds => Measure.pi fun _ : Fin 3 =>
      if j.1 = idJ then compoundPoisson 3 (Measure.dirac 1) else gaussianReal 0 1) P ∧
    Solves P (fun _ x i => 1 / 20 * x i) (fun (j : exIds) _ x i => (if j.1 = idW then 1 / 5 else 1 / 10) * x i) 1 1
      (fun _ => 10) (fun u ω c => Z u ω c.1 c.2) Y ∧
    (∀ ω, (exJumps (pathNoise fun u ω => Z u ω exW) (pathNoise fun u ω => Z u ω exJ)).call 10 .none 0
      ⟨[3], [1, 3 / 2, 2]⟩ ω = .ok ([some (X 1 ω), some (X (3 / 2) ω), some (X 2 ω)], ω)) ∧
    meanSq P (fun ω c => X 2 ω c - Y 2 ω c) ≤ K * (1 / 2) := by
  obtain ⟨Ω, mΩ, P, Z, hP, hI, hN⟩ := exists_noises (ι := Fin 3) exIds
  have hc : ∀ j : exIds, exCoef j.1 = if j.1 = idW then 1 / 5 else 1 / 10 := by
    rintro ⟨j, hj⟩
    have h : j = idW ∨ j = idJ := by simpa [exIds, idT, idW, idJ] using hj
    rcases h with rfl | rfl <;> simp [exCoef, idT, idW, idJ]
  have hL := exLipschitzN (ι := Fin 3) (exCoef idT) (fun j : exIds => exCoef j.1) 1 1
  obtain ⟨K, hK, h⟩ := C86_solution (S := exJumps (pathNoise fun u ω => Z u ω exW) (pathNoise fun u ω => Z u ω exJ))
    (c := fun id _ x i => exCoef id * x i) (t0 := 1) (T := 1) (exJumps_ok _ _) rfl (exJumps_coef _ _) rfl zero_le_one hL
    (fun j : exIds => if j.1 = idJ then 3 else 0) (v := fun j : exIds => if j.1 = idJ then 3 else 1)
    (fun j => by split_ifs <;> norm_num)
  obtain ⟨Y, hY, -, hX⟩ := h hN
  obtain ⟨X, e1, e2⟩ := hX (δ := 1 / 2) (by norm_num) exAlongS exMesh (exJumps_realises Z (by norm_num) (by simp))
  refine ⟨Ω, mΩ, P, Z, K, X, Y, ?_, ?_, e1, (e2 2 (by simp) (by norm_num) (by norm_num)).2⟩
  · have := hI.law 1 (by norm_num) 2 (by norm_num) le_rfl (by norm_num)
    norm_num at this
    exact this
  · simp only [← hc]
    have : (1 : ℝ) / 20 = exCoef idT := by simp [exCoef]
    rw [this]
    exact hY

/-- Two simulations of the same equation, with one and with two steps, that share their noise. -/
example : ∃ (Ω : Type) (_ : MeasurableSpace Ω) (P : Measure Ω) (Z : ℝ → Ω → exIds → Fin 3 → ℝ) (K : ℝ)
    (X1 X2 : ℝ → Ω → Fin 3 → ℝ),
    let S := exJumps (pathNoise fun u ω => Z u ω exW) (pathNoise fun u ω => Z u ω exJ)
    (∀ ω, S.call 10 .none 0 ⟨[2], [1, 2]⟩ ω = .ok ([some (X1 1 ω), some (X1 2 ω)], ω)) ∧
    (∀ ω, S.call 10 .none 0 ⟨[3], [1, 3 / 2, 2]⟩ ω =
      .ok ([some (X2 1 ω), some (X2 (3 / 2) ω), some (X2 2 ω)], ω)) ∧
    meanSq P (fun ω c => X1 2 ω c - X2 2 ω c) ≤ K := by
  obtain ⟨Ω, mΩ, P, Z, hP, hI, hN⟩ := exists_noises (ι := Fin 3) exIds
  have hL := exLipschitzN (ι := Fin 3) (exCoef idT) (fun j : exIds => exCoef j.1) 1 1
  obtain ⟨K, hK, h⟩ := C86_strong (S := exJumps (pathNoise fun u ω => Z u ω exW) (pathNoise fun u ω => Z u ω exJ))
    (c := fun id _ x i => exCoef id * x i) (t0 := 1) (T := 1) (exJumps_ok _ _) rfl (exJumps_coef _ _) rfl zero_le_one hL
    (fun j : exIds => if j.1 = idJ then 3 else 0) (v := fun j : exIds => if j.1 = idJ then 3 else 1)
    (fun j => by split_ifs <;> norm_num)
  obtain ⟨X1, X2, e1, e2, e3⟩ := h (δ := 1) hN zero_le_one exAlongR
    (by intro u hu; simp at hu; rcases hu with rfl | rfl <;> norm_num)
    (by intro a ha b hb _ _; simp at ha hb; rcases ha with rfl | rfl <;> rcases hb with rfl | rfl <;> norm_num)
    exAlongS (by intro u hu; simp at hu; rcases hu with rfl | rfl | rfl <;> norm_num)
    (by
      intro a ha b hb _ _; simp at ha hb
      rcases ha with rfl | rfl | rfl <;> rcases hb with rfl | rfl | rfl <;> norm_num)
    (exJumps_realises Z (by norm_num) (by simp)) (exJumps_realises Z (by norm_num) (by simp))
  refine ⟨Ω, mΩ, P, Z, K, X1, X2, e1, e2, ?_⟩
  have := (e3 2 (by simp) (by simp) (by norm_num) (by norm_num)).2.2
  rwa [mul_one] at this

/-- The values simulated, for given paths of the noise. -/
example (w n : ℝ → ℝ) : ∃ X : ℝ → Unit → Unit → ℝ,
    (exJumps (pathNoise fun u _ _ => w u) (pathNoise fun u _ _ => n u)).call 10 .none 0 ⟨[3], [1, 3 / 2, 2]⟩ () =
      .ok ([some (X 1 ()), some (X (3 / 2) ()), some (X 2 ())], ()) ∧
    X (3 / 2) () () = 10 + 10 / 20 * (1 / 2) + 10 / 5 * (w (3 / 2) - w 1) + 10 / 10 * (n (3 / 2) - n 1) := by
  obtain ⟨X, e1, e2⟩ := C86_scheme (S := exJumps (pathNoise fun u _ _ => w u) (pathNoise fun u _ _ => n u))
    (c := fun id _ x i => exCoef id * x i) (t0 := 1) (exJumps_ok _ _) rfl (exJumps_coef _ _) rfl exAlongS
    (exJumps_realises (Ω := Unit) (ι := Unit) (fun u _ j _ => if j.1 = idW then w u else n u) (by norm_num) (by simp))
  refine ⟨X, e1 (), ?_⟩
  have h := e2.step 1 (3 / 2) ⟨by simp, by simp, .inl ⟨le_rfl, by norm_num, by
    intro c hc h; simp at hc; rcases hc with rfl | rfl | rfl <;> norm_num at h⟩⟩ le_rfl (by norm_num) () ()
  have h0 : X 1 () = fun _ => 10 := e2.start ()
  rw [h0] at h
  have hsum : ∀ f : exIds → ℝ, ∑ j : exIds, f j = f exW + f exJ := by
    intro f
    have : (Finset.univ : Finset exIds) = {exW, exJ} := by decide
    rw [this, Finset.sum_pair (by decide)]
  refine h.trans ((congrArg _ (hsum fun j => exCoef j.1 * 10 * ((if j.1 = idW then w (3 / 2) else n (3 / 2)) -
    if j.1 = idW then w 1 else n 1))).trans ?_)
  simp [exCoef, idT, idW, idJ]
  ring

end Sdepy
