import Verif.Lemmas.Isonormal
import Verif.Props.Strong

/-!
# Property C83: convergence of simulations to the solution of the stochastic differential equation
-/

set_option linter.unusedSectionVars false

open MeasureTheory ProbabilityTheory Filter Topology

namespace Sdepy

open Spec

section
variable {Ω ι σ O : Type} [Fintype ι] {S : SDE ℝ (ι → ℝ) O ℕ σ} {dw : Src ℝ ι σ} {a b : ℝ → (ι → ℝ) → ι → ℝ}
  {t0 : ℝ} {x0 : ι → ℝ}

/-- The part of a grid between `t0` and `t0 + T`. -/
theorem restrict_grid {grid : List ℝ} {t0 T δ : ℝ} {W X : ℝ → Ω → ι → ℝ} (hT : 0 ≤ T) (hg : grid.Pairwise (· < ·))
    (h0 : t0 ∈ grid) (hm : Mesh grid δ) (hX : IsScheme a b t0 x0 grid W X) :
    ∃ g : List ℝ, g.Pairwise (· < ·) ∧ t0 ∈ g ∧ (∀ u, u ∈ g ↔ u ∈ grid ∧ u ∈ Set.Icc t0 (t0 + T)) ∧ Mesh g δ ∧
      IsScheme a b t0 x0 g W X := by
  classical
  have hmem : ∀ u, u ∈ grid.filter (fun u => u ∈ Set.Icc t0 (t0 + T)) ↔ u ∈ grid ∧ u ∈ Set.Icc t0 (t0 + T) := by
    intro u
    rw [List.mem_filter, decide_eq_true_iff]
  refine ⟨grid.filter (fun u => u ∈ Set.Icc t0 (t0 + T)), hg.filter _, (hmem _).2 ⟨h0, le_rfl, by linarith⟩, hmem, ?_,
    hX.start, ?_⟩
  · intro u hu v hv huv hn
    have hu' := (hmem u).1 hu
    have hv' := (hmem v).1 hv
    exact hm u hu'.1 v hv'.1 huv fun c hc hcc => hn c ((hmem c).2 ⟨hc, by linarith [hu'.2.1, hcc.1],
      by linarith [hv'.2.2, hcc.2]⟩) hcc
  · rintro s t ⟨hs, ht, h⟩ h0s hst ω i
    have hs' := (hmem s).1 hs
    have ht' := (hmem t).1 ht
    refine hX.step s t ⟨hs'.1, ht'.1, .inl ⟨h0s, hst, fun c hc hcc => ?_⟩⟩ h0s hst ω i
    have hcm := (hmem c).2 ⟨hc, by linarith [hs'.2.1, hcc.1], by linarith [ht'.2.2, hcc.2]⟩
    rcases h with ⟨-, -, h⟩ | ⟨-, h, -⟩
    · exact h c hcm hcc
    · linarith

/-- **C83** (solution). Given any noise `W`, defined at all times from `t0` to `t0 + T`, the equation
`dx = a(t, x)*dt + b(t, x)*dw` has one and only one solution from the initial values. Any simulation of the
equation that realises the noise `W` at the points of its grid, yields values, at times up to `t0 + T`, such that the
mean square of their difference from the solution is at most a constant times the longest step; the
constant only depends on the equation, on the initial values and on `T`. -/
theorem C83_solution (hsrc : S.sources = [(idT, dtSource), (idW, dw)])
    (hsde : ∀ t x, S.sde t x = .ok (some [(idT, a t x), (idW, b t x)])) (hinit : S.init t0 = .ok x0)
    {T L : ℝ} (hT : 0 ≤ T) (hL : LipschitzCoef a b t0 T L) :
    ∃ K ≥ 0, ∀ {Ω : Type} [MeasurableSpace Ω] {P : Measure Ω} [IsProbabilityMeasure P]
      {W : ℝ → Ω → ι → ℝ}, Drives P t0 (Set.Icc t0 (t0 + T)) W →
      ∃ Y : ℝ → Ω → ι → ℝ, IsSolution P a b t0 T (if S.log then S.logX x0 else x0) W Y ∧
        (∀ Y', IsSolution P a b t0 T (if S.log then S.logX x0 else x0) W Y' →
          ∀ t ∈ Set.Icc t0 (t0 + T), Y' t =ᵐ[P] Y t) ∧
        ∀ {fuel : ℕ} {steps : Steps ℝ} {i0 : ℤ} {tl : TArr ℝ} {grid : List ℝ} {δ : ℝ} {s s' : Ω → σ}, 0 ≤ δ →
          Along fuel steps i0 tl grid t0 → Mesh grid δ →
          (∀ ω, cumulated dw t0 grid (s ω) = .ok (grid.map fun u => (u, fun i => W u ω i - W t0 ω i), s' ω)) →
          ∃ X : ℝ → Ω → ι → ℝ,
            (∀ ω, S.call fuel steps i0 tl (s ω) = .ok (tl.data.map fun t => some
              (if S.log then S.expO (S.letX t (X t ω)) else S.letX t (X t ω)), s' ω)) ∧
            ∀ t ∈ tl.data, t0 ≤ t → t ≤ t0 + T →
              (∀ i, MemLp (fun ω => X t ω i) 2 P) ∧ meanSq P (fun ω i => X t ω i - Y t ω i) ≤ K * δ := by
  obtain ⟨K, hK, h⟩ := exists_solution hT hL (if S.log then S.logX x0 else x0)
  refine ⟨K, hK, ?_⟩
  intro Ω _ P _ W hW
  obtain ⟨Y, hY, hX⟩ := h hW
  refine ⟨Y, hY, fun Y' hY' t ht => ?_, ?_⟩
  · have h0 := solution_unique hT hL hW hY' hY t ht
    unfold meanSq at h0
    rw [Finset.sum_eq_zero_iff_of_nonneg fun i _ => integral_nonneg fun ω => sq_nonneg _] at h0
    have hae : ∀ᵐ ω ∂P, ∀ i, (Y' t ω i - Y t ω i) ^ 2 = 0 := by
      refine ae_all_iff.2 fun i => ?_
      have := h0 i (Finset.mem_univ i)
      filter_upwards [(integral_eq_zero_iff_of_nonneg (fun ω => sq_nonneg _)
        ((hY'.memLp t ht i).sub (hY.memLp t ht i)).integrable_sq).1 this] with ω h
      exact h
    filter_upwards [hae] with ω h
    funext i
    exact sub_eq_zero.1 (pow_eq_zero_iff two_ne_zero |>.1 (h i))
  · intro fuel steps i0 tl grid δ s s' hδ ha hm hc
    obtain ⟨X, e, f⟩ := C83_scheme hsrc hsde hinit ha hc
    refine ⟨X, e, fun t ht h0t htT => ?_⟩
    obtain ⟨g, g1, g2, g3, g4, g5⟩ := restrict_grid hT ha.isGrid.1 (along_mem ha).2.1 hm f
    exact hX hδ g1 g2 (fun u hu => ((g3 u).1 hu).2) g4 g5 t ((g3 t).2 ⟨(along_mem ha).2.2 t ht, h0t, htT⟩)

end

/-! ### Examples -/

/-- Noise that follows a given path, whatever the steps. -/
def pathNoise {Ω ι : Type} (W : ℝ → Ω → ι → ℝ) : Src ℝ ι Ω := fun t dt ω => .ok (W (t + dt) ω - W t ω, ω)

theorem cumulated_pathNoise {Ω ι : Type} (W : ℝ → Ω → ι → ℝ) {t0 : ℝ} {grid : List ℝ}
    (hg : grid.Pairwise (· < ·)) (h0 : t0 ∈ grid) (ω : Ω) :
    cumulated (pathNoise W) t0 grid ω = .ok (grid.map fun u => (u, fun i => W u ω i - W t0 ω i), ω) := by
  have hm : Memory (fun s => s = ω) (fun _ => True) (pathNoise W) (fun u => W u ω) := by
    intro t dt s hs _ _
    subst hs
    exact ⟨s, rfl, rfl⟩
  obtain ⟨s', h, rfl⟩ := cumulated_memory hm hg h0 (fun _ _ => trivial) ω rfl
  exact h

/-- The solution of `dx = x/20*dt + x/5*dw`, from the value 10 at time 1, driven by a Wiener process with correlated
components, compared with a simulation with two steps. -/
example : ∃ (Ω : Type) (_ : MeasurableSpace Ω) (P : Measure Ω) (W : ℝ → Ω → Fin 3 × Fin 2 → ℝ) (K : ℝ)
    (X Y : ℝ → Ω → Fin 3 × Fin 2 → ℝ),
    (∀ t i k l, 1 ≤ t → cov[fun ω => W t ω (i, k), fun ω => W t ω (i, l); P] = if k = l then t - 1 else (t - 1) / 2) ∧
    IsSolution P (fun _ x c => 1 / 20 * x c) (fun _ x c => 1 / 5 * x c) 1 1 (fun _ => 10) W Y ∧
    (∀ ω, (exGbm (pathNoise W)).call 10 .none 0 ⟨[3], [1, 3 / 2, 2]⟩ ω =
      .ok ([some (X 1 ω), some (X (3 / 2) ω), some (X 2 ω)], ω)) ∧
    meanSq P (fun ω c => X 2 ω c - Y 2 ω c) ≤ K * (1 / 2) := by
  obtain ⟨Ω, mΩ, P, W, hP, hW⟩ := exists_wiener (ι := Fin 3) exPosSemidef 1 0
  have hD := drives_of_wiener (t1 := 1) (hW.mono (D' := Set.Icc 1 (1 + 1)) (Set.subset_univ _)) le_rfl (by
    intro s _ t _ k
    rw [Matrix.smul_apply, Matrix.smul_apply, smul_eq_mul, smul_eq_mul, ← sub_mul]
    fin_cases k <;> simp)
  obtain ⟨K, hK, h⟩ := C83_solution (dw := pathNoise fun u ω (c : Fin 3 × Fin 2) => W u ω c.1 c.2)
    (S := exGbm _) (t0 := 1) (T := 1) rfl (fun _ _ => rfl) rfl zero_le_one (exLipschitz (1 / 20) (1 / 5) 1 1)
  obtain ⟨Y, hY, -, hX⟩ := h hD
  obtain ⟨X, e1, e2⟩ := hX (δ := 1 / 2) (by norm_num) exAlongS
    (by
      intro a ha b hb hab hn
      simp at ha hb
      rcases ha with rfl | rfl | rfl <;> rcases hb with rfl | rfl | rfl <;> try norm_num
      exact absurd (hn (3 / 2) (by simp)) (by norm_num))
    (fun ω => cumulated_pathNoise _ (by norm_num) (by simp) ω)
  refine ⟨Ω, mΩ, P, _, K, X, Y, fun t i k l ht => ?_, hY, e1, (e2 2 (by simp) (by norm_num) (by norm_num)).2⟩
  rw [hW.cov t trivial t trivial, if_pos rfl, wienerCov, if_pos ⟨ht, ht⟩]
  fin_cases k <;> fin_cases l <;> simp [sub_mul, sub_div] <;> ring

end Sdepy
