import Verif.Lemmas.StrongLink
import Verif.Props.HestonConv

/-!
# Property C83: convergence in mean square of simulations of stochastic differential equations
-/

set_option linter.unusedSectionVars false

open MeasureTheory ProbabilityTheory

namespace Sdepy

open Spec

section
variable {Ω ι σ O : Type} {S : SDE ℝ (ι → ℝ) O ℕ σ} {dw : Src ℝ ι σ} {a b : ℝ → (ι → ℝ) → ι → ℝ}
  {t0 : ℝ} {x0 : ι → ℝ}

/-- **C83** (scheme). The values returned by the integration of `dx = a(t, x)*dt + b(t, x)*dw` are those of the Euler
scheme along the grid of integration steps, driven by the noise realised. -/
theorem C83_scheme [Fintype ι] (hsrc : S.sources = [(idT, dtSource), (idW, dw)])
    (hsde : ∀ t x, S.sde t x = .ok (some [(idT, a t x), (idW, b t x)])) (hinit : S.init t0 = .ok x0)
    {fuel : ℕ} {steps : Steps ℝ} {i0 : ℤ} {tl : TArr ℝ} {grid : List ℝ}
    (h : Along fuel steps i0 tl grid t0) {W : ℝ → Ω → ι → ℝ} {s s' : Ω → σ}
    (hW : ∀ ω, cumulated dw t0 grid (s ω) = .ok (grid.map fun u => (u, fun i => W u ω i - W t0 ω i), s' ω)) :
    ∃ X : ℝ → Ω → ι → ℝ,
      (∀ ω, S.call fuel steps i0 tl (s ω) = .ok (tl.data.map fun t => some
        (if S.log then S.expO (S.letX t (X t ω)) else S.letX t (X t ω)), s' ω)) ∧
      IsScheme a b t0 (if S.log then S.logX x0 else x0) grid W X := by
  obtain ⟨h1, h2, h3⟩ := along_mem h
  choose X hX hX0 hXs using fun ω => solution_of_noise hsrc hsde h.isGrid.1 h2
    (if S.log then S.logX x0 else x0) (hW ω)
  refine ⟨fun u ω => X ω u, fun ω => ?_, ⟨hX0, fun u v huv _ _ ω i => ?_⟩⟩
  · rw [call_along S (two_sources_ok hsrc hsde) h (s ω), hinit]
    simp only [bind, Except.bind, pure, Except.pure, hX ω, Except.ok.injEq, Prod.mk.injEq, and_true]
    apply List.map_congr_left
    intro t ht
    rw [lookup_map_self (fun u => X ω u) (h3 t ht)]
    rfl
  · linarith [hXs ω u v huv i]

/-- **C83** (convergence). Take any two simulations of `dx = a(t, x)*dt + b(t, x)*dw`, with the same initial time and
values, and the same noise, but with different timelines and integration steps. At all times that belong to both
timelines, up to `t0 + T`, the mean square of the difference of simulated values (of their logarithms, if logarithms
are integrated) is at most a constant times the longest step; the constant only depends on the equation, on the initial
values and on `T`. -/
theorem C83_strong [Fintype ι] (hsrc : S.sources = [(idT, dtSource), (idW, dw)])
    (hsde : ∀ t x, S.sde t x = .ok (some [(idT, a t x), (idW, b t x)])) (hinit : S.init t0 = .ok x0)
    {T L : ℝ} (hT : 0 ≤ T) (hL : LipschitzCoef a b t0 T L) :
    ∃ K ≥ 0, ∀ {Ω : Type} [MeasurableSpace Ω] {P : Measure Ω} [IsProbabilityMeasure P] {D : Set ℝ}
      {W : ℝ → Ω → ι → ℝ} {fuel1 fuel2 : ℕ} {steps1 steps2 : Steps ℝ} {i1 i2 : ℤ} {tl1 tl2 : TArr ℝ}
      {grid1 grid2 : List ℝ} {δ : ℝ} {s1 s1' s2 s2' : Ω → σ}, Drives P t0 D W → 0 ≤ δ →
      Along fuel1 steps1 i1 tl1 grid1 t0 → (∀ u ∈ grid1, u ∈ D) → Mesh grid1 δ →
      Along fuel2 steps2 i2 tl2 grid2 t0 → (∀ u ∈ grid2, u ∈ D) → Mesh grid2 δ →
      (∀ ω, cumulated dw t0 grid1 (s1 ω) =
        .ok (grid1.map fun u => (u, fun i => W u ω i - W t0 ω i), s1' ω)) →
      (∀ ω, cumulated dw t0 grid2 (s2 ω) =
        .ok (grid2.map fun u => (u, fun i => W u ω i - W t0 ω i), s2' ω)) →
      ∃ X1 X2 : ℝ → Ω → ι → ℝ,
        (∀ ω, S.call fuel1 steps1 i1 tl1 (s1 ω) = .ok (tl1.data.map fun t => some
          (if S.log then S.expO (S.letX t (X1 t ω)) else S.letX t (X1 t ω)), s1' ω)) ∧
        (∀ ω, S.call fuel2 steps2 i2 tl2 (s2 ω) = .ok (tl2.data.map fun t => some
          (if S.log then S.expO (S.letX t (X2 t ω)) else S.letX t (X2 t ω)), s2' ω)) ∧
        ∀ t ∈ tl1.data, t ∈ tl2.data → t0 ≤ t → t ≤ t0 + T →
          (∀ i, MemLp (fun ω => X1 t ω i) 2 P) ∧ (∀ i, MemLp (fun ω => X2 t ω i) 2 P) ∧
          meanSq P (fun ω i => X1 t ω i - X2 t ω i) ≤ K * δ := by
  obtain ⟨K, hK, h⟩ := schemes_close hT hL (if S.log then S.logX x0 else x0)
  refine ⟨K, hK, ?_⟩
  intro Ω _ P _ D W fuel1 fuel2 steps1 steps2 i1 i2 tl1 tl2 grid1 grid2 δ s1 s1' s2 s2' hW hδ ha1 hD1 hm1
    ha2 hD2 hm2 hc1 hc2
  obtain ⟨X1, e1, f1⟩ := C83_scheme hsrc hsde hinit ha1 hc1
  obtain ⟨X2, e2, f2⟩ := C83_scheme hsrc hsde hinit ha2 hc2
  exact ⟨X1, X2, e1, e2, fun t ht1 ht2 h0 hTt => h hW hδ ha1.isGrid.1 (along_mem ha1).2.1 hD1 hm1 ha2.isGrid.1
    (along_mem ha2).2.1 hD2 hm2 f1 f2 t ((along_mem ha1).2.2 t ht1) ((along_mem ha2).2.2 t ht2) h0 hTt⟩

end

section
variable {Ω ι κ O : Type} [MeasurableSpace Ω] [Fintype ι] [Fintype κ] [DecidableEq κ] [DecidableEq ι]
  {P : Measure Ω} [IsProbabilityMeasure P]
  {corr : Corr κ} {D : Set ℝ} {F : ℝ → Matrix κ κ ℝ}
  {G : ℕ → Matrix κ κ ℝ → ℝ → ℝ → Ω → ι → κ → ℝ}
  {a b : ℝ → (ι × κ → ℝ) → ι × κ → ℝ} {t0 : ℝ} {x0 : ι × κ → ℝ}

/-- **C83** (`true_wiener_source`). An equation with a `true_wiener_source`, that starts no later than the simulation,
is integrated twice, one time after the other, with different timelines and integration steps. At all times that belong
to both timelines, up to `t0 + T`, the mean square of the difference of simulated values is at most a constant times
the longest step. -/
theorem C83_true_wiener (hC : CorrOk corr D F) (hone : ∀ u ∈ D, ∀ k, corrAt corr u k k = 1) (hG : Draws P G)
    (hJ : GaussianDraws P G) {w0 rtol : ℝ} (hr : 0 ≤ rtol) (hw0 : w0 ∈ D) (hw : w0 ≤ t0) (z0 : ι → κ → ℝ)
    {S : SDE ℝ (ι × κ → ℝ) O ℕ (Mem ℝ (ι → κ → ℝ) (Ω × ℕ))}
    (hsrc : S.sources = [(idT, dtSource), (idW, trueNoise w0 rtol corr (seeded G))])
    (hsde : ∀ t x, S.sde t x = .ok (some [(idT, a t x), (idW, b t x)])) (hinit : S.init t0 = .ok x0)
    {T L : ℝ} (hT : 0 ≤ T) (hL : LipschitzCoef a b t0 T L) :
    ∃ K ≥ 0, ∀ {fuel1 fuel2 : ℕ} {steps1 steps2 : Steps ℝ} {i1 i2 : ℤ} {tl1 tl2 : TArr ℝ}
      {grid1 grid2 : List ℝ} {δ : ℝ}, 0 ≤ δ →
      Along fuel1 steps1 i1 tl1 grid1 t0 → (∀ u ∈ tl1.data, u ∈ D) → Mesh grid1 δ →
      Along fuel2 steps2 i2 tl2 grid2 t0 → (∀ u ∈ tl2.data, u ∈ D) → Mesh grid2 δ →
      (∀ s ∈ w0 :: (grid1 ++ grid2), ∀ u ∈ w0 :: (grid1 ++ grid2), |s - u| ≤ rtol * |u| → s = u) →
      ∃ (X1 X2 : ℝ → Ω → ι × κ → ℝ) (m1 m2 : Ω → Mem ℝ (ι → κ → ℝ) (Ω × ℕ)),
        (∀ ω, S.call fuel1 steps1 i1 tl1 (Mem.new w0 z0 (ω, 0)) = .ok (tl1.data.map fun t => some
          (if S.log then S.expO (S.letX t (X1 t ω)) else S.letX t (X1 t ω)), m1 ω)) ∧
        (∀ ω, S.call fuel2 steps2 i2 tl2 (m1 ω) = .ok (tl2.data.map fun t => some
          (if S.log then S.expO (S.letX t (X2 t ω)) else S.letX t (X2 t ω)), m2 ω)) ∧
        ∀ t ∈ tl1.data, t ∈ tl2.data → t0 ≤ t → t ≤ t0 + T →
          (∀ c, MemLp (fun ω => X1 t ω c) 2 P) ∧ (∀ c, MemLp (fun ω => X2 t ω c) 2 P) ∧
          meanSq P (fun ω c => X1 t ω c - X2 t ω c) ≤ K * δ := by
  obtain ⟨K, hK, h⟩ := C83_strong hsrc hsde hinit hT hL
  refine ⟨K, hK, ?_⟩
  intro fuel1 fuel2 steps1 steps2 i1 i2 tl1 tl2 grid1 grid2 δ hδ ha1 hD1 hm1 ha2 hD2 hm2 hsep
  have g1 := grid_mem ha1 hC.conn hD1
  have g2 := grid_mem ha2 hC.conn hD2
  obtain ⟨W, m1, m2, hW, c1, c2⟩ := shared_wiener (z0 := z0) hC hG hJ hr hw0 ha1.isGrid.1 ha2.isGrid.1
    (along_mem ha1).2.1 (along_mem ha2).2.1 g1 g2 hsep
  have hDr := drives_of_wiener hW hw (t1 := t0) (by
    intro s hs t ht k
    have mem : ∀ u ∈ w0 :: (grid1 ++ grid2), u ∈ D := by
      intro u hu
      rcases List.mem_cons.1 hu with rfl | hu
      · exact hw0
      · exact (List.mem_append.1 hu).elim (g1 u) (g2 u)
    have hs' := mem s hs
    have ht' := mem t ht
    rw [← Matrix.sub_apply, hC.mid s hs' t ht', Matrix.smul_apply, hone _ (hC.mem hs' ht'), smul_eq_mul,
      mul_one])
  obtain ⟨X1, X2, e1, e2, e3⟩ := h hDr hδ ha1 (fun u hu => by simp [hu]) hm1 ha2 (fun u hu => by simp [hu]) hm2
    c1 c2
  exact ⟨X1, X2, m1, m2, e1, e2, e3⟩

end

/-! ### Examples -/

/-- The equation `dx = mu*x*dt + sigma*x*dw`. -/
theorem exLipschitz {ι : Type} [Fintype ι] (mu sigma t0 T : ℝ) :
    LipschitzCoef (fun _ x (i : ι) => mu * x i) (fun _ x i => sigma * x i) t0 T (mu ^ 2 + sigma ^ 2) := by
  intro t _ u _ x y
  have e : ∑ i : ι, ((mu * x i - mu * y i) ^ 2 + (sigma * x i - sigma * y i) ^ 2) =
      (mu ^ 2 + sigma ^ 2) * ∑ i, (x i - y i) ^ 2 := by
    rw [Finset.mul_sum]
    exact Finset.sum_congr rfl fun i _ => by ring
  rw [e]
  have : 0 ≤ (1 + ∑ i, x i ^ 2) * |t - u| :=
    mul_nonneg (add_nonneg zero_le_one (Finset.sum_nonneg fun i _ => sq_nonneg _)) (abs_nonneg _)
  exact mul_le_mul_of_nonneg_left (by linarith) (by positivity)

/-- A mean reverting equation with parameters that depend on time, `dx = (1 + t - x)*dt + t*dw`. -/
theorem exLipschitzT {ι : Type} [Fintype ι] : ∃ L,
    LipschitzCoef (fun t x (i : ι) => 1 + t - x i) (fun t _ _ => t) 0 1 L := by
  refine ⟨2 + 3 * Fintype.card ι, fun t ht u hu x y => ?_⟩
  have htu : (t - u) ^ 2 ≤ |t - u| := by
    have h1 : |t - u| ≤ 1 := by
      rw [abs_le]
      constructor <;> linarith [ht.1, ht.2, hu.1, hu.2]
    rw [← sq_abs]
    nlinarith [abs_nonneg (t - u)]
  have h : ∀ i : ι, (1 + t - x i - (1 + u - y i)) ^ 2 + (t - u) ^ 2 ≤ 2 * (x i - y i) ^ 2 + 3 * |t - u| := by
    intro i
    nlinarith [sq_nonneg ((t - u) + (x i - y i))]
  have hs := Finset.sum_le_sum fun i (_ : i ∈ Finset.univ) => h i
  have hr : ∑ i : ι, (2 * (x i - y i) ^ 2 + 3 * |t - u|) =
      2 * ∑ i, (x i - y i) ^ 2 + Fintype.card ι * (3 * |t - u|) := by
    rw [Finset.sum_add_distrib, ← Finset.mul_sum, Finset.sum_const, Finset.card_univ, nsmul_eq_mul]
  rw [hr] at hs
  have hx : 0 ≤ ∑ i, (x i - y i) ^ 2 := Finset.sum_nonneg fun i _ => sq_nonneg _
  have hx2 : 0 ≤ ∑ i, x i ^ 2 := Finset.sum_nonneg fun i _ => sq_nonneg _
  have hc : (0 : ℝ) ≤ Fintype.card ι := Nat.cast_nonneg _
  have ha := abs_nonneg (t - u)
  refine hs.trans ?_
  have e : (2 + 3 * (Fintype.card ι : ℝ)) * (∑ i, (x i - y i) ^ 2 + (1 + ∑ i, x i ^ 2) * |t - u|) =
      (2 * ∑ i, (x i - y i) ^ 2 + Fintype.card ι * (3 * |t - u|)) +
      (3 * Fintype.card ι * ∑ i, (x i - y i) ^ 2 + 2 * |t - u| +
        (2 + 3 * Fintype.card ι) * ((∑ i, x i ^ 2) * |t - u|)) := by ring
  rw [e]
  exact le_add_of_nonneg_right (by positivity)

/-- `dx = x/20*dt + x/5*dw`, from the value 10. -/
noncomputable def exGbm {ι σ : Type} (dw : Src ℝ ι σ) : SDE ℝ (ι → ℝ) (ι → ℝ) ℕ σ where
  sources := [(idT, dtSource), (idW, dw)]
  sde _ x := .ok (some [(idT, fun i => 1 / 20 * x i), (idW, fun i => 1 / 5 * x i)])
  init _ := .ok fun _ => 10
  letX _ x := x
  log := false
  logX := id
  expO := id

theorem exAlongS : Along 10 .none 0 ⟨[3], [1, 3 / 2, 2]⟩ [1, 3 / 2, (2 : ℝ)] 1 where
  valid := ⟨rfl, by norm_num⟩
  start := ⟨0, ⟨by simp, .inl rfl⟩, rfl⟩
  nsteps := by rintro n ⟨⟩
  isGrid := by
    refine ⟨by norm_num, ?_⟩
    intro t
    simp [Requested]
  hfuel := by simp

/-- Two simulations of `dx = x/20*dt + x/5*dw`, with correlated components and a `true_wiener_source`: first with one
step, then with two. -/
example : ∃ (Ω : Type) (_ : MeasurableSpace Ω) (P : Measure Ω)
    (G : ℕ → Matrix (Fin 2) (Fin 2) ℝ → ℝ → ℝ → Ω → Fin 3 → Fin 2 → ℝ) (K : ℝ)
    (X1 X2 : ℝ → Ω → Fin 3 × Fin 2 → ℝ) (m1 m2 : Ω → Mem ℝ (Fin 3 → Fin 2 → ℝ) (Ω × ℕ)),
    let S := exGbm (trueNoise 0 0 (.const !![1, 1 / 2; 1 / 2, 1]) (seeded G))
    (∀ ω, S.call 10 .none 0 ⟨[2], [1, 2]⟩ (Mem.new 0 0 (ω, 0)) = .ok ([some (X1 1 ω), some (X1 2 ω)], m1 ω)) ∧
    (∀ ω, S.call 10 .none 0 ⟨[3], [1, 3 / 2, 2]⟩ (m1 ω) =
      .ok ([some (X2 1 ω), some (X2 (3 / 2) ω), some (X2 2 ω)], m2 ω)) ∧
    meanSq P (fun ω c => X1 2 ω c - X2 2 ω c) ≤ K := by
  obtain ⟨Ω, mΩ, P, N0, N, hP, -, -, hN, -, hJ⟩ := exists_rng
  have hN' : Normals P (fun n c ω (i : Fin 3) => N 2 n c ω [i.1]) :=
    ⟨fun n c i => (hN 2).l2 n c _, fun n c i => (hN 2).mean n c _, fun n c i j hc => by
      rw [(hN 2).cov n c _ _ hc]
      simp [Fin.ext_iff], fun n c i m c' j h => (hN 2).uncorr n c _ m c' _ h⟩
  have hJ' : JointlyGaussian P (fun n c ω (i : Fin 3) => N 2 n c ω [i.1]) :=
    gauss_of_affSpan (hJ 2) fun p => affSpan_draw
      (fun (p : ℕ × Matrix (Fin 2) (Fin 2) ℝ × List ℕ × Fin 2) ω => N 2 p.1 p.2.1 ω p.2.2.1 p.2.2.2)
      (p.1, p.2.1, [p.2.2.1.1], p.2.2.2)
  refine ⟨Ω, mΩ, P, fun n c _ dt ω i k => √|dt| * N 2 n c ω [i.1] k, ?_⟩
  obtain ⟨K, hK, h⟩ := C83_true_wiener (t0 := 1) (T := 1) (D := Set.univ) (w0 := 0) (rtol := 0)
    (corr := .const !![1, 1 / 2; 1 / 2, 1]) (corrOk_const exPosSemidef)
    (by intro u _ k; fin_cases k <;> simp [corrAt]) (draws_of_normals hN') (gaussianDraws_of_jointly hJ') le_rfl trivial
    zero_le_one 0 (S := exGbm _) rfl (fun _ _ => rfl) rfl zero_le_one (exLipschitz (1 / 20) (1 / 5) 1 1)
  obtain ⟨X1, X2, m1, m2, e1, e2, e3⟩ := h (δ := 1) zero_le_one exAlongR (fun _ _ => trivial)
    (by intro a ha b hb _ _; simp at ha hb; rcases ha with rfl | rfl <;> rcases hb with rfl | rfl <;> norm_num)
    exAlongS (fun _ _ => trivial)
    (by
      intro a ha b hb _ _; simp at ha hb
      rcases ha with rfl | rfl | rfl <;> rcases hb with rfl | rfl | rfl <;> norm_num)
    (by intro s _ u _ h; simpa [sub_eq_zero] using h)
  exact ⟨K, X1, X2, m1, m2, e1, e2, by
    have := (e3 2 (by simp) (by simp) (by norm_num) (by norm_num)).2.2
    rwa [mul_one] at this⟩

end Sdepy
