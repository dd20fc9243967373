import Verif.Lemmas.Sharp
import Verif.Props.StrongSolution

/-!
# Property C101: the exact error of simulations with multiplicative noise
-/

set_option linter.unusedSectionVars false

open MeasureTheory ProbabilityTheory Filter Topology

namespace Sdepy

open Spec

section
variable {Ω ι σ O : Type} [Fintype ι] [MeasurableSpace Ω] {P : Measure Ω} [IsProbabilityMeasure P]
  {S : SDE ℝ (ι → ℝ) O ℕ σ} {dw : Src ℝ ι σ} {c t0 T : ℝ} {x0 : ι → ℝ} {W Y : ℝ → Ω → ι → ℝ}
  {fuel : ℕ} {steps : Steps ℝ} {i0 : ℤ} {tl : TArr ℝ} {grid : List ℝ} {s s' : Ω → σ}

/-- **C101** (error). A simulation of `dx = c*x*dw` yields values `X` such that, at any time `t` of the timeline from
`t0` to `t0 + T`, the mean square of the difference between the simulated value and the exact solution is *equal* to
the square of the initial value times `exp(c²*(t - t0))` minus the product of `1 + c²*dt` for all steps `dt`
from `t0` to `t`. -/
theorem C101_error (hsrc : S.sources = [(idT, dtSource), (idW, dw)])
    (hsde : ∀ t x, S.sde t x = .ok (some [(idT, fun _ => 0), (idW, fun i => c * x i)])) (hinit : S.init t0 = .ok x0)
    (hT : 0 ≤ T) (hW : Drives P t0 (Set.Icc t0 (t0 + T)) W)
    (hY : IsSolution P (fun _ _ _ => 0) (fun _ x i => c * x i) t0 T (if S.log then S.logX x0 else x0) W Y)
    (ha : Along fuel steps i0 tl grid t0)
    (hc : ∀ ω, cumulated dw t0 grid (s ω) = .ok (grid.map fun u => (u, fun i => W u ω i - W t0 ω i), s' ω)) :
    ∃ X : ℝ → Ω → ι → ℝ,
      (∀ ω, S.call fuel steps i0 tl (s ω) = .ok (tl.data.map fun t => some
        (if S.log then S.expO (S.letX t (X t ω)) else S.letX t (X t ω)), s' ω)) ∧
      ∀ t ∈ tl.data, t0 ≤ t → t ≤ t0 + T → ∀ i,
        ∫ ω, (X t ω i - Y t ω i) ^ 2 ∂P = (if S.log then S.logX x0 else x0) i ^ 2 *
          (Real.exp (c ^ 2 * (t - t0)) - growth (c ^ 2) (upTo grid t0 t)) := by
  obtain ⟨X, e, f⟩ := C83_scheme hsrc hsde hinit ha hc
  exact ⟨X, e, fun t ht h0 h1 i => growth_solution hT hW hY ha.isGrid.1 (along_mem ha).2.1 f
    ((along_mem ha).2.2 t ht) h0 h1 i⟩

/-- The bounds of the exact error, in terms of the number of steps and of the longest step. -/
theorem growth_bounds {t : ℝ} (hg : grid.Pairwise (· < ·)) (h0 : t0 ∈ grid) (ht : t ∈ grid) (h : t0 ≤ t) :
    (∀ n : ℕ, 0 < n → (upTo grid t0 t).length = n + 1 →
      (c ^ 2 * (t - t0)) ^ 2 / (2 * n) ≤ Real.exp (c ^ 2 * (t - t0)) - growth (c ^ 2) (upTo grid t0 t)) ∧
    ∀ δ, 0 ≤ δ → Mesh grid δ → Real.exp (c ^ 2 * (t - t0)) - growth (c ^ 2) (upTo grid t0 t) ≤
      Real.exp (c ^ 2 * (t - t0)) * (c ^ 2 * (t - t0)) * (c ^ 2 * δ) := by
  have hg' : (upTo grid t0 t).Pairwise (· < ·) := hg.filter _
  obtain ⟨l, e1, e2⟩ := sorted_ends hg' (mem_upTo.2 ⟨h0, le_rfl, h⟩) (mem_upTo.2 ⟨ht, h, le_rfl⟩)
    fun u hu => (mem_upTo.1 hu).2
  rw [e1] at hg' ⊢
  have hy : 0 ≤ c ^ 2 * (t - t0) := mul_nonneg (sq_nonneg c) (by linarith)
  constructor
  · intro n hn hl
    have hl' : l.length = n := by simpa using hl
    have hn' : (0 : ℝ) < n := by exact_mod_cast hn
    have := growth_gap (sq_nonneg c) (c ^ 2 * (t - t0) / n) t0 hg'
    rw [e2, hl'] at this
    have e : c ^ 2 * (t - t0) / n * (c ^ 2 * (t - t0)) - n * (c ^ 2 * (t - t0) / n) ^ 2 / 2 =
        (c ^ 2 * (t - t0)) ^ 2 / (2 * n) := by
      field_simp
      ring
    rw [e] at this
    linarith
  · intro δ hδ hm
    have hm' : Mesh (t0 :: l) δ := by
      rw [← e1]
      intro u hu v hv huv hn
      rw [mem_upTo] at hu hv
      exact hm u hu.1 v hv.1 huv fun w hw hww => hn w (mem_upTo.2 ⟨hw, by linarith [hu.2.1, hww.1],
        by linarith [hv.2.2, hww.2]⟩) hww
    set y := c ^ 2 * (t - t0) with hydef
    have key : Real.exp (y * (1 - c ^ 2 * δ)) ≤ growth (c ^ 2) (t0 :: l) := by
      by_cases h1 : c ^ 2 * δ ≤ 1
      · have := growth_lower (sq_nonneg c) h1 t0 hg' hm'
        rw [e2] at this
        rwa [hydef, show c ^ 2 * (t - t0) * (1 - c ^ 2 * δ) = c ^ 2 * (1 - c ^ 2 * δ) * (t - t0) by ring]
      · refine le_trans ?_ (growth_ge_one (sq_nonneg c) hg')
        rw [Real.exp_le_one_iff]
        exact mul_nonpos_of_nonneg_of_nonpos hy (by linarith)
    have h2 : Real.exp (y * (1 - c ^ 2 * δ)) = Real.exp y * Real.exp (-(y * (c ^ 2 * δ))) := by
      rw [← Real.exp_add]
      congr 1
      ring
    have h3 := Real.add_one_le_exp (-(y * (c ^ 2 * δ)))
    have h4 := mul_le_mul_of_nonneg_left h3 (Real.exp_pos y).le
    rw [← h2] at h4
    nlinarith

/-- **C101** (bounds). The mean square of the error of a simulation of `dx = c*x*dw` with `n` steps from `t0` to `t`,
however steps are placed, is at least the square of the initial value times `(c²*(t - t0))²/(2*n)`; and it is at most
the square of the initial value times `exp(c²*(t - t0))*c²*(t - t0)*c²*δ`, with `δ` the longest step. -/
theorem C101_bounds (hsrc : S.sources = [(idT, dtSource), (idW, dw)])
    (hsde : ∀ t x, S.sde t x = .ok (some [(idT, fun _ => 0), (idW, fun i => c * x i)])) (hinit : S.init t0 = .ok x0)
    (hT : 0 ≤ T) (hW : Drives P t0 (Set.Icc t0 (t0 + T)) W)
    (hY : IsSolution P (fun _ _ _ => 0) (fun _ x i => c * x i) t0 T (if S.log then S.logX x0 else x0) W Y)
    (ha : Along fuel steps i0 tl grid t0)
    (hc : ∀ ω, cumulated dw t0 grid (s ω) = .ok (grid.map fun u => (u, fun i => W u ω i - W t0 ω i), s' ω)) :
    ∃ X : ℝ → Ω → ι → ℝ,
      (∀ ω, S.call fuel steps i0 tl (s ω) = .ok (tl.data.map fun t => some
        (if S.log then S.expO (S.letX t (X t ω)) else S.letX t (X t ω)), s' ω)) ∧
      ∀ t ∈ tl.data, t0 ≤ t → t ≤ t0 + T → ∀ i,
        (∀ n : ℕ, 0 < n → (upTo grid t0 t).length = n + 1 →
          (if S.log then S.logX x0 else x0) i ^ 2 * ((c ^ 2 * (t - t0)) ^ 2 / (2 * n)) ≤
            ∫ ω, (X t ω i - Y t ω i) ^ 2 ∂P) ∧
        ∀ δ, 0 ≤ δ → Mesh grid δ → ∫ ω, (X t ω i - Y t ω i) ^ 2 ∂P ≤
          (if S.log then S.logX x0 else x0) i ^ 2 *
            (Real.exp (c ^ 2 * (t - t0)) * (c ^ 2 * (t - t0)) * (c ^ 2 * δ)) := by
  obtain ⟨X, e, f⟩ := C101_error hsrc hsde hinit hT hW hY ha hc
  refine ⟨X, e, fun t ht h0 h1 i => ?_⟩
  rw [f t ht h0 h1 i]
  obtain ⟨b1, b2⟩ := growth_bounds (c := c) ha.isGrid.1 (along_mem ha).2.1 ((along_mem ha).2.2 t ht) h0
  exact ⟨fun n hn hl => mul_le_mul_of_nonneg_left (b1 n hn hl) (sq_nonneg _),
    fun δ hδ hm => mul_le_mul_of_nonneg_left (b2 δ hδ hm) (sq_nonneg _)⟩

end

section
variable {ι σ O : Type} [Fintype ι] {S : SDE ℝ (ι → ℝ) O ℕ σ} {dw : Src ℝ ι σ} {c t0 : ℝ} {x0 : ι → ℝ}

/-- **C101** (order). No order of convergence better than one half (one, for mean squares) holds: given any constant
`K`, any exponent `p > 1` and a time `t` after `t0`, all simulations of `dx = c*x*dw` with enough steps from `t0` to
`t`, however placed, have a mean square error larger than `K*((t - t0)/n)^p`, with `n` the number of
steps. -/
theorem C101_order (hsrc : S.sources = [(idT, dtSource), (idW, dw)])
    (hsde : ∀ t x, S.sde t x = .ok (some [(idT, fun _ => 0), (idW, fun i => c * x i)])) (hinit : S.init t0 = .ok x0)
    (hcz : c ≠ 0) {i : ι} (hx : (if S.log then S.logX x0 else x0) i ≠ 0) {t : ℝ} (h0 : t0 < t) (K : ℝ) {p : ℝ}
    (hp : 1 < p) :
    ∃ N : ℕ, ∀ n ≥ N, ∀ {Ω : Type} [MeasurableSpace Ω] {P : Measure Ω} [IsProbabilityMeasure P]
      {W Y : ℝ → Ω → ι → ℝ} {T : ℝ} {fuel : ℕ} {steps : Steps ℝ} {i0 : ℤ} {tl : TArr ℝ} {grid : List ℝ}
      {s s' : Ω → σ}, t ∈ tl.data → t ≤ t0 + T → Drives P t0 (Set.Icc t0 (t0 + T)) W →
      IsSolution P (fun _ _ _ => 0) (fun _ x i => c * x i) t0 T (if S.log then S.logX x0 else x0) W Y →
      Along fuel steps i0 tl grid t0 → (upTo grid t0 t).length = n + 1 →
      (∀ ω, cumulated dw t0 grid (s ω) = .ok (grid.map fun u => (u, fun i => W u ω i - W t0 ω i), s' ω)) →
      ∃ X : ℝ → Ω → ι → ℝ,
        (∀ ω, S.call fuel steps i0 tl (s ω) = .ok (tl.data.map fun t => some
          (if S.log then S.expO (S.letX t (X t ω)) else S.letX t (X t ω)), s' ω)) ∧
        K * ((t - t0) / n) ^ p < ∫ ω, (X t ω i - Y t ω i) ^ 2 ∂P := by
  set z := (if S.log then S.logX x0 else x0) i
  have hτ : 0 < t - t0 := by linarith
  have hC : 0 < z ^ 2 * ((c ^ 2 * (t - t0)) ^ 2 / 2) := by positivity
  have hlim : Tendsto (fun n : ℕ => K * (t - t0) ^ p * (n : ℝ) ^ (-(p - 1))) atTop
      (𝓝 (K * (t - t0) ^ p * 0)) :=
    ((tendsto_rpow_neg_atTop (by linarith : 0 < p - 1)).comp tendsto_natCast_atTop_atTop).const_mul _
  rw [mul_zero] at hlim
  obtain ⟨N, hN⟩ := eventually_atTop.1 (hlim.eventually (gt_mem_nhds hC))
  refine ⟨max N 1, ?_⟩
  intro n hn Ω _ P _ W Y T fuel steps i0 tl grid s s' ht hT hW hY ha hl hc
  have hn1 : 0 < n := lt_of_lt_of_le one_pos ((le_max_right _ _).trans hn)
  have hn' : (0 : ℝ) < n := by exact_mod_cast hn1
  obtain ⟨X, e, f⟩ := C101_bounds hsrc hsde hinit (by linarith) hW hY ha hc
  refine ⟨X, e, lt_of_lt_of_le ?_ ((f t ht h0.le hT i).1 n hn1 hl)⟩
  have h1 := hN n ((le_max_left _ _).trans hn)
  rw [Real.div_rpow hτ.le hn'.le]
  rw [neg_sub, Real.rpow_sub hn', Real.rpow_one] at h1
  have h2 := div_lt_div_of_pos_right h1 hn'
  calc K * ((t - t0) ^ p / (n : ℝ) ^ p) = K * (t - t0) ^ p * (n / (n : ℝ) ^ p) / n := by
        field_simp
    _ < z ^ 2 * ((c ^ 2 * (t - t0)) ^ 2 / 2) / n := h2
    _ = z ^ 2 * ((c ^ 2 * (t - t0)) ^ 2 / (2 * n)) := by field_simp

end

/-! ### Examples -/

/-- `dx = x/5*dw`, from the value 10. -/
noncomputable def exMult {ι σ : Type} (dw : Src ℝ ι σ) : SDE ℝ (ι → ℝ) (ι → ℝ) ℕ σ where
  sources := [(idT, dtSource), (idW, dw)]
  sde _ x := .ok (some [(idT, fun _ => 0), (idW, fun i => 1 / 5 * x i)])
  init _ := .ok fun _ => 10
  letX _ x := x
  log := false
  logX := id
  expO := id

theorem exUpTo : upTo [1, 3 / 2, (2 : ℝ)] 1 2 = [1, 3 / 2, 2] :=
  upTo_all (by intro u hu; simp at hu; rcases hu with rfl | rfl | rfl <;> norm_num)

/-- The solution of `dx = x/5*dw`, from the value 10 at time 1, compared with a simulation with two steps of
one half: the mean square of the error at time 2 is `100*(exp(1/25) - (51/50)²)`, at least `1/25`. -/
example : ∃ (Ω : Type) (_ : MeasurableSpace Ω) (P : Measure Ω) (W X Y : ℝ → Ω → Fin 3 × Fin 2 → ℝ),
    IsSolution P (fun _ _ _ => 0) (fun _ x c => 1 / 5 * x c) 1 1 (fun _ => 10) W Y ∧
    (∀ ω, (exMult (pathNoise W)).call 10 .none 0 ⟨[3], [1, 3 / 2, 2]⟩ ω =
      .ok ([some (X 1 ω), some (X (3 / 2) ω), some (X 2 ω)], ω)) ∧
    ∀ i, ∫ ω, (X 2 ω i - Y 2 ω i) ^ 2 ∂P = 100 * (Real.exp (1 / 25) - (51 / 50) ^ 2) ∧
      1 / 25 ≤ ∫ ω, (X 2 ω i - Y 2 ω i) ^ 2 ∂P := by
  obtain ⟨Ω, mΩ, P, W, hP, hW⟩ := exists_wiener (ι := Fin 3) exPosSemidef 1 0
  have hD := drives_of_wiener (t1 := 1) (hW.mono (D' := Set.Icc 1 (1 + 1)) (Set.subset_univ _)) le_rfl (by
    intro s _ t _ k
    rw [Matrix.smul_apply, Matrix.smul_apply, smul_eq_mul, smul_eq_mul, ← sub_mul]
    fin_cases k <;> simp)
  have hL := exLipschitz (ι := Fin 3 × Fin 2) 0 (1 / 5) 1 1
  simp only [zero_mul] at hL
  obtain ⟨K, hK, h⟩ := exists_solution zero_le_one hL fun _ => 10
  obtain ⟨Y, hY, -⟩ := h hD
  obtain ⟨X, e1, e2⟩ := C101_error (dw := pathNoise fun u ω (c : Fin 3 × Fin 2) => W u ω c.1 c.2)
    (S := exMult _) (c := 1 / 5) rfl (fun _ _ => rfl) rfl zero_le_one hD hY exAlongS
    (fun ω => cumulated_pathNoise _ (by norm_num) (by simp) ω)
  have e3 : ∀ i, ∫ ω, (X 2 ω i - Y 2 ω i) ^ 2 ∂P = 100 * (Real.exp (1 / 25) - (51 / 50) ^ 2) := by
    intro i
    rw [e2 2 (by simp) (by norm_num) (by norm_num) i, exUpTo]
    change (10 : ℝ) ^ 2 * (Real.exp ((1 / 5) ^ 2 * (2 - 1)) - growth ((1 / 5) ^ 2) [1, 3 / 2, 2]) = _
    simp only [growth]
    norm_num
  obtain ⟨b1, -⟩ := growth_bounds (c := 1 / 5) (t0 := 1) (t := 2) exAlongS.isGrid.1 (by simp) (by simp) (by norm_num)
  have b2 := b1 2 (by norm_num) (by rw [exUpTo]; simp)
  rw [exUpTo] at b2
  refine ⟨Ω, mΩ, P, _, X, Y, hY, e1, fun i => ⟨e3 i, ?_⟩⟩
  rw [e3 i]
  simp only [growth] at b2
  norm_num at b2 ⊢
  linarith

end Sdepy
