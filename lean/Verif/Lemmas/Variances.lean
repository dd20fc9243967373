import Verif.Spec.Variances
import Verif.Lemmas.Means

/-!
# Variances of simulated values
-/

set_option linter.unusedSectionVars false

open MeasureTheory ProbabilityTheory

namespace Sdepy

open Spec

/-! ### Euler steps with small errors -/

section
variable {ι : Type} [Fintype ι] {a : ℝ → (ι → ℝ) → ι → ℝ} {t0 T L : ℝ} {x0 : ι → ℝ} {y : ℝ → ι → ℝ}

theorem error_perturbed {Q R : ℝ} (hQ : 0 ≤ Q) (hR : 0 ≤ R) (h : LipschitzField a t0 T L) (hT : 0 < T)
    (hy : y t0 = x0)
    (hloc : ∀ s ∈ Set.Icc (t0 - T) (t0 + T), ∀ t ∈ Set.Icc (t0 - T) (t0 + T),
      ‖y t - y s - (t - s) • a s (y s)‖ ≤ Q * (t - s) ^ 2) {grid : List ℝ} (hg : grid.Pairwise (· < ·)) (h0 : t0 ∈ grid)
    {δ : ℝ} (hδ : 0 ≤ δ) (hm : Mesh grid δ) {X : ℝ → ι → ℝ} (hX0 : X t0 = x0)
    (hX : ∀ s t, StepOf grid t0 s t → t0 ≤ s → s < t → t ≤ t0 + T →
      ‖X t - X s - (t - s) • a s (X s)‖ ≤ R * (t - s) ^ 2) :
    ∀ t ∈ grid, t0 ≤ t → t ≤ t0 + T → ‖X t - y t‖ ≤ (Q + R) * T * Real.exp (L * T) * δ := by
  have hL := h.nonneg hT
  have hQR : 0 ≤ Q + R := add_nonneg hQ hR
  have key : ∀ u ∈ grid, t0 ≤ u → u ≤ t0 + T →
      ‖X u - y u‖ ≤ (Q + R) * (u - t0) * Real.exp (L * (u - t0)) * δ := by
    refine grid_induction hg h0 (fun _ => by rw [hX0, hy]; simp) ?_
    intro s t hst hs hlt ih ht
    have hsI : s ∈ Set.Icc (t0 - T) (t0 + T) := ⟨by linarith, by linarith⟩
    have htI : t ∈ Set.Icc (t0 - T) (t0 + T) := ⟨by linarith, by linarith⟩
    have e := ih (by linarith)
    have hstep : t - s ≤ δ := by
      refine hm s hst.1 t hst.2.1 hlt ?_
      rcases hst.2.2 with ⟨-, -, h⟩ | ⟨-, h, -⟩
      · exact h
      · linarith
    have e1 : X t - y t = (X s - y s) + (t - s) • (a s (X s) - a s (y s)) - (y t - y s - (t - s) • a s (y s)) +
        (X t - X s - (t - s) • a s (X s)) := by
      rw [smul_sub]
      abel
    have e2 : ‖a s (X s) - a s (y s)‖ ≤ L * ‖X s - y s‖ := by
      have := h s hsI s hsI (X s) (y s)
      rwa [sub_self, abs_zero, mul_zero, add_zero] at this
    have e3 := hloc s hsI t htI
    have e5 := hX s t hst hs hlt ht
    have e4 : ‖X t - y t‖ ≤ ‖X s - y s‖ + (t - s) * (L * ‖X s - y s‖) + Q * (t - s) ^ 2 + R * (t - s) ^ 2 := by
      rw [e1]
      refine (norm_add_le _ _).trans (add_le_add ((norm_sub_le _ _).trans
        (add_le_add ((norm_add_le _ _).trans (add_le_add le_rfl ?_)) e3)) e5)
      rw [norm_smul, Real.norm_eq_abs, abs_of_pos (by linarith)]
      exact mul_le_mul_of_nonneg_left e2 (by linarith)
    have hE : Real.exp (L * (t - t0)) = Real.exp (L * (s - t0)) * Real.exp (L * (t - s)) := by
      rw [← Real.exp_add]; congr 1; ring
    have h1 : 1 + L * (t - s) ≤ Real.exp (L * (t - s)) := by linarith [Real.add_one_le_exp (L * (t - s))]
    have h2 : 1 ≤ Real.exp (L * (t - t0)) := Real.one_le_exp (mul_nonneg hL (by linarith))
    have h3 : (1 + L * (t - s)) * ‖X s - y s‖ ≤
        Real.exp (L * (t - s)) * ((Q + R) * (s - t0) * Real.exp (L * (s - t0)) * δ) :=
      mul_le_mul h1 e (norm_nonneg _) (Real.exp_pos _).le
    have h4 : (Q + R) * (t - s) ^ 2 ≤ (Q + R) * (t - s) * Real.exp (L * (t - t0)) * δ := by
      have : (Q + R) * (t - s) ^ 2 ≤ (Q + R) * (t - s) * δ := by
        rw [sq, ← mul_assoc]
        exact mul_le_mul_of_nonneg_left hstep (mul_nonneg hQR (by linarith))
      refine this.trans ?_
      have : (Q + R) * (t - s) * 1 ≤ (Q + R) * (t - s) * Real.exp (L * (t - t0)) :=
        mul_le_mul_of_nonneg_left h2 (mul_nonneg hQR (by linarith))
      nlinarith
    have h5 : Real.exp (L * (t - s)) * ((Q + R) * (s - t0) * Real.exp (L * (s - t0)) * δ) =
        (Q + R) * (s - t0) * Real.exp (L * (t - t0)) * δ := by rw [hE]; ring
    rw [h5] at h3
    calc ‖X t - y t‖ ≤ (1 + L * (t - s)) * ‖X s - y s‖ + (Q + R) * (t - s) ^ 2 := by linarith
      _ ≤ (Q + R) * (s - t0) * Real.exp (L * (t - t0)) * δ + (Q + R) * (t - s) * Real.exp (L * (t - t0)) * δ :=
        add_le_add h3 h4
      _ = (Q + R) * (t - t0) * Real.exp (L * (t - t0)) * δ := by ring
  intro t ht h1 h2
  refine (key t ht h1 h2).trans (mul_le_mul_of_nonneg_right ?_ hδ)
  exact mul_le_mul (mul_le_mul_of_nonneg_left (by linarith) hQR)
    (Real.exp_le_exp.2 (mul_le_mul_of_nonneg_left (by linarith) hL)) (Real.exp_pos _).le (mul_nonneg hQR hT.le)

end

/-! ### Squares of sums of a variable and of noise -/

section
variable {Ω J : Type} [MeasurableSpace Ω] [Fintype J] {P : Measure Ω} [IsProbabilityMeasure P]

theorem integral_quadratic {X : Ω → ℝ} (hX : MemLp X 2 P) (c0 c1 c2 : ℝ) :
    ∫ ω, (c0 + c1 * X ω + c2 * X ω ^ 2) ∂P = c0 + c1 * ∫ ω, X ω ∂P + c2 * ∫ ω, X ω ^ 2 ∂P := by
  have l1 := (hX.integrable one_le_two).const_mul c1
  have l2 := hX.integrable_sq.const_mul c2
  have i1 : Integrable (fun ω => c0 + c1 * X ω) P := (integrable_const _).add l1
  rw [integral_add i1 l2, integral_add (integrable_const _) l1, integral_const_mul, integral_const_mul]
  simp

/-- The mean square of a variable plus noise, that is independent of the variable and of its own size, and has
uncorrelated components. -/
theorem square_step {A : Ω → ℝ} {B ξ : J → Ω → ℝ} {w : J → ℝ} (hA : MemLp A 2 P) (hB : ∀ j, MemLp (B j) 2 P)
    (hξ : ∀ j, MemLp (ξ j) 2 P) (hi : IndepFun (fun ω => (A ω, fun j => B j ω)) (fun ω j => ξ j ω) P)
    (h1 : ∀ j, ∫ ω, ξ j ω ∂P = 0) (h2 : ∀ j, ∫ ω, ξ j ω ^ 2 ∂P = w j)
    (h3 : ∀ j k, j ≠ k → ∫ ω, ξ j ω * ξ k ω ∂P = 0) :
    ∫ ω, (A ω + ∑ j, B j ω * ξ j ω) ^ 2 ∂P = ∫ ω, A ω ^ 2 ∂P + ∑ j, w j * ∫ ω, B j ω ^ 2 ∂P := by
  classical
  have iAB : ∀ j, Integrable (fun ω => A ω * B j ω) P := fun j => hA.integrable_mul (hB j)
  have iBB : ∀ j k, Integrable (fun ω => B j ω * B k ω) P := fun j k => (hB j).integrable_mul (hB k)
  have iξξ : ∀ j k, Integrable (fun ω => ξ j ω * ξ k ω) P := fun j k => (hξ j).integrable_mul (hξ k)
  have iξ : ∀ j, Integrable (ξ j) P := fun j => (hξ j).integrable one_le_two
  have in1 : ∀ j, IndepFun (fun ω => A ω * B j ω) (ξ j) P := fun j =>
    hi.comp (φ := fun x : ℝ × (J → ℝ) => x.1 * x.2 j) (ψ := fun z : J → ℝ => z j)
      (measurable_fst.mul ((measurable_pi_apply j).comp measurable_snd)) (measurable_pi_apply j)
  have in2 : ∀ j k, IndepFun (fun ω => B j ω * B k ω) (fun ω => ξ j ω * ξ k ω) P := fun j k =>
    hi.comp (φ := fun x : ℝ × (J → ℝ) => x.2 j * x.2 k) (ψ := fun z : J → ℝ => z j * z k)
      (((measurable_pi_apply j).comp measurable_snd).mul ((measurable_pi_apply k).comp measurable_snd))
      ((measurable_pi_apply j).mul (measurable_pi_apply k))
  have c1 : ∀ j, Integrable (fun ω => A ω * B j ω * ξ j ω) P := fun j => (in1 j).integrable_mul (iAB j) (iξ j)
  have c2 : ∀ j k, Integrable (fun ω => B j ω * B k ω * (ξ j ω * ξ k ω)) P :=
    fun j k => (in2 j k).integrable_mul (iBB j k) (iξξ j k)
  have v1 : ∀ j, ∫ ω, A ω * B j ω * ξ j ω ∂P = 0 := fun j => by
    rw [(in1 j).integral_fun_mul_eq_mul_integral (iAB j).aestronglyMeasurable (iξ j).aestronglyMeasurable, h1, mul_zero]
  have v2 : ∀ j k, ∫ ω, B j ω * B k ω * (ξ j ω * ξ k ω) ∂P = if j = k then w j * ∫ ω, B j ω ^ 2 ∂P else 0 := by
    intro j k
    rw [(in2 j k).integral_fun_mul_eq_mul_integral (iBB j k).aestronglyMeasurable (iξξ j k).aestronglyMeasurable]
    split_ifs with h
    · subst h
      simp only [← sq]
      rw [h2, mul_comm]
    · rw [h3 j k h, mul_zero]
  have e : ∀ ω, (A ω + ∑ j, B j ω * ξ j ω) ^ 2 = A ω ^ 2 + 2 * ∑ j, A ω * B j ω * ξ j ω +
      ∑ j, ∑ k, B j ω * B k ω * (ξ j ω * ξ k ω) := by
    intro ω
    have e1 : (∑ j, B j ω * ξ j ω) ^ 2 = ∑ j, ∑ k, B j ω * B k ω * (ξ j ω * ξ k ω) := by
      rw [sq, Finset.sum_mul_sum]
      exact Finset.sum_congr rfl fun j _ => Finset.sum_congr rfl fun k _ => by ring
    have e2 : ∑ j, A ω * B j ω * ξ j ω = A ω * ∑ j, B j ω * ξ j ω := by
      rw [Finset.mul_sum]
      exact Finset.sum_congr rfl fun j _ => by ring
    rw [← e1, e2]
    ring
  simp only [e]
  have i1 := hA.integrable_sq
  have i2 : Integrable (fun ω => 2 * ∑ j, A ω * B j ω * ξ j ω) P :=
    (integrable_finsetSum _ fun j _ => c1 j).const_mul 2
  have i3 : Integrable (fun ω => ∑ j, ∑ k, B j ω * B k ω * (ξ j ω * ξ k ω)) P :=
    integrable_finsetSum _ fun j _ => integrable_finsetSum _ fun k _ => c2 j k
  have i12 : Integrable (fun ω => A ω ^ 2 + 2 * ∑ j, A ω * B j ω * ξ j ω) P := i1.add i2
  rw [integral_add i12 i3, integral_add i1 i2, integral_const_mul, integral_finsetSum _ fun j _ => c1 j,
    integral_finsetSum _ fun j _ => integrable_finsetSum _ fun k _ => c2 j k]
  simp only [v1, Finset.sum_const_zero, mul_zero, add_zero]
  congr 1
  refine Finset.sum_congr rfl fun j _ => ?_
  rw [integral_finsetSum _ fun k _ => c2 j k]
  simp only [v2]
  rw [Finset.sum_ite_eq]
  simp

end

section
variable {Ω ι J : Type} [MeasurableSpace Ω] [Fintype ι] [Fintype J] [Nonempty J] {P : Measure Ω}
  [IsProbabilityMeasure P] {a : ℝ → (ι → ℝ) → ι → ℝ} {b : J → ℝ → (ι → ℝ) → ι → ℝ} {t0 T L M : ℝ} {x0 : ι → ℝ}
  {m v : J → ℝ} {Z : ℝ → Ω → J × ι → ℝ} {D : Set ℝ} {X : ℝ → Ω → ι → ℝ} {grid : List ℝ} {p q r n w : ℝ → ι → ℝ}

/-- Simulated values depend on the noise so far, and their mean squares are bounded, whatever the grid. -/
theorem sums_moments (hT : 0 ≤ T) (hL : LipschitzCoefs a b t0 T L) (hv : ∀ j, 0 < v j) (m : J → ℝ) (x0 : ι → ℝ) :
    ∃ R ≥ 0, ∀ {Ω : Type} [MeasurableSpace Ω] {P : Measure Ω} [IsProbabilityMeasure P] {Z : ℝ → Ω → J × ι → ℝ}
      {D : Set ℝ} {X : ℝ → Ω → ι → ℝ} {grid : List ℝ}, Noises P t0 D m v Z → grid.Pairwise (· < ·) → t0 ∈ grid →
      (∀ u ∈ grid, u ∈ D) → AreSums a b t0 x0 grid Z X X → ∀ u ∈ grid, u ∈ Set.Icc t0 (t0 + T) →
        KnownAt D Z u (X u) ∧ (∀ i, MemLp (fun ω => X u ω i) 2 P) ∧
        (∀ j i, MemLp (fun ω => b j u (X u ω) i) 2 P) ∧ ∀ i, ∫ ω, X u ω i ^ 2 ∂P ≤ R := by
  obtain ⟨L', hL'⟩ := split_lipschitz (m := m) (fun j => (hv j).le) hL
  obtain ⟨C, hC0, hC⟩ := hL'.abs.growth hT (abs_nonneg L')
  refine ⟨Fintype.card J * (Real.exp ((1 + (1 + T) * C) * T) * (1 + ∑ c : J × ι, share (J := J) x0 c ^ 2)),
    mul_nonneg (Nat.cast_nonneg _) (mul_nonneg (Real.exp_pos _).le
      (add_nonneg zero_le_one (Finset.sum_nonneg fun _ _ => sq_nonneg _))), ?_⟩
  intro Ω _ P _ Z D X grid hZ hg h0 hD hX u hu hI
  obtain ⟨X', hX', e⟩ := exists_split_scheme (m := m) hv hg h0 hX
  obtain ⟨hk, hl, hb⟩ := scheme_moments hT hC0 (fun t ht => hL'.meas ht) hC (drives_standardised hv hZ) hg h0 hD hX' u hu
    hI.1 hI.2
  obtain ⟨-, lb, -⟩ := coef_memLp (P := P) (hL'.meas hI) (hC u hI) hl
  have eX := e u hu hI.1
  refine ⟨?_, fun i => ?_, fun j i => ?_, fun i => ?_⟩
  · rw [eX]
    exact ((knownAt_standardised hv).1 hk).comp measurable_total
  · rw [eX]
    exact total_memLp hl i
  · have h1 := (lb (j, i)).const_mul (√(v j))⁻¹
    have h2 : (fun ω => b j u (X u ω) i) = fun ω => (√(v j))⁻¹ * splitVol b v u (X' u ω) (j, i) := by
      funext ω
      have : √(v j) ≠ 0 := (Real.sqrt_pos.2 (hv j)).ne'
      rw [eX]
      simp only [splitVol]
      field_simp
    rw [h2]
    exact h1
  · have h1 : ∀ ω, X u ω i ^ 2 ≤ Fintype.card J * ∑ c, X' u ω c ^ 2 := by
      intro ω
      refine le_trans ?_ (total_sq (X' u ω))
      rw [eX]
      exact Finset.single_le_sum (f := fun i => total (X' u ω) i ^ 2) (fun _ _ => sq_nonneg _) (Finset.mem_univ i)
    have i1 : Integrable (fun ω => X u ω i ^ 2) P := by
      rw [eX]
      exact (total_memLp hl i).integrable_sq
    have i2 : Integrable (fun ω => ∑ c, X' u ω c ^ 2) P := integrable_sumSq hl
    have h2 := integral_mono i1 (i2.const_mul (Fintype.card J : ℝ)) h1
    rw [integral_const_mul] at h2
    refine h2.trans (mul_le_mul_of_nonneg_left ?_ (Nat.cast_nonneg _))
    rw [← meanSq_eq hl]
    have h4 : Real.exp ((1 + (1 + T) * C) * (u - t0)) ≤ Real.exp ((1 + (1 + T) * C) * T) :=
      Real.exp_le_exp.2 (mul_le_mul_of_nonneg_left (by linarith [hI.2]) (by positivity))
    have h5 : (0 : ℝ) ≤ 1 + ∑ c : J × ι, share (J := J) x0 c ^ 2 :=
      add_nonneg zero_le_one (Finset.sum_nonneg fun _ _ => sq_nonneg _)
    linarith [mul_le_mul_of_nonneg_right h4 h5]

/-- One step, in the mean square. -/
theorem squares_step (hT : 0 ≤ T) (hL : LipschitzCoefs a b t0 T L) (hv : ∀ j, 0 < v j) (hZ : Noises P t0 D m v Z)
    (hU : UncorrelatedNoise P t0 D m Z) (hc : CellMoments a b m v t0 T p q r n w) (hg : grid.Pairwise (· < ·)) (h0 : t0 ∈ grid)
    (hD : ∀ u ∈ grid, u ∈ D) (hX : AreSums a b t0 x0 grid Z X X)
    {s t : ℝ} (hst : StepOf grid t0 s t) (h0s : t0 ≤ s) (hlt : s < t) (htT : t ≤ t0 + T) (i : ι) :
    ∫ ω, X t ω i ^ 2 ∂P = ∫ ω, X s ω i ^ 2 ∂P +
      (2 * (p s i * ∫ ω, X s ω i ∂P + q s i * ∫ ω, X s ω i ^ 2 ∂P) +
        (r s i + n s i * ∫ ω, X s ω i ∂P + w s i * ∫ ω, X s ω i ^ 2 ∂P)) * (t - s) +
      (p s i ^ 2 + 2 * p s i * q s i * ∫ ω, X s ω i ∂P + q s i ^ 2 * ∫ ω, X s ω i ^ 2 ∂P) * (t - s) ^ 2 := by
  have hsI : s ∈ Set.Icc t0 (t0 + T) := ⟨h0s, hlt.le.trans htT⟩
  have hsD := hD s hst.1
  have htD := hD t hst.2.1
  obtain ⟨R, -, hR⟩ := sums_moments hT hL hv m x0
  obtain ⟨hk, hl, lb, -⟩ := hR hZ hg h0 hD hX s hst.1 hsI
  have l1 := (hl i).integrable one_le_two
  have l2 := (hl i).integrable_sq
  set h := t - s with hh
  let A : Ω → ℝ := fun ω => X s ω i + (p s i + q s i * X s ω i) * h
  let B : J → Ω → ℝ := fun j ω => b j s (X s ω) i
  let ξ : J → Ω → ℝ := fun j ω => Z t ω (j, i) - Z s ω (j, i) - m j * h
  have hA : MemLp A 2 P := (hl i).add (((memLp_const (p s i)).add ((hl i).const_mul (q s i))).mul_const h)
  have hξ : ∀ j, MemLp (ξ j) 2 P := fun j => (hZ.memLp s hsD t htD h0s hlt.le (j, i)).sub (memLp_const _)
  have eX : ∀ ω, X t ω i = A ω + ∑ j, B j ω * ξ j ω := by
    intro ω
    rw [hX.step s t hst h0s hlt ω i]
    simp only [A, B, ξ]
    rw [← hc.drift s hsI (X s ω) i]
    simp only [meanDrift, mul_sub, Finset.sum_sub_distrib, add_mul, Finset.sum_mul]
    have : ∑ j, b j s (X s ω) i * (m j * h) = ∑ j, m j * b j s (X s ω) i * h :=
      Finset.sum_congr rfl fun j _ => by ring
    rw [this]
    ring
  obtain ⟨L', hL'⟩ := split_lipschitz (m := m) (fun j => (hv j).le) hL
  have hbm : ∀ j, Measurable fun x : ι → ℝ => b j s x i := by
    intro j
    have h1 := ((measurable_pi_apply (X := fun _ => ℝ) (j, i)).comp
      (((hL'.meas hsI).2).comp (measurable_share (J := J)))).const_mul (√(v j))⁻¹
    have h2 : (fun x : ι → ℝ => b j s x i) = fun x => (√(v j))⁻¹ * splitVol b v s (share x) (j, i) := by
      funext x
      have : √(v j) ≠ 0 := (Real.sqrt_pos.2 (hv j)).ne'
      simp only [splitVol, total_share]
      field_simp
    rw [h2]
    exact h1
  have hi : IndepFun (fun ω => (A ω, fun j => B j ω)) (fun ω j => ξ j ω) P := by
    obtain ⟨g, hgm, e⟩ := hk
    have h1 := (hZ.indep s hsD t htD h0s hlt.le).comp
      (φ := fun z => ((fun x : ι → ℝ => (x i + (p s i + q s i * x i) * h, fun j => b j s x i)) (g z)))
      (ψ := fun z : J × ι → ℝ => fun j => z (j, i) - m j * h)
      (Measurable.comp (g := fun x : ι → ℝ => (x i + (p s i + q s i * x i) * h, fun j => b j s x i))
        (Measurable.prodMk (by fun_prop) (measurable_pi_lambda _ hbm)) hgm)
      (by fun_prop)
    have e1 : (fun ω => (A ω, fun j => B j ω)) = (fun z => ((fun x : ι → ℝ =>
        (x i + (p s i + q s i * x i) * h, fun j => b j s x i)) (g z))) ∘
        fun ω (p : {u : ℝ // u ∈ D ∧ u ≤ s} × (J × ι)) => Z p.1 ω p.2 := by
      funext ω
      simp only [A, B, Function.comp, e]
    rw [e1]
    exact h1
  have key := square_step (w := fun j => v j * h) hA (lb · i) hξ hi
    (fun j => by
      simp only [ξ]
      rw [integral_sub ((hZ.memLp s hsD t htD h0s hlt.le (j, i)).integrable one_le_two) (integrable_const _),
        hZ.mean s hsD t htD h0s hlt.le j i]
      simp [hh])
    (fun j => hZ.var s hsD t htD h0s hlt.le j i)
    (fun j k hjk => hU s hsD t htD h0s hlt.le j k hjk i)
  simp only [eX]
  rw [key]
  have e1 : ∫ ω, A ω ^ 2 ∂P = ∫ ω, X s ω i ^ 2 ∂P + 2 * (p s i * ∫ ω, X s ω i ∂P + q s i * ∫ ω, X s ω i ^ 2 ∂P) * h +
      (p s i ^ 2 + 2 * p s i * q s i * ∫ ω, X s ω i ∂P + q s i ^ 2 * ∫ ω, X s ω i ^ 2 ∂P) * h ^ 2 := by
    have : ∀ ω, A ω ^ 2 = (p s i * h) ^ 2 + 2 * (1 + q s i * h) * (p s i * h) * X s ω i +
        (1 + q s i * h) ^ 2 * X s ω i ^ 2 := fun ω => by simp only [A]; ring
    simp only [this]
    rw [integral_quadratic (hl i)]
    ring
  have e2 : ∑ j, v j * h * ∫ ω, B j ω ^ 2 ∂P =
      (r s i + n s i * ∫ ω, X s ω i ∂P + w s i * ∫ ω, X s ω i ^ 2 ∂P) * h := by
    have h1 : ∑ j, v j * h * ∫ ω, B j ω ^ 2 ∂P = (∫ ω, ∑ j, v j * B j ω ^ 2 ∂P) * h := by
      rw [integral_finsetSum _ fun j _ => ((lb j i).integrable_sq).const_mul (v j), Finset.sum_mul]
      refine Finset.sum_congr rfl fun j _ => ?_
      rw [integral_const_mul]
      ring
    rw [h1]
    simp only [B, hc.noise s hsI]
    rw [integral_quadratic (hl i)]
  rw [e1, e2]
  ring

theorem cell_affine (hc : CellMoments a b m v t0 T p q r n w) :
    ∀ t ∈ Set.Icc t0 (t0 + T), IsAffineIn (meanDrift a b m t) := by
  classical
  intro t ht
  refine ⟨p t, fun i k => if k = i then q t i else 0, fun x i => ?_⟩
  rw [hc.drift t ht]
  simp

/-- Means, and mean squares. -/
noncomputable def moments12 (P : Measure Ω) (X : ℝ → Ω → ι → ℝ) (u : ℝ) : ι ⊕ ι → ℝ :=
  Sum.elim (fun i => ∫ ω, X u ω i ∂P) fun i => ∫ ω, X u ω i ^ 2 ∂P

/-- Bounds on the coefficients of the drift. -/
theorem momentField_bound (hT : 0 < T) (hM : LipschitzField (momentField p q r n w) t0 T M) :
    ∃ C ≥ 0, ∀ t ∈ Set.Icc t0 (t0 + T), ∀ i, |p t i| ≤ C ∧ |q t i| ≤ C := by
  obtain ⟨C, hC, hg⟩ := hM.growth hT
  refine ⟨3 * C, by positivity, fun t ht i => ?_⟩
  have htI : t ∈ Set.Icc (t0 - T) (t0 + T) := ⟨by linarith [ht.1], ht.2⟩
  have h1 := (norm_le_pi_norm _ (Sum.inl i)).trans (hg t htI 0)
  have h2 := (norm_le_pi_norm _ (Sum.inl i)).trans (hg t htI fun _ => 1)
  have h3 : ‖(fun _ : ι ⊕ ι => (1 : ℝ))‖ ≤ 1 := (pi_norm_le_iff_of_nonneg zero_le_one).2 fun _ => by simp
  simp only [momentField, Real.norm_eq_abs, Pi.zero_apply, mul_zero, add_zero, norm_zero, mul_one, zero_add] at h1 h2
  have h4 := mul_le_mul_of_nonneg_left h3 hC.le
  rw [abs_le] at h1 h2
  constructor <;> rw [abs_le] <;> constructor <;> linarith [h1.1, h1.2, h2.1, h2.2]

/-- Means and mean squares follow the Euler method, up to the square of the time step. -/
theorem moments_error (hT : 0 < T) (hL : LipschitzCoefs a b t0 T L) (hv : ∀ j, 0 < v j)
    (hc : CellMoments a b m v t0 T p q r n w) (hM : LipschitzField (momentField p q r n w) t0 T M)
    {y : ℝ → ι ⊕ ι → ℝ} (hy : SolvesOde (momentField p q r n w) t0 T (Sum.elim x0 fun i => x0 i ^ 2) y) :
    ∃ K ≥ 0, ∀ {Ω : Type} [MeasurableSpace Ω] {P : Measure Ω} [IsProbabilityMeasure P] {Z : ℝ → Ω → J × ι → ℝ},
      Noises P t0 (Set.Icc t0 (t0 + T)) m v Z → UncorrelatedNoise P t0 (Set.Icc t0 (t0 + T)) m Z →
      ∀ {X : ℝ → Ω → ι → ℝ} {grid : List ℝ} {δ : ℝ}, 0 ≤ δ → grid.Pairwise (· < ·) → t0 ∈ grid →
      (∀ u ∈ grid, u ∈ Set.Icc t0 (t0 + T)) → Mesh grid δ → AreSums a b t0 x0 grid Z X X → ∀ t ∈ grid, ∀ i,
        MemLp (fun ω => X t ω i) 2 P ∧ |∫ ω, X t ω i ∂P - y t (.inl i)| ≤ K * δ ∧
        |∫ ω, X t ω i ^ 2 ∂P - y t (.inr i)| ≤ K * δ ∧
        |Var[fun ω => X t ω i; P] - (y t (.inr i) - y t (.inl i) ^ 2)| ≤ K * δ := by
  obtain ⟨Q, hQ, hloc⟩ := ode_local hM hT hy
  obtain ⟨C, hC0, hC⟩ := momentField_bound hT hM
  obtain ⟨R, hR0, hR⟩ := sums_moments hT.le hL hv m x0
  obtain ⟨G, hG, hgr⟩ := hM.growth hT
  have hyb := bound_both hG.le hT hy fun t ht => hgr t ht _
  set B := gronwallBound ‖(Sum.elim x0 fun i => x0 i ^ 2 : ι ⊕ ι → ℝ)‖ G G T with hB
  have hB0 : 0 ≤ B := (norm_nonneg _).trans (hyb t0 ⟨by linarith, by linarith⟩)
  set S := 2 * C ^ 2 + 2 * C ^ 2 * R with hS
  have hS0 : 0 ≤ S := by positivity
  set K := (Q + S) * T * Real.exp (M * T) with hK
  have hK0 : 0 ≤ K := by positivity
  refine ⟨K * (2 + R + B), by positivity, ?_⟩
  intro Ω _ P _ Z hZ hU X grid δ hδ hg h0 hD hm hX t ht i
  have key := error_perturbed hQ hS0 hM hT hy.start hloc hg h0 hδ hm (X := moments12 P X)
    (by
      funext c
      rcases c with i | i <;> simp [moments12, hX.start])
    (by
      intro s t hst h0s hlt htT
      have hsI : s ∈ Set.Icc t0 (t0 + T) := ⟨h0s, by linarith⟩
      obtain ⟨-, hl, -, hb⟩ := hR hZ hg h0 hD hX s hst.1 hsI
      refine (pi_norm_le_iff_of_nonneg (by positivity)).2 fun c => ?_
      rcases c with i | i
      · have h1 := means_step hT.le hL hv hZ (cell_affine hc) hg h0 hD hX hst h0s hlt htT i
        rw [hc.drift s hsI] at h1
        simp only [Pi.sub_apply, Pi.smul_apply, moments12, momentField, Sum.elim_inl, smul_eq_mul, h1]
        rw [show ∀ A B h : ℝ, A + B * h - A - h * B = 0 from fun A B h => by ring, norm_zero]
        positivity
      · have h1 := squares_step hT.le hL hv hZ hU hc hg h0 hD hX hst h0s hlt htT i
        simp only [Pi.sub_apply, Pi.smul_apply, moments12, momentField, Sum.elim_inl, Sum.elim_inr, smul_eq_mul, h1]
        rw [show ∀ A B h E : ℝ, A + B * h + E * h ^ 2 - A - h * B = E * h ^ 2 from fun A B h E => by ring,
          Real.norm_eq_abs, abs_mul, abs_of_nonneg (sq_nonneg (t - s))]
        refine mul_le_mul_of_nonneg_right ?_ (sq_nonneg _)
        have e := integral_quadratic (hl i) (p s i ^ 2) (2 * p s i * q s i) (q s i ^ 2)
        rw [← e]
        obtain ⟨hp, hq⟩ := hC s hsI i
        have hp2 : p s i ^ 2 ≤ C ^ 2 := sq_le_sq' (abs_le.1 hp).1 (abs_le.1 hp).2
        have hq2 : q s i ^ 2 ≤ C ^ 2 := sq_le_sq' (abs_le.1 hq).1 (abs_le.1 hq).2
        have l0 : ∀ ω, 0 ≤ p s i ^ 2 + 2 * p s i * q s i * X s ω i + q s i ^ 2 * X s ω i ^ 2 := fun ω => by
          nlinarith [sq_nonneg (p s i + q s i * X s ω i)]
        rw [abs_of_nonneg (integral_nonneg l0), e]
        have e2 := integral_quadratic (hl i) (2 * C ^ 2) 0 (2 * C ^ 2)
        have l2 := (hl i).integrable_sq
        have l1 := (hl i).integrable one_le_two
        have l3 : ∫ ω, (p s i ^ 2 + 2 * p s i * q s i * X s ω i + q s i ^ 2 * X s ω i ^ 2) ∂P ≤
            ∫ ω, (2 * C ^ 2 + 0 * X s ω i + 2 * C ^ 2 * X s ω i ^ 2) ∂P := by
          refine integral_mono (((integrable_const _).add (l1.const_mul _)).add (l2.const_mul _))
            (((integrable_const _).add (l1.const_mul _)).add (l2.const_mul _)) fun ω => ?_
          show p s i ^ 2 + 2 * p s i * q s i * X s ω i + q s i ^ 2 * X s ω i ^ 2 ≤
            2 * C ^ 2 + 0 * X s ω i + 2 * C ^ 2 * X s ω i ^ 2
          have h5 := mul_le_mul_of_nonneg_right hq2 (sq_nonneg (X s ω i))
          nlinarith [sq_nonneg (p s i - q s i * X s ω i)]
        rw [e, e2] at l3
        refine l3.trans ?_
        have := mul_le_mul_of_nonneg_left (hb i) (by positivity : 0 ≤ 2 * C ^ 2)
        linarith) t ht (hD t ht).1 (hD t ht).2
  have k1 := (norm_le_pi_norm _ (Sum.inl i)).trans key
  have k2 := (norm_le_pi_norm _ (Sum.inr i)).trans key
  simp only [Pi.sub_apply, moments12, Sum.elim_inl, Sum.elim_inr, Real.norm_eq_abs] at k1 k2
  rw [← hK] at k1 k2
  obtain ⟨-, hl, -, hb⟩ := hR hZ hg h0 hD hX t ht (hD t ht)
  have hKδ : 0 ≤ K * δ := mul_nonneg hK0 hδ
  have hle : K * δ ≤ K * (2 + R + B) * δ := by nlinarith [mul_nonneg hKδ hR0, mul_nonneg hKδ hB0]
  refine ⟨hl i, k1.trans hle, k2.trans hle, ?_⟩
  rw [variance_eq_sub (hl i)]
  have y1 : |y t (.inl i)| ≤ B := (norm_le_pi_norm _ (Sum.inl i)).trans (hyb t ⟨by linarith [(hD t ht).1], (hD t ht).2⟩)
  have m1 : |∫ ω, X t ω i ∂P| ≤ 1 + R := by
    have h1 := variance_nonneg (fun ω => X t ω i) P
    rw [variance_eq_sub (hl i)] at h1
    have h2 := hb i
    have h3 : (∫ ω, X t ω i ∂P) ^ 2 ≤ R := by
      have : ∫ ω, ((fun ω => X t ω i) ^ 2) ω ∂P = ∫ ω, X t ω i ^ 2 ∂P := rfl
      rw [this] at h1
      linarith
    rw [← sq_abs] at h3
    nlinarith [sq_nonneg (|∫ ω, X t ω i ∂P| - 1)]
  have e : ∫ ω, ((fun ω => X t ω i) ^ 2) ω ∂P = ∫ ω, X t ω i ^ 2 ∂P := rfl
  rw [e]
  set μ1 := ∫ ω, X t ω i ∂P
  set μ2 := ∫ ω, X t ω i ^ 2 ∂P
  have h1 : μ2 - μ1 ^ 2 - (y t (.inr i) - y t (.inl i) ^ 2) =
      (μ2 - y t (.inr i)) - (μ1 - y t (.inl i)) * (μ1 + y t (.inl i)) := by ring
  rw [h1]
  refine (abs_sub _ _).trans ?_
  rw [abs_mul]
  have h2 : |μ1 + y t (.inl i)| ≤ 1 + R + B := (abs_add_le _ _).trans (add_le_add m1 y1)
  have h3 := mul_le_mul k1 h2 (abs_nonneg _) hKδ
  calc _ ≤ K * δ + K * δ * (1 + R + B) := add_le_add k2 h3
    _ = _ := by ring

end

/-! ### Independent sources -/

section
variable {Ω ι J : Type} [MeasurableSpace Ω] [Fintype ι] [Fintype J] {P : Measure Ω}

theorem uncorrelated_of_increments [IsProbabilityMeasure P] {t0 : ℝ} {D : Set ℝ} {law : J → ℝ → Measure (ι → ℝ)}
    {m v : J → ℝ} (hl : ∀ j h, 0 < h → IsProbabilityMeasure (law j h)) (hmo : ∀ j, HasMoments (law j) (m j) (v j))
    {Z : ℝ → Ω → J → ι → ℝ} (hZ : Increments P t0 D (fun h => Measure.pi fun j => law j h) Z) :
    UncorrelatedNoise P t0 D m fun u ω c => Z u ω c.1 c.2 := by
  intro s hs t ht h0 hst j k hjk i
  rcases hst.eq_or_lt with rfl | hlt
  · simp
  · have hp := fun j => hl j (t - s) (sub_pos.2 hlt)
    have h := hZ.law s hs t ht h0 hlt
    have mj : ∀ j, Measurable fun x : ι → ℝ => x i - m j * (t - s) := fun j => (measurable_pi_apply i).sub_const _
    have h1 := h.integral_comp (f := fun x : J → ι → ℝ => (x j i - m j * (t - s)) * (x k i - m k * (t - s)))
      (((mj j).comp (measurable_pi_apply j)).mul ((mj k).comp (measurable_pi_apply k))).aestronglyMeasurable
    refine h1.trans ?_
    have hi := (iIndepFun_pi (μ := fun j => law j (t - s)) (X := fun j (x : ι → ℝ) => x i - m j * (t - s))
      fun j => (mj j).aemeasurable).indepFun hjk
    have h2 := hi.integral_fun_mul_eq_mul_integral ((mj j).comp (measurable_pi_apply j)).aestronglyMeasurable
      ((mj k).comp (measurable_pi_apply k)).aestronglyMeasurable
    refine h2.trans ?_
    have h3 : ∫ x : J → ι → ℝ, (x j i - m j * (t - s)) ∂(Measure.pi fun j => law j (t - s)) = 0 := by
      have e := (measurePreserving_eval (fun j => law j (t - s)) j)
      have e2 : HasLaw (fun x : J → ι → ℝ => x j) (law j (t - s)) (Measure.pi fun j => law j (t - s)) :=
        ⟨(measurable_pi_apply j).aemeasurable, e.map_eq⟩
      have e3 := e2.integral_comp (f := fun x : ι → ℝ => x i - m j * (t - s)) (mj j).aestronglyMeasurable
      refine e3.trans ?_
      obtain ⟨q1, q2, -⟩ := hmo j (t - s) (sub_pos.2 hlt) i
      rw [integral_sub (q1.integrable one_le_two) (integrable_const _), q2]
      simp
    rw [h3, zero_mul]

end

end Sdepy
