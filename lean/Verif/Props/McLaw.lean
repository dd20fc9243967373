import Verif.Spec.McLaw
import Verif.Props.MonteCarlo
import Verif.Props.WienerLaw
import Mathlib.Probability.StrongLaw

/-!
# C68: Monte Carlo estimates
-/

set_option linter.unusedSectionVars false

namespace Sdepy

open Spec MeasureTheory ProbabilityTheory Filter Topology

variable {Ω : Type} [MeasurableSpace Ω] {P : Measure Ω} [IsProbabilityMeasure P]
  {auto : String → Option (ℝ × ℝ) → List ℝ → Py (List ℝ)} {bins : Bins ℝ}
  {range : Option (ℝ × ℝ)} {use : String} {vs c : List ℕ}

theorem avg_range (N : ℕ) (f : ℕ → ℝ) :
    avg ((List.range N).map f) = (∑ k ∈ Finset.range N, f k) / N := by
  unfold avg
  rw [List.length_map, List.length_range]
  rfl

theorem cmom_two_range {N : ℕ} (hN : 0 < N) (f : ℕ → ℝ) :
    cmom 2 ((List.range N).map f) =
      (∑ k ∈ Finset.range N, f k ^ 2) / N - ((∑ k ∈ Finset.range N, f k) / N) ^ 2 := by
  have hN' : (N : ℝ) ≠ 0 := by positivity
  unfold cmom
  rw [List.map_map, avg_range, avg_range]
  simp only [Function.comp_apply]
  set m := (∑ k ∈ Finset.range N, f k) / N with hm
  have hs : ∑ k ∈ Finset.range N, f k = N * m := by rw [hm]; field_simp
  have : ∀ k, (f k - m) ^ 2 = f k ^ 2 - 2 * m * f k + m ^ 2 := fun k => by ring
  simp only [this]
  rw [Finset.sum_add_distrib, Finset.sum_sub_distrib, ← Finset.mul_sum, hs, Finset.sum_const,
    Finset.card_range, nsmul_eq_mul]
  field_simp
  ring

theorem uncorrelated_mean {N : ℕ} (hN : 0 < N) {X : ℕ → Ω → ℝ} {m v : ℝ} (h : Uncorrelated P N X m v) :
    MemLp (fun ω => (∑ k ∈ Finset.range N, X k ω) / N) 2 P ∧
    ∫ ω, (∑ k ∈ Finset.range N, X k ω) / N ∂P = m ∧
    Var[fun ω => (∑ k ∈ Finset.range N, X k ω) / N; P] = v / N ∧
    ∫ ω, ((∑ k ∈ Finset.range N, X k ω ^ 2) / N - ((∑ k ∈ Finset.range N, X k ω) / N) ^ 2) ∂P =
      (N - 1) / N * v := by
  have hN' : (N : ℝ) ≠ 0 := by positivity
  have hL : ∀ k ∈ Finset.range N, MemLp (X k) 2 P := fun k hk => h.memLp k (Finset.mem_range.1 hk)
  have hI : ∀ k ∈ Finset.range N, Integrable (X k) P := fun k hk =>
    (hL k hk).integrable (by norm_num)
  have hS : MemLp (fun ω => ∑ k ∈ Finset.range N, X k ω) 2 P := memLp_finsetSum _ hL
  have hM : MemLp (fun ω => (∑ k ∈ Finset.range N, X k ω) / N) 2 P := by
    simpa only [div_eq_mul_inv] using hS.mul_const ((N : ℝ)⁻¹)
  have h1 : ∫ ω, (∑ k ∈ Finset.range N, X k ω) / N ∂P = m := by
    rw [integral_div, integral_finsetSum _ hI,
      Finset.sum_congr rfl fun k hk => h.mean k (Finset.mem_range.1 hk)]
    simp only [Finset.sum_const, Finset.card_range, nsmul_eq_mul]
    field_simp
  have h2 : Var[fun ω => (∑ k ∈ Finset.range N, X k ω) / N; P] = v / N := by
    have e1 : Var[fun ω => ∑ k ∈ Finset.range N, X k ω; P] = N * v := by
      have := variance_fun_sum' (X := X) (s := Finset.range N) hL
      rw [this]
      have : ∀ i ∈ Finset.range N, ∑ j ∈ Finset.range N, cov[X i, X j; P] = v := by
        intro i hi
        rw [Finset.sum_eq_single i]
        · rw [covariance_self (hL i hi).1.aemeasurable, h.var i (Finset.mem_range.1 hi)]
        · intro j hj hij
          exact h.cov i (Finset.mem_range.1 hi) j (Finset.mem_range.1 hj) hij.symm
        · intro hc; exact absurd hi hc
      rw [Finset.sum_congr rfl this]
      simp
    have e2 : (fun ω => (∑ k ∈ Finset.range N, X k ω) / N) =
        fun ω => (N : ℝ)⁻¹ * ∑ k ∈ Finset.range N, X k ω := by
      funext ω; rw [div_eq_inv_mul]
    rw [e2, variance_const_mul, e1]
    field_simp
  refine ⟨hM, h1, h2, ?_⟩
  have hsq : ∀ k ∈ Finset.range N, Integrable (fun ω => X k ω ^ 2) P := fun k hk => (hL k hk).integrable_sq
  have e3 : ∀ k ∈ Finset.range N, ∫ ω, X k ω ^ 2 ∂P = v + m ^ 2 := by
    intro k hk
    have := variance_eq_sub (hL k hk)
    rw [h.var k (Finset.mem_range.1 hk), h.mean k (Finset.mem_range.1 hk)] at this
    have e : (∫ ω, (X k ^ 2) ω ∂P) = ∫ ω, X k ω ^ 2 ∂P := rfl
    rw [e] at this
    linarith
  have e4 : ∫ ω, ((∑ k ∈ Finset.range N, X k ω) / N) ^ 2 ∂P = v / N + m ^ 2 := by
    have := variance_eq_sub hM
    rw [h2, h1] at this
    have e : (∫ ω, ((fun ω => (∑ k ∈ Finset.range N, X k ω) / (N : ℝ)) ^ 2) ω ∂P) =
      ∫ ω, ((∑ k ∈ Finset.range N, X k ω) / N) ^ 2 ∂P := rfl
    rw [e] at this
    linarith
  rw [integral_sub ((integrable_finsetSum _ hsq).div_const _) hM.integrable_sq, e4, integral_div,
    integral_finsetSum _ hsq, Finset.sum_congr rfl e3]
  simp only [Finset.sum_const, Finset.card_range, nsmul_eq_mul]
  field_simp
  ring

/-- What an instance that has cumulated `N` random values reports. -/
theorem cumulates_values (ha : AutoOk auto) {mc : Ω → MC ℝ} {N : ℕ} {X : ℕ → Ω → ℝ}
    (h : Cumulates auto bins range use vs c mc N X) (ω : Ω) :
    0 < N ∧ (mc ω).paths = N ∧
    (∃ a, (mc ω).mean = some a ∧ a.get c = some ((∑ k ∈ Finset.range N, X k ω) / N)) ∧
    (∃ a, (mc ω).var = .ok a ∧ a.get c = some ((∑ k ∈ Finset.range N, X k ω ^ 2) / N -
      ((∑ k ∈ Finset.range N, X k ω) / N) ^ 2)) ∧
    (2 ≤ N → ∃ a, (mc ω).stderr = .ok a ∧ a.get c = some
      (√((∑ k ∈ Finset.range N, X k ω ^ 2) / N - ((∑ k ∈ Finset.range N, X k ω) / N) ^ 2) /
        √((N : ℝ) - 1))) := by
  obtain ⟨b, l, h1, h2, h3, h4⟩ := h.history ω
  obtain ⟨p1, p2, a, q1, q2, q3⟩ := C35_mean ha h1 h2 h3
  have hp : (mc ω).paths = N := by rw [p2 c h.cell, h4]; simp
  have hN : 0 < N := by rw [← hp, p1]; exact h3.pos
  obtain ⟨a', r1, r2, r3⟩ := C35_var ha h1 h2 h3
  obtain ⟨-, -, s3⟩ := C35_std_stderr ha h1 h2 h3
  refine ⟨hN, hp, ⟨a, q1, ?_⟩, ⟨a', r1, ?_⟩, fun h5 => ?_⟩
  · rw [q3 c h.cell, h4, avg_range]
  · rw [r3 c h.cell, h4, cmom_two_range hN]
  · obtain ⟨a'', t1, t2, t3⟩ := s3 (by rw [hp]; exact h5)
    refine ⟨a'', t1, ?_⟩
    rw [t3 c h.cell, h4, cmom_two_range hN, hp]

/-- **C68.** The mean that `montecarlo` reports, of `N` values that have the same mean and variance and
are not correlated, is an unbiased estimate of their mean, of variance `v/N`; the square of `stderr` is
an unbiased estimate of the latter. Large errors are unlikely (Chebyshev's inequality). -/
theorem C68_unbiased (ha : AutoOk auto) {mc : Ω → MC ℝ} {N : ℕ} {X : ℕ → Ω → ℝ}
    (h : Cumulates auto bins range use vs c mc N X) {m v : ℝ} (hX : Uncorrelated P N X m v) :
    (∃ M : Ω → ℝ, (∀ ω, ∃ a, (mc ω).mean = some a ∧ a.get c = some (M ω)) ∧
      ∫ ω, M ω ∂P = m ∧ Var[M; P] = v / N ∧
      ∀ ε, 0 < ε → P {ω | ε ≤ |M ω - m|} ≤ ENNReal.ofReal (v / N / ε ^ 2)) ∧
    (2 ≤ N → ∃ E : Ω → ℝ, (∀ ω, ∃ a, (mc ω).stderr = .ok a ∧ a.get c = some (E ω)) ∧
      ∫ ω, E ω ^ 2 ∂P = v / N) := by
  have hne : Nonempty Ω := by
    by_contra hc
    rw [not_nonempty_iff] at hc
    exact absurd (IsProbabilityMeasure.ne_zero P) (not_not.2 (Measure.eq_zero_of_isEmpty P))
  obtain ⟨ω0⟩ := hne
  have hN := (cumulates_values ha h ω0).1
  obtain ⟨u1, u2, u3, u4⟩ := uncorrelated_mean hN hX
  constructor
  · refine ⟨_, fun ω => (cumulates_values ha h ω).2.2.1, u2, u3, fun ε hε => ?_⟩
    have := meas_ge_le_variance_div_sq u1 hε
    rwa [u2, u3] at this
  · intro h2
    refine ⟨_, fun ω => (cumulates_values ha h ω).2.2.2.2 h2, ?_⟩
    have hN1 : (0 : ℝ) < (N : ℝ) - 1 := by
      have : (2 : ℝ) ≤ N := by exact_mod_cast h2
      linarith
    have hnn : ∀ ω, 0 ≤ (∑ k ∈ Finset.range N, X k ω ^ 2) / N - ((∑ k ∈ Finset.range N, X k ω) / N) ^ 2 := by
      intro ω
      rw [← cmom_two_range hN (fun k => X k ω)]
      unfold cmom
      rw [List.map_map, avg_range]
      exact div_nonneg (Finset.sum_nonneg fun k _ => sq_nonneg _) (by positivity)
    have e : ∀ ω, (√((∑ k ∈ Finset.range N, X k ω ^ 2) / N - ((∑ k ∈ Finset.range N, X k ω) / N) ^ 2) /
        √((N : ℝ) - 1)) ^ 2 = ((∑ k ∈ Finset.range N, X k ω ^ 2) / N -
          ((∑ k ∈ Finset.range N, X k ω) / N) ^ 2) / ((N : ℝ) - 1) := by
      intro ω
      rw [div_pow, Real.sq_sqrt (hnn ω), Real.sq_sqrt hN1.le]
    simp only [e]
    rw [integral_div, u4]
    field_simp

/-- **C68, consistency.** As more and more samples are cumulated, of values identically distributed and
independent of each other, mean and variance that `montecarlo` reports converge almost surely to those of
the values. -/
theorem C68_consistent (ha : AutoOk auto) {mc : ℕ → Ω → MC ℝ} {N : ℕ → ℕ} {X : ℕ → Ω → ℝ}
    (h : ∀ n, Cumulates auto bins range use vs c (mc n) (N n) X) (hN : Tendsto N atTop atTop)
    (hX : MemLp (X 0) 2 P) (hi : Pairwise fun i j => IndepFun (X i) (X j) P)
    (hd : ∀ i, IdentDistrib (X i) (X 0) P P) :
    ∃ M V : ℕ → Ω → ℝ, (∀ n ω, (∃ a, (mc n ω).mean = some a ∧ a.get c = some (M n ω)) ∧
        ∃ a, (mc n ω).var = .ok a ∧ a.get c = some (V n ω)) ∧
      ∀ᵐ ω ∂P, Tendsto (fun n => M n ω) atTop (𝓝 (∫ ω, X 0 ω ∂P)) ∧
        Tendsto (fun n => V n ω) atTop (𝓝 (Var[X 0; P])) := by
  refine ⟨_, _, fun n ω => ⟨(cumulates_values ha (h n) ω).2.2.1, (cumulates_values ha (h n) ω).2.2.2.1⟩, ?_⟩
  have h1 := strong_law_ae_real X (hX.integrable (by norm_num)) hi hd
  have h2 := strong_law_ae_real (fun k ω => X k ω ^ 2) hX.integrable_sq
    (fun i j hij => (hi hij).comp (measurable_id.pow_const 2) (measurable_id.pow_const 2))
    (fun i => (hd i).comp (measurable_id.pow_const 2))
  filter_upwards [h1, h2] with ω e1 e2
  refine ⟨e1.comp hN, ?_⟩
  have := ((e2.comp hN).sub ((e1.comp hN).pow 2))
  rw [variance_eq_sub hX]
  exact this

theorem sum_range_ite (p : ℕ → Bool) : ∀ N : ℕ,
    ∑ k ∈ Finset.range N, (if p k then (1 : ℝ) else 0) = ((List.range N).countP p : ℕ)
  | 0 => by simp
  | N + 1 => by
    rw [Finset.sum_range_succ, sum_range_ite p N, List.range_succ, List.countP_append]
    by_cases h : p N <;> simp [h]

/-- **C68, consistency of histograms.** If the bins are given by an array of edges, the fraction of values
that `montecarlo` reports in each bin converges almost surely to the probability of the bin. -/
theorem C68_histogram (ha : AutoOk auto) {a : Arr ℝ} {mc : ℕ → Ω → MC ℝ} {N : ℕ → ℕ} {X : ℕ → Ω → ℝ}
    (h : ∀ n, Cumulates auto (.array a) range use vs c (mc n) (N n) X) (hN : Tendsto N atTop atTop)
    (hX : AEMeasurable (X 0) P) (hi : Pairwise fun i j => IndepFun (X i) (X j) P)
    (hd : ∀ i, IdentDistrib (X i) (X 0) P P) :
    ∃ e : List ℝ, e = (List.range (a.shape.getLastD 0)).map (fun k => a.get (c ++ [k])) ∧
      (∀ n ω, ((mc n ω).counts c).length = e.length - 1) ∧
      ∀ᵐ ω ∂P, ∀ j, j + 1 < e.length →
        Tendsto (fun n => (((mc n ω).counts c).getD j 0 : ℝ) / (mc n ω).paths) atTop
          (𝓝 (P.real {ω | inBin e j (X 0 ω)})) := by
  set e := (List.range (a.shape.getLastD 0)).map (fun k => a.get (c ++ [k])) with he
  have hc : ∀ n ω, (mc n ω).counts c = hist e ((List.range (N n)).map fun k => X k ω) := by
    intro n ω
    obtain ⟨b, l, h1, h2, h3, h4⟩ := (h n).history ω
    obtain ⟨E, g, -, hE⟩ := C36_histogram ha (by simp) h1 h2
    obtain ⟨-, q2, q3, -⟩ := hE c (h n).cell
    rw [q3, h4, show E c = e from q2]
  refine ⟨e, rfl, fun n ω => by rw [hc]; simp [hist], ?_⟩
  have hmeas : ∀ j, Measurable fun v : ℝ => if inBin e j v then (1 : ℝ) else 0 := by
    intro j
    refine Measurable.ite ?_ measurable_const measurable_const
    unfold inBin
    split
    · next x y _ _ =>
      have : {v : ℝ | decide (x ≤ v ∧ (v < y ∨ v = y ∧ j + 2 = e.length)) = true} =
          Set.Ici x ∩ (Set.Iio y ∪ ({y} ∩ {v | j + 2 = e.length})) := by
        ext v; simp
      rw [this]
      exact measurableSet_Ici.inter (measurableSet_Iio.union
        ((measurableSet_singleton y).inter (MeasurableSet.const _)))
    · simp
  rw [ae_all_iff]
  intro j
  have hint : Integrable (fun ω => if inBin e j (X 0 ω) then (1 : ℝ) else 0) P := by
    refine Integrable.of_bound ((hmeas j).comp_aemeasurable hX).aestronglyMeasurable 1
      (ae_of_all _ fun ω => ?_)
    split <;> simp
  have h1 := strong_law_ae_real (fun k ω => if inBin e j (X k ω) then (1 : ℝ) else 0) hint
    (fun i k hik => (hi hik).comp (hmeas j) (hmeas j)) (fun i => (hd i).comp (hmeas j))
  filter_upwards [h1] with ω e1
  intro hj
  have e2 := e1.comp hN
  have e3 : ∫ ω, (if inBin e j (X 0 ω) then (1 : ℝ) else 0) ∂P = P.real {ω | inBin e j (X 0 ω)} := by
    have hs : NullMeasurableSet {ω | inBin e j (X 0 ω)} P := by
      have hm : MeasurableSet {v : ℝ | inBin e j v} := by
        have := hmeas j (measurableSet_singleton 1)
        convert this using 1
        ext v
        by_cases hv : inBin e j v <;> simp [hv]
      exact hX.nullMeasurableSet_preimage hm
    have := integral_indicator₀ (μ := P) (f := fun _ => (1 : ℝ)) hs
    rw [setIntegral_const, smul_eq_mul, mul_one] at this
    rw [← this]
    congr 1
    funext ω
    by_cases hv : inBin e j (X 0 ω) <;> simp [hv, Set.indicator]
  rw [e3] at e2
  refine e2.congr fun n => ?_
  rw [(cumulates_values ha (h n) ω).2.1, hc]
  simp only [Function.comp_apply, hist]
  congr 1
  rw [List.getD_eq_getElem?_getD, List.getElem?_map, List.getElem?_range (by omega)]
  simp only [Option.map_some, Option.getD_some, Int.cast_natCast, List.countP_map]
  exact sum_range_ite _ _

/-! ### Simulated processes -/

theorem uncorrelated_of_iid {N : ℕ} {X : ℕ → Ω → ℝ} (hX : MemLp (X 0) 2 P)
    (hi : Pairwise fun i j => IndepFun (X i) (X j) P) (hd : ∀ i, IdentDistrib (X i) (X 0) P P) :
    Uncorrelated P N X (∫ ω, X 0 ω ∂P) Var[X 0; P] := by
  have hL : ∀ k, MemLp (X k) 2 P := fun k => (hd k).memLp_iff.2 hX
  exact ⟨fun k _ => hL k, fun k _ => (hd k).integral_eq, fun k _ => (hd k).variance_eq,
    fun j _ k _ hjk => (hi hjk).covariance_eq_zero (hL j) (hL k)⟩

variable {ι κ : Type} [Fintype κ] [DecidableEq κ] [DecidableEq ι]
  {corr : Corr κ} {D : Set ℝ} {F : ℝ → Matrix κ κ ℝ}
  {G : ℕ → Matrix κ κ ℝ → ℝ → ℝ → Ω → ι → κ → ℝ}

/-- Different paths of a Wiener process are independent. -/
theorem Spec.IsWienerProcess.indep_paths {t0 : ℝ} {z0 : ι → κ → ℝ} {W : ℝ → Ω → ι → κ → ℝ}
    (h : IsWienerProcess P F t0 z0 D W) {u : ℝ} (hu : u ∈ D) {i j : ι} (hij : i ≠ j) (k l : κ) :
    IndepFun (fun ω => W u ω i k) (fun ω => W u ω j l) P := by
  have := IsGaussianProcess.indepFun_of_covariance_eq_zero (P := P)
    (X := fun (_ : Unit) ω => W u ω i k) (Y := fun (_ : Unit) ω => W u ω j l)
    (h.gauss_affine ?_) (fun _ => (h.hasGaussianLaw hu _ _).aemeasurable)
    (fun _ => (h.hasGaussianLaw hu _ _).aemeasurable) ?_
  · exact this.comp (measurable_pi_apply ()) (measurable_pi_apply ())
  · rintro (p | p)
    · exact affSpan_draw (fun (p : D × ι × κ) ω => W p.1 ω p.2.1 p.2.2) (⟨u, hu⟩, i, k)
    · exact affSpan_draw (fun (p : D × ι × κ) ω => W p.1 ω p.2.1 p.2.2) (⟨u, hu⟩, j, l)
  · intro _ _
    rw [h.cov u hu u hu, if_neg hij]

/-- The same function of different paths gives independent and identically distributed values. -/
theorem paths_iid {t0 : ℝ} {W : ℝ → Ω → ι → κ → ℝ}
    (h : IsWienerProcess P F t0 0 D W) {u : ℝ} (hu : u ∈ D) {path : ℕ → ι}
    (hp : Function.Injective path) (k : κ) {f : ℝ → ℝ} (hf : Measurable f) :
    (Pairwise fun i j => IndepFun (fun ω => f (W u ω (path i) k)) (fun ω => f (W u ω (path j) k)) P) ∧
    ∀ i, IdentDistrib (fun ω => f (W u ω (path i) k)) (fun ω => f (W u ω (path 0) k)) P P :=
  ⟨fun _ _ hij => (h.indep_paths hu (hp.ne hij) k k).comp hf hf, fun i =>
    IdentDistrib.comp ⟨(h.law hu _ k).aemeasurable, (h.law hu _ k).aemeasurable,
      by rw [(h.law hu _ k).map_eq, (h.law hu _ k).map_eq]; rfl⟩ hf⟩

/-- Mean and variance of the lognormal law. -/
theorem lognorm_moments {W : Ω → ℝ} {τ : ℝ} (hτ : 0 ≤ τ)
    (hl : HasLaw W (gaussianReal 0 τ.toNNReal) P) (x0 mu sigma : ℝ) :
    MemLp (fun ω => x0 * Real.exp ((mu - sigma ^ 2 / 2) * τ + sigma * W ω)) 2 P ∧
    ∫ ω, x0 * Real.exp ((mu - sigma ^ 2 / 2) * τ + sigma * W ω) ∂P = lognormMean x0 mu sigma τ ∧
    Var[fun ω => x0 * Real.exp ((mu - sigma ^ 2 / 2) * τ + sigma * W ω); P] =
      lognormVar x0 mu sigma τ := by
  have hmgf : ∀ a : ℝ, ∫ ω, Real.exp (a * W ω) ∂P = Real.exp (a ^ 2 * τ / 2) := by
    intro a
    have h1 := mgf_gaussianReal hl.map_eq a
    simp only [mgf, zero_mul, zero_add, Real.coe_toNNReal _ hτ] at h1
    rw [h1]
    congr 1
    ring
  have hint : ∀ a : ℝ, Integrable (fun ω => Real.exp (a * W ω)) P := by
    intro a
    by_contra hc
    have := hmgf a
    rw [integral_undef hc] at this
    exact absurd this (Real.exp_pos _).ne
  have hm : AEStronglyMeasurable (fun ω => x0 * Real.exp ((mu - sigma ^ 2 / 2) * τ + sigma * W ω)) P := by
    have : Measurable fun w : ℝ => x0 * Real.exp ((mu - sigma ^ 2 / 2) * τ + sigma * w) := by fun_prop
    exact (this.comp_aemeasurable hl.aemeasurable).aestronglyMeasurable
  have e1 : ∀ ω, x0 * Real.exp ((mu - sigma ^ 2 / 2) * τ + sigma * W ω) =
      x0 * Real.exp ((mu - sigma ^ 2 / 2) * τ) * Real.exp (sigma * W ω) := fun ω => by
    rw [Real.exp_add]; ring
  have e2 : ∀ ω, (x0 * Real.exp ((mu - sigma ^ 2 / 2) * τ + sigma * W ω)) ^ 2 =
      x0 ^ 2 * Real.exp (2 * ((mu - sigma ^ 2 / 2) * τ)) * Real.exp (2 * sigma * W ω) := fun ω => by
    rw [mul_pow, ← Real.exp_nat_mul, mul_assoc, ← Real.exp_add]
    congr 2
    push_cast
    ring
  have hL : MemLp (fun ω => x0 * Real.exp ((mu - sigma ^ 2 / 2) * τ + sigma * W ω)) 2 P := by
    rw [memLp_two_iff_integrable_sq hm]
    simp only [e2]
    exact (hint _).const_mul _
  have h1 : ∫ ω, x0 * Real.exp ((mu - sigma ^ 2 / 2) * τ + sigma * W ω) ∂P = lognormMean x0 mu sigma τ := by
    simp only [e1]
    rw [integral_const_mul, hmgf, mul_assoc, ← Real.exp_add, lognormMean]
    congr 2
    ring
  refine ⟨hL, h1, ?_⟩
  rw [variance_eq_sub hL, h1]
  have e3 : ∫ ω, ((fun ω => x0 * Real.exp ((mu - sigma ^ 2 / 2) * τ + sigma * W ω)) ^ 2) ω ∂P =
      x0 ^ 2 * Real.exp ((2 * mu + sigma ^ 2) * τ) := by
    simp only [Pi.pow_apply, e2]
    rw [integral_const_mul, hmgf, mul_assoc, ← Real.exp_add]
    congr 2
    ring
  rw [e3, lognormVar, lognormMean, mul_pow, ← Real.exp_nat_mul]
  have e4 : (2 * mu + sigma ^ 2) * τ = 2 * mu * τ + sigma ^ 2 * τ := by ring
  rw [e4, Real.exp_add, show ((2 : ℕ) : ℝ) * (mu * τ) = 2 * mu * τ by push_cast; ring]
  ring_nf

/-- **C68 (Wiener process).** The values simulated along different paths satisfy the assumptions of the
previous theorems, mean and variance being `wiener_mean` and `wiener_var`. -/
theorem C68_wiener (hC : CorrOk corr D F) (hone : ∀ u ∈ D, ∀ k, corrAt corr u k k = 1)
    (hG : Draws P G) (hJ : GaussianDraws P G)
    (x0 mu sigma : κ → ℝ) {fuel : ℕ} {steps : Steps ℝ} {i0 : ℤ} {tl : TArr ℝ} {grid : List ℝ}
    {t0 : ℝ} (h : Along fuel steps i0 tl grid t0) (hD : ∀ u ∈ tl.data, u ∈ D) (n : ℕ) :
    ∃ (X : ℝ → Ω → ι × κ → ℝ) (m : ℕ),
      (∀ ω, (wienerSDE (fun c => x0 c.2) (fun _ c => mu c.2) (fun _ c => sigma c.2)
          (noise G (corrAt corr))).call
          fuel steps i0 tl (ω, n) = .ok (tl.data.map fun t => some (X t ω), (ω, m))) ∧
      ∀ t ∈ tl.data, t0 ≤ t → ∀ k, ∀ path : ℕ → ι, Function.Injective path →
        MemLp (fun ω => X t ω (path 0, k)) 2 P ∧
        (Pairwise fun i j => IndepFun (fun ω => X t ω (path i, k)) (fun ω => X t ω (path j, k)) P) ∧
        (∀ i, IdentDistrib (fun ω => X t ω (path i, k)) (fun ω => X t ω (path 0, k)) P P) ∧
        ∀ N, Uncorrelated P N (fun i ω => X t ω (path i, k))
          (wienerMean (x0 k) (mu k) (sigma k) (t - t0)) (wienerVar (x0 k) (mu k) (sigma k) (t - t0)) := by
  obtain ⟨W, m, hW, he⟩ := C64_wiener hC hG hJ (fun c => x0 c.2) (fun c => mu c.2) (fun c => sigma c.2) h hD n
  obtain ⟨h1, h2, h3⟩ := along_mem h
  refine ⟨fun t ω c => x0 c.2 + mu c.2 * (t - t0) + sigma c.2 * W t ω c.1 c.2, m, he,
    fun t ht h0 k path hp => ?_⟩
  beta_reduce
  have hl := hW.law ht (path 0) k
  rw [wienerCov_diag hC hone (hD _ h1) (hD _ ht) h0] at hl
  have hf : Measurable fun w : ℝ => x0 k + mu k * (t - t0) + sigma k * w := by fun_prop
  obtain ⟨i1, i2⟩ := paths_iid hW ht hp k hf
  have hg := hW.hasGaussianLaw ht (path 0) k
  have hL : MemLp (fun ω => x0 k + mu k * (t - t0) + sigma k * W t ω (path 0) k) 2 P := by
    have a1 : MemLp (fun _ : Ω => x0 k + mu k * (t - t0)) 2 P := memLp_const _
    have a2 : MemLp (fun ω => sigma k * W t ω (path 0) k) 2 P := hg.memLp_two.const_mul _
    exact a1.add a2
  refine ⟨hL, i1, i2, fun N => ?_⟩
  have := uncorrelated_of_iid (N := N) (X := fun i ω => x0 k + mu k * (t - t0) + sigma k * W t ω (path i) k)
    hL i1 i2
  have em : ∫ ω, (x0 k + mu k * (t - t0) + sigma k * W t ω (path 0) k) ∂P =
      wienerMean (x0 k) (mu k) (sigma k) (t - t0) := by
    rw [integral_add (integrable_const _) (hg.integrable.const_mul _), integral_const_mul,
      hW.mean t ht]
    simp [wienerMean]
  have ev : Var[fun ω => x0 k + mu k * (t - t0) + sigma k * W t ω (path 0) k; P] =
      wienerVar (x0 k) (mu k) (sigma k) (t - t0) := by
    have a2 : MemLp (fun ω => sigma k * W t ω (path 0) k) 2 P := hg.memLp_two.const_mul _
    rw [variance_const_add a2.1, variance_const_mul]
    have := hl.variance_eq
    rw [variance_id_gaussianReal] at this
    rw [this, wienerVar, Real.coe_toNNReal _ (sub_nonneg.2 h0)]
    ring
  rw [em, ev] at this
  exact this

/-- **C68 (lognormal process and option prices).** The values simulated along different paths, and the
discounted payoffs of options, satisfy the assumptions of the previous theorems, mean and variance being
`lognorm_mean` and `lognorm_var`, and the mean of payoffs being `bscall`, `bsput`. -/
theorem C68_lognorm (hC : CorrOk corr D F) (hone : ∀ u ∈ D, ∀ k, corrAt corr u k k = 1)
    (hG : Draws P G) (hJ : GaussianDraws P G)
    (x0 r q sigma : κ → ℝ) (hx : ∀ k, 0 < x0 k) {fuel : ℕ} {steps : Steps ℝ} {i0 : ℤ}
    {tl : TArr ℝ} {grid : List ℝ} {t0 : ℝ} (h : Along fuel steps i0 tl grid t0)
    (hD : ∀ u ∈ tl.data, u ∈ D) (n : ℕ) :
    ∃ (X : ℝ → Ω → ι × κ → ℝ) (m : ℕ),
      (∀ ω, (lognormSDE (fun c => x0 c.2) (fun _ c => r c.2 - q c.2) (fun _ c => sigma c.2)
          (noise G (corrAt corr))).call
          fuel steps i0 tl (ω, n) = .ok (tl.data.map fun t => some (X t ω), (ω, m))) ∧
      ∀ t ∈ tl.data, t0 ≤ t → ∀ k, ∀ path : ℕ → ι, Function.Injective path →
        (MemLp (fun ω => X t ω (path 0, k)) 2 P ∧
         (Pairwise fun i j => IndepFun (fun ω => X t ω (path i, k)) (fun ω => X t ω (path j, k)) P) ∧
         (∀ i, IdentDistrib (fun ω => X t ω (path i, k)) (fun ω => X t ω (path 0, k)) P P)) ∧
        (∀ N, Uncorrelated P N (fun i ω => X t ω (path i, k))
          (lognormMean (x0 k) (r k - q k) (sigma k) (t - t0))
          (lognormVar (x0 k) (r k - q k) (sigma k) (t - t0))) ∧
        ∀ K, 0 < K → 0 ≤ sigma k →
          (∃ v, ∀ N, Uncorrelated P N (fun i ω => Real.exp (-r k * (t - t0)) * max (X t ω (path i, k) - K) 0)
            (bscall K (t - t0) (x0 k) (r k) (q k) (sigma k)) v) ∧
          (∃ v, ∀ N, Uncorrelated P N (fun i ω => Real.exp (-r k * (t - t0)) * max (K - X t ω (path i, k)) 0)
            (bsput K (t - t0) (x0 k) (r k) (q k) (sigma k)) v) := by
  obtain ⟨W, m, hW, he⟩ := C64_lognorm hC hG hJ (fun c => x0 c.2) (fun c => r c.2 - q c.2)
    (fun c => sigma c.2) (fun c => hx c.2) h hD n
  obtain ⟨h1, h2, h3⟩ := along_mem h
  refine ⟨fun t ω c => x0 c.2 * Real.exp ((r c.2 - q c.2 - sigma c.2 ^ 2 / 2) * (t - t0) +
    sigma c.2 * W t ω c.1 c.2), m, he, fun t ht h0 k path hp => ?_⟩
  beta_reduce
  have hl := hW.law ht (path 0) k
  rw [wienerCov_diag hC hone (hD _ h1) (hD _ ht) h0] at hl
  obtain ⟨m1, m2, m3⟩ := lognorm_moments (sub_nonneg.2 h0) hl (x0 k) (r k - q k) (sigma k)
  have iid : ∀ g : ℝ → ℝ, Measurable g → _ := fun g hg => paths_iid hW ht hp k
    (f := fun w => g (x0 k * Real.exp ((r k - q k - sigma k ^ 2 / 2) * (t - t0) + sigma k * w)))
    (hg.comp (by fun_prop))
  obtain ⟨i1, i2⟩ := iid id measurable_id
  refine ⟨⟨m1, i1, i2⟩, fun N => ?_, fun K hK hs => ⟨?_, ?_⟩⟩
  · have := uncorrelated_of_iid (N := N) (X := fun i ω => x0 k *
      Real.exp ((r k - q k - sigma k ^ 2 / 2) * (t - t0) + sigma k * W t ω (path i) k)) m1 i1 i2
    rw [m2, m3] at this
    exact this
  all_goals
    have key : ∀ f : ℝ → ℝ, Measurable f → ∫ ω, f (x0 k * Real.exp ((r k - q k - sigma k ^ 2 / 2) *
        (t - t0) + sigma k * W t ω (path 0) k)) ∂P =
          expected (t - t0) (x0 k) (r k) (q k) (sigma k) f := by
      intro f hf
      unfold expected
      exact hl.integral_comp (f := fun w => f (x0 k * Real.exp ((r k - q k - sigma k ^ 2 / 2) *
        (t - t0) + sigma k * w))) (by
          refine Measurable.aestronglyMeasurable ?_
          exact hf.comp (by fun_prop))
  · obtain ⟨j1, j2⟩ := iid (fun x => Real.exp (-r k * (t - t0)) * max (x - K) 0) (by fun_prop)
    refine ⟨Var[fun ω => Real.exp (-r k * (t - t0)) * max (x0 k *
      Real.exp ((r k - q k - sigma k ^ 2 / 2) * (t - t0) + sigma k * W t ω (path 0) k) - K) 0; P],
      fun N => ?_⟩
    have := uncorrelated_of_iid (N := N) (X := fun i ω => Real.exp (-r k * (t - t0)) * max (x0 k *
      Real.exp ((r k - q k - sigma k ^ 2 / 2) * (t - t0) + sigma k * W t ω (path i) k) - K) 0)
      ((m1.sub (memLp_const K)).pos_part.const_mul _) j1 j2
    rw [integral_const_mul, key (fun x => max (x - K) 0) (by fun_prop),
      ← C56_call _ _ hK (hx k) (sub_nonneg.2 h0) hs] at this
    exact this
  · obtain ⟨j1, j2⟩ := iid (fun x => Real.exp (-r k * (t - t0)) * max (K - x) 0) (by fun_prop)
    refine ⟨Var[fun ω => Real.exp (-r k * (t - t0)) * max (K - x0 k *
      Real.exp ((r k - q k - sigma k ^ 2 / 2) * (t - t0) + sigma k * W t ω (path 0) k)) 0; P],
      fun N => ?_⟩
    have := uncorrelated_of_iid (N := N) (X := fun i ω => Real.exp (-r k * (t - t0)) * max (K - x0 k *
      Real.exp ((r k - q k - sigma k ^ 2 / 2) * (t - t0) + sigma k * W t ω (path i) k)) 0)
      (((memLp_const K).sub m1).pos_part.const_mul _) j1 j2
    rw [integral_const_mul, key (fun x => max (K - x) 0) (by fun_prop),
      ← C56_put _ _ hK (hx k) (sub_nonneg.2 h0) hs] at this
    exact this

/-! ### Examples -/

/-- A sample of `N` numbers. -/
noncomputable def vecOf (N : ℕ) (x : ℕ → ℝ) : Batch ℝ := ⟨⟨[N], fun i => x (i.headD 0)⟩, -1⟩

theorem vecOf_ok (N : ℕ) (hN : 0 < N) (x : ℕ → ℝ) : Uniform [] [vecOf N x] ∧ NonEmpty "all" [vecOf N x] ∧
    pooled "all" [vecOf N x] [] = (List.range N).map x ∧ (vecOf N x).Valid "all" := by
  refine ⟨fun b hb => ?_, fun b hb => ?_, ?_, ?_⟩
  · rw [List.mem_singleton.1 hb]
    simp [vecOf, Batch.vshape, Batch.ax]
  · rw [List.mem_singleton.1 hb]
    simpa [vecOf, Batch.size, Batch.rawSize, Batch.ax] using hN
  · simp [pooled, Batch.data, Batch.raw, vecOf, Batch.ax]
  · simp [Batch.Valid, vecOf]

/-- Whatever the values, they can be cumulated, in a new instance with no histograms. -/
theorem exists_cumulates (ha : AutoOk auto) {N : ℕ} (hN : 0 < N) (X : ℕ → Ω → ℝ) :
    ∃ mc, Cumulates auto .none none "all" [] [] mc N X := by
  have : ∀ ω, ∃ mc', (MC.new .none none "all").update auto (vecOf N fun k => X k ω).x
      (vecOf N fun k => X k ω).axis = (mc', .ok ()) := fun ω =>
    C36_accepts_first ha (.inl rfl) (by simp) (vecOf_ok N hN _).2.2.2
  choose mc hmc using this
  refine ⟨mc, .nil, fun ω => ⟨_, [], .update (l := []) .new (hmc ω), ?_⟩⟩
  obtain ⟨h1, h2, h3, -⟩ := vecOf_ok N hN fun k => X k ω
  exact ⟨h1, h2, h3⟩

noncomputable def edges012 : Arr ℝ := ⟨[3], fun i => ((i.headD 0 : ℕ) : ℝ)⟩

/-- The same, in an instance with bins given by their edges. -/
theorem exists_cumulates_edges (ha : AutoOk auto) {N : ℕ} (hN : 0 < N) (X : ℕ → Ω → ℝ) :
    ∃ mc, Cumulates auto (.array edges012) none "all" [] [] mc N X := by
  have : ∀ ω, ∃ mc', (MC.new (.array edges012) none "all").update auto
      (vecOf N fun k => X k ω).x (vecOf N fun k => X k ω).axis = (mc', .ok ()) := fun ω =>
    C36_accepts_edges ha (a := edges012) (b := vecOf N fun k => X k ω) (n := 3)
      (by simp [edges012, vecOf, Batch.vshape, Batch.ax]) (by norm_num) (by
      intro c hc
      have : c = [] := List.length_eq_zero_iff.1 (by
        rw [hc.length]; simp [vecOf, Batch.vshape, Batch.ax])
      subst this
      simp [List.range_succ, edges012]) (vecOf_ok N hN _).2.2.2
  choose mc hmc using this
  refine ⟨mc, .nil, fun ω => ⟨_, [], .update (l := []) .new (hmc ω), ?_⟩⟩
  obtain ⟨h1, h2, h3, -⟩ := vecOf_ok N hN fun k => X k ω
  exact ⟨h1, h2, h3⟩

theorem noAutoR_ok : AutoOk (K := ℝ) fun _ _ _ => .error .valueError := fun _ _ _ _ h => by cases h

/-- The price of a call option at strike 9, on a lognormal process simulated along 5 paths, and its
error. -/
example : ∃ (Ω : Type) (_ : MeasurableSpace Ω) (P : Measure Ω)
    (rng : Rng (Ω × ℕ)) (X : ℝ → Ω → List ℕ × Unit → ℝ) (m : ℕ) (mc : Ω → MC ℝ) (M E : Ω → ℝ) (v : ℝ),
    (∀ ω, (lognormSDE (fun _ => 10) (fun _ _ => 1 / 20 - 0) (fun _ _ => 1 / 5)
        (plainNoise 5 [] rng)).call 10 .none 0 ⟨[2], [1, 2]⟩ (ω, 0) =
          .ok ([some (X 1 ω), some (X 2 ω)], (ω, m))) ∧
    (∀ ω, (MC.new .none none "all").update (fun _ _ _ => .error .valueError)
      ⟨[5], fun i => Real.exp (-(1 / 20) * (2 - 1)) * max (X 2 ω ([i.headD 0], ()) - 9) 0⟩ (-1) =
        (mc ω, .ok ())) ∧
    (∀ ω, ∃ a, (mc ω).mean = some a ∧ a.get [] = some (M ω)) ∧
    (∀ ω, ∃ a, (mc ω).stderr = .ok a ∧ a.get [] = some (E ω)) ∧
    ∫ ω, M ω ∂P = bscall 9 (2 - 1) 10 (1 / 20) 0 (1 / 5) ∧ Var[M; P] = v / 5 ∧
    ∫ ω, E ω ^ 2 ∂P = v / 5 := by
  obtain ⟨Ω, mΩ, P, N0, N, hP, h0, -, hN, hJ0, hJ⟩ := exists_rng
  obtain ⟨G, hG, hGJ, e⟩ := C64_source_plain (P := P) (N := N) 5 [] h0 hJ0
  obtain ⟨X, m, h1, h2⟩ := C68_lognorm (D := Set.univ) corrOk_none
    (by intro u _ k; simp [corrAt]) hG hGJ (fun _ => 10) (fun _ => 1 / 20) (fun _ => 0)
    (fun _ => 1 / 5) (fun _ => by norm_num) exAlongR (fun _ _ => trivial) 0
  rw [← e] at h1
  obtain ⟨-, -, h3⟩ := h2 2 (by simp) (by norm_num) () (fun i => [i]) (fun i j h => by simpa using h)
  obtain ⟨⟨v, h4⟩, -⟩ := h3 9 (by norm_num) (by norm_num)
  have h5 : ∀ ω, ∃ mc', (MC.new .none none "all").update (fun _ _ _ => .error .valueError)
      ⟨[5], fun i => Real.exp (-(1 / 20) * (2 - 1)) * max (X 2 ω ([i.headD 0], ()) - 9) 0⟩ (-1) =
        (mc', .ok ()) := fun ω =>
    C36_accepts_first noAutoR_ok (.inl rfl) (by simp) (vecOf_ok 5 (by norm_num) fun i =>
      Real.exp (-(1 / 20) * (2 - 1)) * max (X 2 ω ([i], ()) - 9) 0).2.2.2
  choose mc hmc using h5
  have hc : Cumulates (fun _ _ _ => .error .valueError) .none none "all" [] [] mc 5
      (fun i ω => Real.exp (-(1 / 20) * (2 - 1)) * max (X 2 ω ([i], ()) - 9) 0) := by
    refine ⟨.nil, fun ω => ⟨vecOf 5 fun i =>
      Real.exp (-(1 / 20) * (2 - 1)) * max (X 2 ω ([i], ()) - 9) 0, [], .update (l := []) .new (hmc ω), ?_⟩⟩
    obtain ⟨k1, k2, k3, -⟩ := vecOf_ok 5 (by norm_num) fun i =>
      Real.exp (-(1 / 20) * (2 - 1)) * max (X 2 ω ([i], ()) - 9) 0
    exact ⟨k1, k2, k3⟩
  obtain ⟨⟨M, m1, m2, m3, -⟩, h6⟩ := C68_unbiased noAutoR_ok hc (h4 5)
  obtain ⟨E, e1, e2⟩ := h6 (by norm_num)
  exact ⟨Ω, mΩ, P, seededRng N0 N, X, m, mc, M, E, v, h1, hmc, m1, e1, m2, by simpa using m3,
    by simpa using e2⟩

/-- Independent standard normal variates: mean and histogram of the first `n + 1` of them. -/
example : ∃ mc : ℕ → (ℕ → ℝ) → MC ℝ, ∀ᵐ ω ∂(Measure.infinitePi fun _ : ℕ => gaussianReal 0 1),
    Tendsto (fun n => (((mc n ω).counts []).getD 0 0 : ℝ) / (mc n ω).paths) atTop
      (𝓝 ((Measure.infinitePi fun _ : ℕ => gaussianReal 0 1).real {ω | inBin [0, 1, 2] 0 (ω 0)})) := by
  choose mc hmc using fun n => exists_cumulates_edges noAutoR_ok (Nat.succ_pos n)
    (fun (k : ℕ) (ω : ℕ → ℝ) => ω k)
  have hm : ∀ i, Measure.map (fun ω : ℕ → ℝ => ω i) (Measure.infinitePi fun _ : ℕ => gaussianReal 0 1) =
      gaussianReal 0 1 := fun i => Measure.infinitePi_map_eval _ i
  obtain ⟨e, he, -, h⟩ := C68_histogram (P := Measure.infinitePi fun _ : ℕ => gaussianReal 0 1) noAutoR_ok
    hmc (tendsto_add_atTop_nat 1) (measurable_pi_apply 0).aemeasurable
    (fun i j hij => (iIndepFun_infinitePi (fun _ => measurable_id)).indepFun hij)
    (fun i => ⟨(measurable_pi_apply i).aemeasurable, (measurable_pi_apply 0).aemeasurable, by
      rw [hm, hm]⟩)
  refine ⟨mc, h.mono fun ω hω => ?_⟩
  have := hω 0 (by rw [he]; simp [edges012])
  have e3 : e = [0, 1, 2] := by rw [he]; simp [List.range_succ, edges012]
  rw [e3] at this
  exact this

/-- Mean and variance of the same. -/
example : ∃ mc : ℕ → (ℕ → ℝ) → MC ℝ, ∃ M V : ℕ → (ℕ → ℝ) → ℝ,
    (∀ n ω, (∃ a, (mc n ω).mean = some a ∧ a.get [] = some (M n ω)) ∧
        ∃ a, (mc n ω).var = .ok a ∧ a.get [] = some (V n ω)) ∧
    ∀ᵐ ω ∂(Measure.infinitePi fun _ : ℕ => gaussianReal 3 4),
      Tendsto (fun n => M n ω) atTop (𝓝 3) ∧ Tendsto (fun n => V n ω) atTop (𝓝 4) := by
  choose mc hmc using fun n => exists_cumulates noAutoR_ok (Nat.succ_pos n)
    (fun (k : ℕ) (ω : ℕ → ℝ) => ω k)
  have hm : ∀ i, Measure.map (fun ω : ℕ → ℝ => ω i) (Measure.infinitePi fun _ : ℕ => gaussianReal 3 4) =
      gaussianReal 3 4 := fun i => Measure.infinitePi_map_eval _ i
  have hl : HasLaw (fun ω : ℕ → ℝ => ω 0) (gaussianReal 3 4)
      (Measure.infinitePi fun _ : ℕ => gaussianReal 3 4) :=
    ⟨(measurable_pi_apply 0).aemeasurable, hm 0⟩
  obtain ⟨M, V, h1, h2⟩ := C68_consistent (P := Measure.infinitePi fun _ : ℕ => gaussianReal 3 4)
    noAutoR_ok hmc (tendsto_add_atTop_nat 1) (by
      have := memLp_id_gaussianReal (μ := 3) (v := 4) 2
      exact (memLp_map_measure_iff (by rw [hm]; exact this.1) (measurable_pi_apply 0).aemeasurable).1
        (by rw [hm]; exact this))
    (fun i j hij => (iIndepFun_infinitePi (fun _ => measurable_id)).indepFun hij)
    (fun i => ⟨(measurable_pi_apply i).aemeasurable, (measurable_pi_apply 0).aemeasurable, by
      rw [hm, hm]⟩)
  refine ⟨mc, M, V, h1, h2.mono fun ω hω => ?_⟩
  have e1 : ∫ ω : ℕ → ℝ, ω 0 ∂(Measure.infinitePi fun _ : ℕ => gaussianReal 3 4) = 3 := by
    rw [hl.integral_eq]; exact integral_id_gaussianReal
  have e2 : Var[fun ω : ℕ → ℝ => ω 0; Measure.infinitePi fun _ : ℕ => gaussianReal 3 4] = 4 := by
    rw [hl.variance_eq, variance_id_gaussianReal]; rfl
  rw [e1, e2] at hω
  exact hω

/-- A Wiener process. -/
example : ∃ (Ω : Type) (_ : MeasurableSpace Ω) (P : Measure Ω) (rng : Rng (Ω × ℕ))
    (X : ℝ → Ω → List ℕ × Unit → ℝ) (m : ℕ),
    (∀ ω, (wienerSDE (fun _ => 10) (fun _ _ => 1 / 20) (fun _ _ => 1 / 5)
        (plainNoise 5 [] rng)).call 10 .none 0 ⟨[2], [1, 2]⟩ (ω, 0) =
          .ok ([some (X 1 ω), some (X 2 ω)], (ω, m))) ∧
    Uncorrelated P 5 (fun i ω => X 2 ω ([i], ())) (wienerMean 10 (1 / 20) (1 / 5) (2 - 1))
      (wienerVar 10 (1 / 20) (1 / 5) (2 - 1)) := by
  obtain ⟨Ω, mΩ, P, N0, N, hP, h0, -, hN, hJ0, hJ⟩ := exists_rng
  obtain ⟨G, hG, hGJ, e⟩ := C64_source_plain (P := P) (N := N) 5 [] h0 hJ0
  obtain ⟨X, m, h1, h2⟩ := C68_wiener (D := Set.univ) corrOk_none
    (by intro u _ k; simp [corrAt]) hG hGJ (fun _ => 10) (fun _ => 1 / 20)
    (fun _ => 1 / 5) exAlongR (fun _ _ => trivial) 0
  rw [← e] at h1
  obtain ⟨-, -, -, h3⟩ := h2 2 (by simp) (by norm_num) () (fun i => [i]) (fun i j h => by simpa using h)
  exact ⟨Ω, mΩ, P, seededRng N0 N, X, m, h1, h3 5⟩

end Sdepy
