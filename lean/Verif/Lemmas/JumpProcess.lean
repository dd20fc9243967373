import Verif.Spec.StrongN
import Verif.Props.JumpLaw
import Verif.Lemmas.CPoissonLawIdeal
import Mathlib.Probability.Independence.CharacteristicFunction
import Mathlib.Probability.Independence.Process.Basic
import Mathlib.Probability.Moments.Variance

/-!
# Compound Poisson processes, defined at all times of an interval
-/

set_option linter.unusedSectionVars false

open MeasureTheory ProbabilityTheory Real

namespace Sdepy

open Spec

/-! ### Mean and variance of compound Poisson variates -/

theorem hasSum_poisson_one (r : NNReal) :
    HasSum (fun n : ℕ => exp (-r) * r ^ n / n.factorial * (n : ℝ)) (r : ℝ) := by
  have h := (hasSum_one_poissonMeasure r).mul_left (r : ℝ)
  rw [mul_one] at h
  rw [← hasSum_nat_add_iff' 1]
  have e : (r : ℝ) - ∑ i ∈ Finset.range 1, exp (-r) * (r : ℝ) ^ i / i.factorial * (i : ℝ) = r := by simp
  rw [e]
  have e2 : (fun n : ℕ => exp (-r) * (r : ℝ) ^ (n + 1) / (n + 1).factorial * ((n + 1 : ℕ) : ℝ)) =
      fun n : ℕ => (r : ℝ) * (exp (-r) * r ^ n / n.factorial) := by
    funext n
    have : (n.factorial : ℝ) ≠ 0 := by exact_mod_cast n.factorial_ne_zero
    have h1 : (n : ℝ) + 1 ≠ 0 := by positivity
    push_cast [Nat.factorial_succ]
    field_simp
    ring
  rw [e2]
  exact h

theorem hasSum_poisson_two (r : NNReal) :
    HasSum (fun n : ℕ => exp (-r) * r ^ n / n.factorial * ((n : ℝ) * (n - 1))) ((r : ℝ) ^ 2) := by
  have h := (hasSum_one_poissonMeasure r).mul_left ((r : ℝ) ^ 2)
  rw [mul_one] at h
  rw [← hasSum_nat_add_iff' 2]
  have e : (r : ℝ) ^ 2 - ∑ i ∈ Finset.range 2, exp (-r) * (r : ℝ) ^ i / i.factorial * ((i : ℝ) * (i - 1)) =
      (r : ℝ) ^ 2 := by simp [Finset.sum_range_succ]
  rw [e]
  have e2 : (fun n : ℕ => exp (-r) * (r : ℝ) ^ (n + 2) / (n + 2).factorial * (((n + 2 : ℕ) : ℝ) * ((n + 2 : ℕ) - 1))) =
      fun n : ℕ => (r : ℝ) ^ 2 * (exp (-r) * r ^ n / n.factorial) := by
    funext n
    have : (n.factorial : ℝ) ≠ 0 := by exact_mod_cast n.factorial_ne_zero
    have h1 : (n : ℝ) + 1 ≠ 0 := by positivity
    have h2 : (n : ℝ) + 1 + 1 ≠ 0 := by positivity
    push_cast [Nat.factorial_succ]
    field_simp
    ring
  rw [e2]
  exact h

theorem poisson_moments (r : NNReal) :
    Integrable (fun n : ℕ => (n : ℝ)) (poissonMeasure r) ∧ ∫ n : ℕ, (n : ℝ) ∂poissonMeasure r = r ∧
    Integrable (fun n : ℕ => (n : ℝ) * (n - 1)) (poissonMeasure r) ∧
      ∫ n : ℕ, (n : ℝ) * (n - 1) ∂poissonMeasure r = (r : ℝ) ^ 2 := by
  have h0 : ∀ n : ℕ, 0 ≤ (n : ℝ) * (n - 1) := by
    intro n
    rcases n.eq_zero_or_pos with rfl | h
    · simp
    · have : (1 : ℝ) ≤ n := by exact_mod_cast h
      exact mul_nonneg (by linarith) (by linarith)
  refine ⟨?_, ?_, ?_, ?_⟩
  · rw [integrable_poissonMeasure_iff]
    refine (hasSum_poisson_one r).summable.congr fun n => ?_
    rw [Real.norm_of_nonneg (Nat.cast_nonneg n)]
  · rw [integral_poissonMeasure]
    simpa only [smul_eq_mul] using (hasSum_poisson_one r).tsum_eq
  · rw [integrable_poissonMeasure_iff]
    refine (hasSum_poisson_two r).summable.congr fun n => ?_
    rw [Real.norm_of_nonneg (h0 n)]
  · rw [integral_poissonMeasure]
    simpa only [smul_eq_mul] using (hasSum_poisson_two r).tsum_eq

section
variable {ν : Measure ℝ} [IsProbabilityMeasure ν]

theorem jumps_eval {f : ℝ → ℝ} (hf : AEStronglyMeasurable f ν) (k : ℕ) :
    ∫ y, f (y k) ∂(Measure.infinitePi fun _ : ℕ => ν) = ∫ x, f x ∂ν := by
  have h := Measure.infinitePi_map_eval (fun _ : ℕ => ν) k
  have h2 := integral_map (φ := fun y : ℕ → ℝ => y k) (μ := Measure.infinitePi fun _ : ℕ => ν) (f := f)
    (measurable_pi_apply k).aemeasurable (by rw [h]; exact hf)
  rw [h] at h2
  exact h2.symm

theorem jumps_memLp (h2 : MemLp id 2 ν) (k : ℕ) :
    MemLp (fun y : ℕ → ℝ => y k) 2 (Measure.infinitePi fun _ : ℕ => ν) := by
  have h := Measure.infinitePi_map_eval (fun _ : ℕ => ν) k
  have := (memLp_map_measure_iff (f := fun y : ℕ → ℝ => y k) (g := id) (p := 2)
    (μ := Measure.infinitePi fun _ : ℕ => ν) (by rw [h]; exact h2.aestronglyMeasurable)
    (measurable_pi_apply k).aemeasurable).1 (by rw [h]; exact h2)
  exact this

/-- Sums of a given number of jumps. -/
theorem jumps_sum (h2 : MemLp id 2 ν) (n : ℕ) :
    MemLp (fun y : ℕ → ℝ => ∑ k ∈ Finset.range n, y k) 2 (Measure.infinitePi fun _ : ℕ => ν) ∧
    ∫ y, ∑ k ∈ Finset.range n, y k ∂(Measure.infinitePi fun _ : ℕ => ν) = n * ∫ x, x ∂ν ∧
    ∫ y, (∑ k ∈ Finset.range n, y k) ^ 2 ∂(Measure.infinitePi fun _ : ℕ => ν) =
      n * ∫ x, x ^ 2 ∂ν + n * (n - 1) * (∫ x, x ∂ν) ^ 2 := by
  have hm := jumps_memLp h2
  have hI : iIndepFun (fun (k : ℕ) (y : ℕ → ℝ) => y k) (Measure.infinitePi fun _ : ℕ => ν) :=
    iIndepFun_infinitePi (X := fun _ w => w) fun _ => measurable_id
  have hmean : ∀ k, ∫ y, y k ∂(Measure.infinitePi fun _ : ℕ => ν) = ∫ x, x ∂ν :=
    fun k => jumps_eval (f := id) h2.aestronglyMeasurable k
  have hsq : ∀ k, ∫ y, y k ^ 2 ∂(Measure.infinitePi fun _ : ℕ => ν) = ∫ x, x ^ 2 ∂ν :=
    fun k => jumps_eval (f := fun x => x ^ 2) (by fun_prop) k
  refine ⟨memLp_finsetSum _ fun k _ => hm k, ?_, ?_⟩
  · rw [integral_finsetSum _ fun k _ => (hm k).integrable (by norm_num), Finset.sum_congr rfl fun k _ => hmean k]
    simp
  · have hvar := IndepFun.variance_sum (X := fun (k : ℕ) (y : ℕ → ℝ) => y k)
      (μ := Measure.infinitePi fun _ : ℕ => ν) (s := Finset.range n) (fun k _ => hm k)
      (fun i _ j _ hij => hI.indepFun hij)
    have hv1 : ∀ k, Var[fun y : ℕ → ℝ => y k; Measure.infinitePi fun _ : ℕ => ν] =
        ∫ x, x ^ 2 ∂ν - (∫ x, x ∂ν) ^ 2 := by
      intro k
      rw [variance_eq_sub (hm k), hmean k]
      simp only [Pi.pow_apply, hsq k]
    rw [Finset.sum_congr rfl fun k _ => hv1 k, Finset.sum_const, Finset.card_range, nsmul_eq_mul] at hvar
    have e : (∑ k ∈ Finset.range n, fun y : ℕ → ℝ => y k) = fun y => ∑ k ∈ Finset.range n, y k := by
      funext y
      simp
    rw [e, variance_eq_sub (memLp_finsetSum _ fun k _ => hm k),
      integral_finsetSum _ fun k _ => (hm k).integrable (by norm_num), Finset.sum_congr rfl fun k _ => hmean k] at hvar
    simp only [Pi.pow_apply, Finset.sum_const, Finset.card_range, nsmul_eq_mul] at hvar
    linear_combination hvar

/-- Mean and variance of compound Poisson variates. -/
theorem compound_moments {m : ℝ} (hm : 0 ≤ m) (h2 : MemLp id 2 ν) :
    MemLp id 2 (compoundPoisson m ν) ∧ ∫ x, x ∂compoundPoisson m ν = m * ∫ x, x ∂ν ∧
    ∫ x, (x - m * ∫ x, x ∂ν) ^ 2 ∂compoundPoisson m ν = m * ∫ x, x ^ 2 ∂ν := by
  set Q : Measure (ℕ → ℝ) := Measure.infinitePi fun _ : ℕ => ν with hQ
  set κ : Measure ℕ := poissonMeasure m.toNNReal with hκ
  have hr : (m.toNNReal : ℝ) = m := Real.coe_toNNReal m hm
  obtain ⟨p1, p2, p3, p4⟩ := poisson_moments m.toNNReal
  rw [hr] at p2 p4
  have hS := measurable_sumTo
  have hsq : Integrable (fun z : ℕ × (ℕ → ℝ) => (∑ i ∈ Finset.range z.1, z.2 i) ^ 2) (κ.prod Q) := by
    rw [integrable_prod_iff (hS.pow_const 2).aestronglyMeasurable]
    refine ⟨.of_forall fun n => (jumps_sum h2 n).1.integrable_sq, ?_⟩
    have e : (fun n : ℕ => ∫ y : ℕ → ℝ, ‖(∑ i ∈ Finset.range (n, y).1, (n, y).2 i) ^ 2‖ ∂Q) = fun n : ℕ =>
        (n : ℝ) * ∫ x, x ^ 2 ∂ν + n * (n - 1) * (∫ x, x ∂ν) ^ 2 := by
      funext n
      rw [← (jumps_sum h2 n).2.2]
      refine integral_congr_ae (.of_forall fun y => ?_)
      exact Real.norm_of_nonneg (sq_nonneg _)
    rw [e]
    exact (p1.mul_const _).add (p3.mul_const _)
  have hmem : MemLp (fun z : ℕ × (ℕ → ℝ) => ∑ i ∈ Finset.range z.1, z.2 i) 2 (κ.prod Q) :=
    (memLp_two_iff_integrable_sq hS.aestronglyMeasurable).2 hsq
  have hmem' : MemLp id 2 (compoundPoisson m ν) :=
    (memLp_map_measure_iff aestronglyMeasurable_id hS.aemeasurable).2 hmem
  have hint := hmem.integrable (by norm_num : (1 : ENNReal) ≤ 2)
  have i1 : ∫ z : ℕ × (ℕ → ℝ), ∑ i ∈ Finset.range z.1, z.2 i ∂(κ.prod Q) = m * ∫ x, x ∂ν := by
    rw [integral_prod _ hint]
    have e : (fun n : ℕ => ∫ y : ℕ → ℝ, ∑ i ∈ Finset.range (n, y).1, (n, y).2 i ∂Q) = fun n : ℕ =>
        (n : ℝ) * ∫ x, x ∂ν := funext fun n => (jumps_sum h2 n).2.1
    rw [e, integral_mul_const, p2]
  have i2 : ∫ z : ℕ × (ℕ → ℝ), (∑ i ∈ Finset.range z.1, z.2 i) ^ 2 ∂(κ.prod Q) =
      m * ∫ x, x ^ 2 ∂ν + m ^ 2 * (∫ x, x ∂ν) ^ 2 := by
    rw [integral_prod _ hsq]
    have e : (fun n : ℕ => ∫ y : ℕ → ℝ, (∑ i ∈ Finset.range (n, y).1, (n, y).2 i) ^ 2 ∂Q) = fun n : ℕ =>
        (n : ℝ) * ∫ x, x ^ 2 ∂ν + n * (n - 1) * (∫ x, x ∂ν) ^ 2 := funext fun n => (jumps_sum h2 n).2.2
    rw [e, integral_add (p1.mul_const _) (p3.mul_const _), integral_mul_const, integral_mul_const, p2, p4]
  have k1 : ∫ x, x ∂compoundPoisson m ν = m * ∫ x, x ∂ν := by
    rw [← i1]
    exact integral_map hS.aemeasurable aestronglyMeasurable_id
  have k2 : ∫ x, x ^ 2 ∂compoundPoisson m ν = m * ∫ x, x ^ 2 ∂ν + m ^ 2 * (∫ x, x ∂ν) ^ 2 := by
    rw [← i2]
    exact integral_map hS.aemeasurable (by fun_prop)
  refine ⟨hmem', k1, ?_⟩
  have hi1 : Integrable (fun x : ℝ => x) (compoundPoisson m ν) := hmem'.integrable (by norm_num)
  have hi2 : Integrable (fun x : ℝ => x ^ 2) (compoundPoisson m ν) := hmem'.integrable_sq
  set a := ∫ x, x ∂ν
  have e : (fun x : ℝ => (x - m * a) ^ 2) = fun x => x ^ 2 - 2 * (m * a) * x + (m * a) ^ 2 := by
    funext x; ring
  have hi3 : Integrable (fun x : ℝ => x ^ 2 - 2 * (m * a) * x) (compoundPoisson m ν) := hi2.sub (hi1.const_mul _)
  rw [e, integral_add hi3 (integrable_const _), integral_sub hi2 (hi1.const_mul _),
    integral_const_mul, k1, k2]
  simp
  ring

end

/-! ### Sums over marked points -/

section
variable {E : Type} [MeasurableSpace E]

/-- Sum of `h` over a random number of marks. -/
def markSum (h : E → ℝ) (z : ℕ × (ℕ → E)) : ℝ := ∑ k ∈ Finset.range z.1, h (z.2 k)

/-- A Poisson number of independent marks of law `ρ`. -/
noncomputable def markLaw (m : ℝ) (ρ : Measure E) : Measure (ℕ × (ℕ → E)) :=
  (poissonMeasure m.toNNReal).prod (Measure.infinitePi fun _ : ℕ => ρ)

instance (m : ℝ) (ρ : Measure E) [IsProbabilityMeasure ρ] : IsProbabilityMeasure (markLaw m ρ) := by
  unfold markLaw; infer_instance

theorem measurable_markSum {h : E → ℝ} (hh : Measurable h) : Measurable (markSum h) := by
  unfold markSum
  refine measurable_from_prod_countable_right fun n => ?_
  simp only
  fun_prop

theorem markSum_law (m : ℝ) (ρ : Measure E) [IsProbabilityMeasure ρ] {h : E → ℝ} (hh : Measurable h) :
    (markLaw m ρ).map (markSum h) = compoundPoisson m (ρ.map h) := by
  have e : (fun z : ℕ × (ℕ → E) => ∑ k ∈ Finset.range z.1, h (z.2 k)) =
      (fun z : ℕ × (ℕ → ℝ) => ∑ i ∈ Finset.range z.1, z.2 i) ∘ Prod.map id fun y k => h (y k) := rfl
  unfold compoundPoisson markLaw markSum
  haveI := Measure.isProbabilityMeasure_map (μ := ρ) hh.aemeasurable
  rw [e, ← Measure.map_map measurable_sumTo (by fun_prop), ← Measure.map_prod_map _ _ measurable_id (by fun_prop),
    Measure.map_id, Measure.infinitePi_map_pi _ (fun _ => hh)]

theorem compoundPoisson_chf {m : ℝ} (hm : 0 ≤ m) (ν : Measure ℝ) [IsProbabilityMeasure ν] (u : ℝ) :
    charFun (compoundPoisson m ν) u = Complex.exp (m * (charFun ν u - 1)) := by
  have h := charFun_jumpDiffLaw 0 0 m ν hm (h := 1) zero_le_one u
  rw [← compoundPoisson_eq, mul_one] at h
  rw [h, charFun_apply_real]
  congr 1
  simp only [Complex.ofReal_zero, Complex.ofReal_one]
  have e : ∀ x : ℝ, Complex.I * u * x = u * x * Complex.I := fun x => by ring
  simp only [e]
  ring

theorem markSum_chf {m : ℝ} (hm : 0 ≤ m) (ρ : Measure E) [IsProbabilityMeasure ρ] {h : E → ℝ} (hh : Measurable h) :
    ∫ z, Complex.exp (markSum h z * Complex.I) ∂markLaw m ρ =
      Complex.exp (m * ∫ e, (Complex.exp (h e * Complex.I) - 1) ∂ρ) := by
  haveI := Measure.isProbabilityMeasure_map (μ := ρ) hh.aemeasurable
  have h1 := compoundPoisson_chf hm (ρ.map h) 1
  rw [← markSum_law m ρ hh, charFun_apply_real, charFun_apply_real,
    integral_map (measurable_markSum hh).aemeasurable (Measurable.aestronglyMeasurable (by fun_prop)),
    integral_map hh.aemeasurable (Measurable.aestronglyMeasurable (by fun_prop))] at h1
  simp only [Complex.ofReal_one, one_mul] at h1
  rw [h1, integral_sub _ (integrable_const _)]
  · simp
  · refine Integrable.mono' (integrable_const (1 : ℝ)) (Measurable.aestronglyMeasurable (by fun_prop))
      (.of_forall fun e => ?_)
    rw [Complex.norm_exp_ofReal_mul_I]

end

end Sdepy
