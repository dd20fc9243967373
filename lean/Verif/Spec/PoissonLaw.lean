import Verif.Py
import Mathlib.MeasureTheory.Measure.Typeclasses.Probability
import Mathlib.MeasureTheory.Measure.MeasureSpace
import Mathlib.Analysis.SpecialFunctions.Exp

/-!
# What is expected of a Poisson source with memory: the law of its values
-/

open MeasureTheory

namespace Sdepy.Spec

variable {ι σ : Type} [Fintype ι]

/-- Probability that a Poisson variate with mean `m` takes the value `k`. -/
noncomputable def poissonProb (m : ℝ) (k : ℤ) : ℝ :=
  if 0 ≤ k then Real.exp (-m) * m ^ k.toNat / (k.toNat.factorial : ℝ) else 0

/-- Probability of `k` successes out of `n` independent trials, each with probability `p`. -/
noncomputable def binomialProb (n : ℤ) (p : ℝ) (k : ℤ) : ℝ :=
  if 0 ≤ k ∧ k ≤ n then (n.toNat.choose k.toNat : ℝ) * p ^ k.toNat * (1 - p) ^ (n - k).toNat else 0

/-- Probability that a Poisson process of intensity `lam`, known to be at `x a` at the first of the
times given, in increasing order, is at `x t` at each one `t` of the others, in all of its cells:
increments are independent Poisson variates, with mean `lam` times the time elapsed. -/
noncomputable def poissonPathProb (lam : ℝ) (x : ℝ → ι → ℤ) : List ℝ → ℝ
  | a :: b :: l => (∏ i, poissonProb (lam * (b - a)) (x b i - x a i)) * poissonPathProb lam x (b :: l)
  | _ => 1

/-- What the random generator provides. The state `σ` of the generator is distributed as `μ`. A
Poisson draw over a time step `dt` returns `d` with the probability that independent Poisson variates
with mean `lam * |dt|`, with the sign of `dt`, take the value `d`; a binomial draw returns `d` with
the binomial probability of it. Whatever the draw, the generator is left in a state that does not
depend on the outcome, and is again distributed as `μ`: later draws are independent of it. -/
structure PoissonGenerator [MeasurableSpace σ] (μ : Measure σ) (lam : ℝ)
    (dn : ℝ → ℝ → σ → Py ((ι → ℤ) × σ)) (binomial : (ι → ℤ) → ℝ → σ → (ι → ℤ) × σ) : Prop where
  poisson : ∀ t dt, dt ≠ 0 → ∀ (d : ι → ℤ) (B : Set σ), MeasurableSet B →
    MeasurableSet {s | ∃ s' ∈ B, dn t dt s = .ok (d, s')} ∧
    μ {s | ∃ s' ∈ B, dn t dt s = .ok (d, s')} =
      ENNReal.ofReal (∏ i, poissonProb (lam * |dt|) (if 0 < dt then d i else -d i)) * μ B
  binomial : ∀ n p, (∀ i, 0 ≤ n i) → 0 ≤ p → p ≤ 1 → ∀ (d : ι → ℤ) (B : Set σ), MeasurableSet B →
    MeasurableSet {s | (binomial n p s).1 = d ∧ (binomial n p s).2 ∈ B} ∧
    μ {s | (binomial n p s).1 = d ∧ (binomial n p s).2 ∈ B} =
      ENNReal.ofReal (∏ i, binomialProb (n i) p (d i)) * μ B

/-- `L` lists in increasing order, and without repetition, the times in `l`. -/
def Sorts (L l : List ℝ) : Prop := L.Pairwise (· < ·) ∧ ∀ u, u ∈ L ↔ u ∈ l

/-- No two different times are taken for the same within the relative tolerance `rtol`. -/
def ApartTimes (rtol : ℝ) (l : List ℝ) : Prop :=
  ∀ a ∈ l, ∀ b ∈ l, a ≠ b → ¬ |a - b| ≤ rtol * |b|

end Sdepy.Spec
