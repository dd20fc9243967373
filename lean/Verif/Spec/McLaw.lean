import Verif.Spec.MonteCarlo
import Mathlib.Probability.Moments.Variance
import Mathlib.Probability.Moments.Covariance

/-!
# Random samples cumulated by `montecarlo`
-/

namespace Sdepy.Spec

open MeasureTheory ProbabilityTheory

variable {Ω : Type} [MeasurableSpace Ω]

/-- Whatever happens, `mc` has cumulated one or more samples of data points of shape `vs`, and the values
of component `c` in them are in total `N`, namely `X 0`, ... `X (N-1)`. -/
structure Cumulates (auto : String → Option (ℝ × ℝ) → List ℝ → Py (List ℝ)) (bins : Bins ℝ)
    (range : Option (ℝ × ℝ)) (use : String) (vs c : List ℕ) (mc : Ω → MC ℝ) (N : ℕ)
    (X : ℕ → Ω → ℝ) : Prop where
  cell : InRange vs c
  history : ∀ ω, ∃ b l, McHistory auto bins range use (b :: l) (mc ω) ∧ Uniform vs (b :: l) ∧
    NonEmpty use (b :: l) ∧ pooled use (b :: l) c = (List.range N).map fun k => X k ω

/-- The first `N` variables are square integrable, have mean `m` and variance `v`, and are not
correlated. -/
structure Uncorrelated (P : Measure Ω) (N : ℕ) (X : ℕ → Ω → ℝ) (m v : ℝ) : Prop where
  memLp : ∀ k < N, MemLp (X k) 2 P
  mean : ∀ k < N, ∫ ω, X k ω ∂P = m
  var : ∀ k < N, Var[X k; P] = v
  cov : ∀ j < N, ∀ k < N, j ≠ k → cov[X j, X k; P] = 0

end Sdepy.Spec
