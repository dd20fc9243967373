import Verif.Spec.Cov
import Verif.Model.TrueWiener

/-!
# What is expected of a Wiener source with memory
-/

open MeasureTheory ProbabilityTheory Matrix

namespace Sdepy.Spec

variable {Ω ι κ : Type} [MeasurableSpace Ω] [Fintype κ] [DecidableEq κ] [DecidableEq ι]

/-- What the random generator provides: the `n`-th call to `rng.multivariate_normal`, with mean zero
and covariance matrix `c` (`rng.normal` for `c = 1`), returns variates with this mean and covariance,
not correlated across cells other than along the last axis, nor with those of other calls. -/
structure Normals (P : Measure Ω) (N : ℕ → Matrix κ κ ℝ → Ω → ι → κ → ℝ) : Prop where
  l2 : ∀ n c i, L2 P (fun ω => N n c ω i)
  mean : ∀ n c i, meanV P (fun ω => N n c ω i) = 0
  cov : ∀ n c i j, c.PosSemidef →
    covM P (fun ω => N n c ω i) (fun ω => N n c ω j) = if i = j then c else 0
  uncorr : ∀ n c i m c' j, n ≠ m → covM P (fun ω => N n c ω i) (fun ω => N m c' ω j) = 0

/-- What the underlying `wiener_source` provides (property C21): the `n`-th evaluation, with
correlation matrix `c`, returns variates with mean zero and covariance matrix `|dt| * c`, not
correlated across cells other than along the last axis, and not correlated with those of other
evaluations. -/
structure Draws (P : Measure Ω) (G : ℕ → Matrix κ κ ℝ → ℝ → ℝ → Ω → ι → κ → ℝ) : Prop where
  l2 : ∀ n c t dt i, L2 P (fun ω => G n c t dt ω i)
  mean : ∀ n c t dt i, meanV P (fun ω => G n c t dt ω i) = 0
  cov : ∀ n c t dt i j, c.PosSemidef →
    covM P (fun ω => G n c t dt ω i) (fun ω => G n c t dt ω j) = if i = j then |dt| • c else 0
  uncorr : ∀ n c t dt i m c' t' dt' j, n ≠ m →
    covM P (fun ω => G n c t dt ω i) (fun ω => G m c' t' dt' ω j) = 0

/-- The source that makes these evaluations: the state holds the outcome of the random experiment,
and the number of evaluations made so far. -/
def seeded (G : ℕ → Matrix κ κ ℝ → ℝ → ℝ → Ω → ι → κ → ℝ) : DW ι κ (Ω × ℕ) :=
  fun c t dt s => .ok (G s.2 (c.getD 1) t dt s.1, (s.1, s.2 + 1))

/-- Correlation matrix at any time. -/
def corrAt (corr : Corr κ) : ℝ → Matrix κ κ ℝ :=
  match corr with
  | .none => fun _ => 1
  | .const C => fun _ => C
  | .fn C => C

/-- `F` is an integral of `C` on the times `D`: the mean of `C` between two times is attained in the
middle. It is so for constant correlations, and for those depending linearly on time. -/
def MidIntegral (D : Set ℝ) (C F : ℝ → Matrix κ κ ℝ) : Prop :=
  ∀ u ∈ D, ∀ v ∈ D, F v - F u = (v - u) • C ((u + v) / 2)

/-- Correlations fit for use on the times `D`: positive semidefinite, exactly integrated by the midpoint rule,
and not singular if they depend on time. -/
structure CorrOk (corr : Corr κ) (D : Set ℝ) (F : ℝ → Matrix κ κ ℝ) : Prop where
  conn : D.OrdConnected
  mid : MidIntegral D (corrAt corr) F
  psd : ∀ t ∈ D, (corrAt corr t).PosSemidef
  inv : ∀ C, corr = .fn C → ∀ t ∈ D, (C t).det ≠ 0

/-- Covariance of `w(u)` and `w(v)`, for a Wiener process starting at `t0` in both directions, with
correlations that integrate to `F`: the integral of correlations over the times common to the paths
from `t0` to `u` and from `t0` to `v`. -/
noncomputable def wienerCov (F : ℝ → Matrix κ κ ℝ) (t0 u v : ℝ) : Matrix κ κ ℝ :=
  if t0 ≤ u ∧ t0 ≤ v then F (min u v) - F t0
  else if u ≤ t0 ∧ v ≤ t0 then F t0 - F (max u v)
  else 0

end Sdepy.Spec
