import Verif.Spec.Sources
import Mathlib.MeasureTheory.Measure.Prod
import Mathlib.Probability.HasLaw
import Mathlib.Probability.Independence.Basic
import Mathlib.Probability.Distributions.Poisson.Basic
import Mathlib.Probability.ProductMeasure

/-!
# Draws from a random generator, and processes with independent increments
-/

open MeasureTheory ProbabilityTheory

namespace Sdepy.Spec

variable {σ A : Type}

/-- Values drawn by `f` from a random generator, whose state is distributed as `μ`: `f` never fails,
its values have law `ν`, and whatever the value, the generator is left in a state that is again
distributed as `μ`, so that later draws are independent of it. -/
def DrawsLaw [MeasurableSpace σ] [MeasurableSpace A] (μ : Measure σ) (ν : Measure A)
    (f : σ → Py (A × σ)) : Prop :=
  ∃ g : σ → A × σ, Measurable g ∧ (∀ s, f s = .ok (g s)) ∧ μ.map g = ν.prod μ

/-- On the times in `D`, the process `X` is null at `t0`, and its increments, over time intervals that do
not overlap, are independent; the law of an increment depends on the length of the interval only, and
is given by `law`. -/
structure IsLevyProcess [MeasurableSpace σ] [MeasurableSpace A] [AddCommGroup A] (μ : Measure σ)
    (law : ℝ → Measure A) (t0 : ℝ) (D : Set ℝ) (X : ℝ → σ → A) : Prop where
  start : ∀ s, X t0 s = 0
  law : ∀ a ∈ D, ∀ b ∈ D, a < b → HasLaw (fun s => X b s - X a s) (law (b - a)) μ
  indep : ∀ (n : ℕ) (t : Fin (n + 1) → ℝ), StrictMono t → (∀ k, t k ∈ D) →
    iIndepFun (fun (k : Fin n) s => X (t k.succ) s - X (t k.castSucc) s) μ

/-- The law of the sum of a random number of independent variates, each of law `ν`, their number being a
Poisson variate of mean `m`. -/
noncomputable def compoundPoisson (m : ℝ) (ν : Measure ℝ) : Measure ℝ :=
  ((poissonMeasure m.toNNReal).prod (Measure.infinitePi fun _ : ℕ => ν)).map
    fun z => ∑ i ∈ Finset.range z.1, z.2 i

/-- Cells of an array of given shape. -/
abbrev Cells (shape : List ℕ) := {i : List ℕ // InRange shape i}

noncomputable instance (shape : List ℕ) : Fintype (Cells shape) :=
  Fintype.ofInjective (fun c : Cells shape => (⟨c.1, mem_ndindex.2 c.2⟩ : {i // i ∈ ndindex shape}))
    fun a b h => Subtype.ext (by simpa using h)

/-- What the random generator provides to Poisson sources: independent Poisson variates with the means
asked for. -/
def PoissonDraws [MeasurableSpace σ] (μ : Measure σ)
    (draw : (List ℕ → ℝ) → List ℕ → σ → (List ℕ → ℤ) × σ) : Prop :=
  ∀ l size, (∀ i, InRange size i → 0 ≤ l i) →
    DrawsLaw μ (Measure.pi fun c : Cells size => (poissonMeasure (l c).toNNReal).map ((↑) : ℕ → ℤ))
      fun s => .ok (fun c => (draw l size s).1 c, (draw l size s).2)

/-- Random variates of law `ν`: arrays of any shape `(n, j)` of independent ones. -/
def VariatesLaw [MeasurableSpace σ] (μ : Measure σ) (ν : Measure ℝ) (rvs : Rvs ℝ σ) : Prop :=
  ∀ n j, DrawsLaw μ (Measure.pi fun _ : Fin n => Measure.pi fun _ : Fin j => ν)
    fun s => (rvs n j s).map fun r => (fun (a : Fin n) (b : Fin j) => r.1 a b, r.2)

end Sdepy.Spec
