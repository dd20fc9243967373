import Verif.Model.Sources
import Verif.Spec.Wiener
import Verif.Spec.Params

/-!
# What is expected of sources without memory
-/

open MeasureTheory ProbabilityTheory Matrix

namespace Sdepy.Spec

variable {Ω : Type} [MeasurableSpace Ω]

/-- What the random generator provides: the `n`-th call to `rng.normal` returns variates with mean
zero and variance one, not correlated with each other, nor with those of other calls. -/
structure StdNormals (P : Measure Ω) (N : ℕ → Ω → List ℕ → ℝ) : Prop where
  l2 : ∀ n i, MemLp (fun ω => N n ω i) 2 P
  mean : ∀ n i, ∫ ω, N n ω i ∂P = 0
  cov : ∀ n i m j, cov[fun ω => N n ω i, fun ω => N m ω j; P] = if n = m ∧ i = j then 1 else 0

/-- The generator that returns the variates `N0` and `N M`: its state holds the outcome of the random
experiment, and the number of calls made so far. -/
noncomputable def seededRng (N0 : ℕ → Ω → List ℕ → ℝ)
    (N : (M : ℕ) → ℕ → Matrix (Fin M) (Fin M) ℝ → Ω → List ℕ → Fin M → ℝ) : Rng (Ω × ℕ) where
  normal _ s := (N0 s.2 s.1, (s.1, s.2 + 1))
  mvn M c _ s := (fun i k => if h : k < M then N M s.2 (toMatrix M c) s.1 i ⟨k, h⟩ else 0,
    (s.1, s.2 + 1))

/-- Matrix of an array of shape `(M, M)` or `(M, M, 1)`. -/
def squareMatrix (M : ℕ) (c : Arr ℝ) : Matrix (Fin M) (Fin M) ℝ :=
  Matrix.of fun i j => c.get (if c.shape = [M, M] then [i, j] else [i, j, 0])

/-- The correlation matrix `C` at time `τ`. -/
inductive CorrIs (M : ℕ) : Param ℝ → ℝ → Matrix (Fin M) (Fin M) ℝ → Prop
  | const {c : Arr ℝ} (τ : ℝ) : c.shape = [M, M] ∨ c.shape = [M, M, 1] →
      CorrIs M (.arr c) τ (squareMatrix M c)
  | fn {sh : Option (List ℕ)} {f : ℝ → Py (Arr ℝ)} {c : Arr ℝ} (τ : ℝ) : f τ = .ok c →
      c.shape = [M, M] ∨ c.shape = [M, M, 1] → CorrIs M (.fn sh f) τ (squareMatrix M c)

/-- The items of a list are visited in order, each of them making a step from a state to the next. -/
inductive Visits {ι σ : Type} (step : ι → σ → σ → Prop) : List ι → σ → σ → Prop
  | nil (s : σ) : Visits step [] s s
  | cons {i : ι} {is : List ι} {s s1 s2 : σ} : step i s s1 → Visits step is s1 s2 →
      Visits step (i :: is) s s2

/-- The intensity at time `τ` is `L`. -/
inductive LamIs {T : Type} : Param T → T → Arr T → Prop
  | const {a : Arr T} (τ : T) : LamIs (.arr a) τ a
  | fn {sh : Option (List ℕ)} {f : T → Py (Arr T)} {a : Arr T} {τ : T} : f τ = .ok a →
      LamIs (.fn sh f) τ a

/-- Row `r` of the `m`-th of the samples `ys` is used for the cell `c`, if `slot c = (m, r)`.
Each of the `cells` is assigned a row of as many variates as the number of jumps `num c`, sampled
as appropriate for it (`D c`), and holds their sum, times `sg c`. Each row is used for exactly one
cell. -/
def SumsOf {Y : Type} [CommRing Y] (cells : Set (List ℕ)) (sg num : List ℕ → ℤ)
    (D : List ℕ → YSample Y → Prop) (val : List ℕ → Y) (ys : List (YSample Y)) : Prop :=
  ∃ slot : List ℕ → ℕ × ℕ,
    (∀ c ∈ cells, ∃ y, ys[(slot c).1]? = some y ∧ (slot c).2 < y.n ∧ (y.j : ℤ) = num c ∧ D c y ∧
      val c = sg c * ∑ k ∈ Finset.range y.j, y.val (slot c).2 k) ∧
    (∀ c ∈ cells, ∀ c' ∈ cells, slot c = slot c' → c = c') ∧
    (∀ m y r, ys[m]? = some y → r < y.n → ∃ c ∈ cells, slot c = (m, r))

end Sdepy.Spec
