import Verif.Model.Params
import Mathlib.LinearAlgebra.Matrix.PosDef

/-!
# What is expected of correlation matrices and of the set up of sources
-/

namespace Sdepy.Spec

variable {K : Type} [Zero K] [One K]

/-- `C` is the matrix that correlates the `i`-th and `n + i`-th of `2 * n` values by `r i`. -/
def RhoMatrix (n : ℕ) (r : ℕ → K) (C : Arr K) : Prop :=
  C.shape = [2 * n, 2 * n] ∧ ∀ i < 2 * n, ∀ j < 2 * n,
    C.get [i, j] = if i = j then 1 else if j = n + i then r i else if i = n + j then r j else 0

/-- `rho` is an array of `n` correlations `r`: a scalar, a vector, or a vector with a trailing axis
of size 1. -/
inductive RhoArr : Arr K → ℕ → (ℕ → K) → Prop
  | scalar (g : List ℕ → K) : RhoArr ⟨[], g⟩ 1 (fun _ => g [])
  | vec (n : ℕ) (g : List ℕ → K) : RhoArr ⟨[n], g⟩ n (fun k => g [k])
  | vec1 (n : ℕ) (g : List ℕ → K) : RhoArr ⟨[n, 1], g⟩ n (fun k => g [k, 0])

/-- The shape of a square matrix, possibly with a trailing axis of size 1. -/
def SquareShape (s : List ℕ) : Prop := ∃ n, s = [n, n] ∨ s = [n, n, 1]

/-- The matrix with the entries of an array. -/
def toMatrix (n : ℕ) (C : Arr K) : Matrix (Fin n) (Fin n) K := Matrix.of fun i j => C.get [i, j]

/-- The matrix-valued function `c` has, at each time, the matrix of the correlations `f` at that time; it
raises when `f` does, and a `ValueError` if the value of `f` is not an array of correlations. -/
def Follows (f c : K → Py (Arr K)) : Prop :=
  ∀ t, (∀ e, f t = .error e → c t = .error e) ∧
    ∀ a, f t = .ok a → (∀ n r, RhoArr a n r → ∃ C, c t = .ok C ∧ RhoMatrix n r C) ∧
      ((¬ ∃ n r, RhoArr a n r) → c t = .error .valueError)

end Sdepy.Spec
