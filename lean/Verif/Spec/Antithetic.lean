import Verif.Spec.Presets
import Mathlib.Algebra.BigOperators.Pi

/-!
# Simulations with antithetic paths
-/

namespace Sdepy.Spec

open BigOperators

variable {K κ : Type} {n : ℕ}

/-- Path `i` of the first half, out of `2*n` paths. -/
def fstHalf (i : Fin n) : Fin (2 * n) := ⟨i, by omega⟩

/-- The path paired with path `i` of the first half. -/
def sndHalf (i : Fin n) : Fin (2 * n) := ⟨n + i, by omega⟩

/-- Increments in the second half of the paths are the opposite of those in the first half. -/
def OddSource [Neg K] {σ : Type} (z : Src K (Fin (2 * n) × κ) σ) : Prop :=
  ∀ t dt s v s', z t dt s = .ok (v, s') → ∀ i k, v (sndHalf i, k) = -v (fstHalf i, k)

/-- Euler's method for the ordinary differential equation `m' = p + Q m`, visiting the given times in order. -/
def NoiseFreeEuler [Field K] [Fintype κ] (p : K → κ → K) (Q : K → κ → κ → K) (m : K → κ → K) (ts : List K) : Prop :=
  ts.IsChain fun u v => ∀ k, m v k = m u k + (p u k + ∑ l, Q u k l * m u l) * (v - u)

end Sdepy.Spec
