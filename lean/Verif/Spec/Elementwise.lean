import Verif.Spec.ArrSDE

/-!
# What is expected of functions of array arguments
-/

namespace Sdepy.Spec

/-- Arrays with these shapes can be given to the same cells, and cells of shape `S` are what it takes: each
axis of size other than one is the axis of one of the shapes, and there are no more axes than needed. -/
structure Joint (shapes : List (List ℕ)) (S : List ℕ) : Prop where
  fits : ∀ s ∈ shapes, Fits s S
  length_le : ∀ s ∈ shapes, s.length ≤ S.length
  sizes : ∀ j, sizeFromLast S j ≠ 1 → ∃ s ∈ shapes, sizeFromLast s j = sizeFromLast S j
  length : S ≠ [] → ∃ s ∈ shapes, s.length = S.length

/-- The function `F` of arrays is the function `f` of numbers, for each cell: values of arguments for a cell
are those that the arrays, aligned from their last axes, give to the cell. If there are no such cells,
`ValueError` is raised. -/
def Elementwise {n : ℕ} {α β : Type} (F : (Fin n → Arr α) → Py (Arr β)) (f : (Fin n → α) → β) : Prop :=
  ∀ a : Fin n → Arr α,
    (∀ S, Joint (List.ofFn fun j => (a j).shape) S → ∃ r, F a = .ok r ∧ r.shape = S ∧
      ∀ c, InRange S c → r.get c = f fun j => cellValue (a j) c) ∧
    ((¬ ∃ S, Joint (List.ofFn fun j => (a j).shape) S) → F a = .error .valueError)

/-! ### Parameters of a process with two factors -/

/-- A parameter of a process with two factors is a number, or a vector with a value for each factor, or has
the axis of factors before its last axis; the axis of factors may be of size one. -/
def FactorShape (s : List ℕ) : Prop :=
  (s.length = 1 → s = [1] ∨ s = [2]) ∧
  (2 ≤ s.length → sizeFromLast s 1 = 1 ∨ sizeFromLast s 1 = 2)

/-- Axes of a parameter, but for the one of factors. -/
def otherAxes (s : List ℕ) : List ℕ :=
  if s.length ≤ 1 then [] else s.dropLast.dropLast ++ s.drop (s.length - 1)

/-- Value of a parameter for factor `f`, and cell `c`. -/
def factorValue (a : Arr ℝ) (f : Fin 2) (c : List ℕ) : ℝ :=
  match a.shape with
  | [] => a.get []
  | [n] => a.get [min f (n - 1)]
  | _ => cellValue a (insertFactor c f)

/-- A function `F` of the parameters of a process with two factors, and of more arguments, is the function
`f` of numbers, for each cell. -/
def Factorwise {n m : ℕ} {β : Type} (F : (Fin n → Arr ℝ) → (Fin m → Arr ℝ) → Py (Arr β))
    (f : (Fin n → Fin 2 → ℝ) → (Fin m → ℝ) → β) (p : Fin n → Arr ℝ) (a : Fin m → Arr ℝ) : Prop :=
  (∀ S, Joint ((List.ofFn fun j => otherAxes (p j).shape) ++ List.ofFn fun j => (a j).shape) S →
    ∃ r, F p a = .ok r ∧ r.shape = S ∧
      ∀ c, InRange S c → r.get c = f (fun j k => factorValue (p j) k c) (fun j => cellValue (a j) c)) ∧
  ((¬ ∃ S, Joint ((List.ofFn fun j => otherAxes (p j).shape) ++ List.ofFn fun j => (a j).shape) S) →
    F p a = .error .valueError)

/-- Parameters are all numbers or vectors, or none is a vector with two items. -/
def Unmixed {n : ℕ} (p : Fin n → Arr ℝ) : Prop :=
  (∀ j, (p j).shape.length ≤ 1) ∨ ∀ j, (p j).shape ≠ [2]

end Sdepy.Spec
