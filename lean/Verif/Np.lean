import Verif.Py
import Mathlib.Algebra.Order.Ring.Nat
import Mathlib.Data.List.Forall2

/-!
# NumPy arrays

An array is a shape and a function from multi-indices; only multi-indices within the shape are
meaningful (`Arr.Same`). Rules are those of the NumPy reference (broadcasting, basic indexing,
`concatenate`); this file models NumPy, not sdepy.
-/

namespace Sdepy

/-- A NumPy array of values in `α`. -/
structure Arr (α : Type) where
  shape : List ℕ
  get : List ℕ → α

/-- The multi-index `idx` is within an array of this shape. -/
def InRange (shape idx : List ℕ) : Prop := List.Forall₂ (· < ·) idx shape

instance (shape idx : List ℕ) : Decidable (InRange shape idx) := by
  unfold InRange; infer_instance

/-- Same shape, and same values. -/
def Arr.Same {α : Type} (a b : Arr α) : Prop :=
  a.shape = b.shape ∧ ∀ i, InRange a.shape i → a.get i = b.get i

theorem Arr.Same.refl {α : Type} (a : Arr α) : a.Same a := ⟨rfl, fun _ _ => rfl⟩

theorem Arr.Same.symm {α : Type} {a b : Arr α} (h : a.Same b) : b.Same a :=
  ⟨h.1.symm, fun i hi => (h.2 i (by rw [h.1]; exact hi)).symm⟩

theorem Arr.Same.trans {α : Type} {a b c : Arr α} (h : a.Same b) (h' : b.Same c) : a.Same c :=
  ⟨h.1.trans h'.1, fun i hi => (h.2 i hi).trans (h'.2 i (by rw [← h.1]; exact hi))⟩

/-- A zero-dimensional array. -/
def Arr.scalar {α : Type} (a : α) : Arr α := ⟨[], fun _ => a⟩

/-- Broadcasting of a shape to another one, dimensions aligned from the right (the lists are
reversed): each dimension is 1 or matches, missing ones count as 1. -/
def bcOkRev : List ℕ → List ℕ → Prop
  | [], _ => True
  | _ :: _, [] => False
  | a :: s, b :: t => (a = 1 ∨ a = b) ∧ bcOkRev s t

instance instDecBcOkRev : (s t : List ℕ) → Decidable (bcOkRev s t)
  | [], _ => .isTrue trivial
  | _ :: _, [] => .isFalse id
  | a :: s, b :: t =>
    have := instDecBcOkRev s t
    inferInstanceAs (Decidable ((a = 1 ∨ a = b) ∧ bcOkRev s t))

/-- Shape `s` can be broadcast to shape `t`. -/
def BcOk (s t : List ℕ) : Prop := bcOkRev s.reverse t.reverse

instance (s t : List ℕ) : Decidable (BcOk s t) := instDecBcOkRev _ _

/-- Index into the original array: 0 along dimensions of size 1 (reversed lists). -/
def bcIdxRev : List ℕ → List ℕ → List ℕ
  | [], _ => []
  | a :: s, i => (if a = 1 then 0 else i.headD 0) :: bcIdxRev s i.tail

/-- `numpy.broadcast_to`. -/
def Arr.broadcastTo {α : Type} (a : Arr α) (shape : List ℕ) : Py (Arr α) :=
  if BcOk a.shape shape then
    .ok ⟨shape, fun i => a.get (bcIdxRev a.shape.reverse i.reverse).reverse⟩
  else .error .valueError

/-- `x[..., np.newaxis, :]`, for an array with at least one dimension. -/
def Arr.newaxis2 {α : Type} (a : Arr α) : Arr α :=
  ⟨a.shape.dropLast ++ [1] ++ a.shape.getLast?.toList,
    fun i => a.get (i.dropLast.dropLast ++ i.getLast?.toList)⟩

/-- `X[..., k, :]`: along the second last axis. -/
def Arr.index2 {α : Type} (a : Arr α) (k : ℕ) : Py (Arr α) :=
  match a.shape.reverse with
  | p :: n :: pre =>
    if k < n then
      .ok ⟨pre.reverse ++ [p], fun i => a.get (i.dropLast ++ [k] ++ i.getLast?.toList)⟩
    else .error .indexError
  | _ => .error .indexError

/-- Replace the second last index `j` by `f j` (reversed multi-index). -/
def mapIdx2Rev (f : ℕ → ℕ) : List ℕ → List ℕ
  | p :: j :: kk => p :: f j :: kk
  | i => i

/-- `X[..., lo:hi, :]`, with `0 ≤ lo`, `0 ≤ hi`: slices are clipped to the axis. -/
def Arr.slice2 {α : Type} (a : Arr α) (lo hi : ℕ) : Py (Arr α) :=
  match a.shape.reverse with
  | p :: n :: pre =>
    .ok ⟨pre.reverse ++ [min hi n - min lo n, p],
      fun i => a.get (mapIdx2Rev (fun j => min lo n + j) i.reverse).reverse⟩
  | _ => .error .indexError

/-- Value of a concatenation along an axis: which block, and position in it. -/
def blockOf : List ℕ → ℕ → ℕ × ℕ
  | [], j => (0, j)
  | n :: ns, j => if j < n then (0, j) else
      let r := blockOf ns (j - n)
      (r.1 + 1, r.2)

/-- Size of the second last axis. -/
def axis2 (shape : List ℕ) : ℕ := shape.reverse.tail.headD 0

/-- Second last index of a multi-index. -/
def idx2 (i : List ℕ) : ℕ := i.reverse.tail.headD 0

/-- Same shape, but for the second last axis. -/
def SameBut2 (s t : List ℕ) : Prop :=
  2 ≤ s.length ∧ 2 ≤ t.length ∧ s.getLast? = t.getLast? ∧ s.dropLast.dropLast = t.dropLast.dropLast

instance (s t : List ℕ) : Decidable (SameBut2 s t) := by unfold SameBut2; infer_instance

/-- `numpy.concatenate(xs, axis=-2)`. -/
def concat2 {α : Type} (xs : List (Arr α)) : Py (Arr α) :=
  match xs with
  | [] => .error .valueError
  | x :: xs' =>
    if ∀ y ∈ xs', SameBut2 x.shape y.shape then
      let sizes := (x :: xs').map fun y => axis2 y.shape
      .ok ⟨x.shape.dropLast.dropLast ++ [sizes.sum] ++ x.shape.getLast?.toList,
        fun i =>
          let b := blockOf sizes (idx2 i)
          ((x :: xs')[b.1]?.getD x).get (mapIdx2Rev (fun _ => b.2) i.reverse).reverse⟩
    else .error .valueError

/-! ### Basic facts -/

theorem InRange.length {shape idx : List ℕ} (h : InRange shape idx) : idx.length = shape.length :=
  h.length_eq

theorem inRange_append {s t i j : List ℕ} (h : i.length = s.length) :
    InRange (s ++ t) (i ++ j) ↔ InRange s i ∧ InRange t j := by
  induction s generalizing i with
  | nil =>
    cases i with
    | nil => simp [InRange]
    | cons _ _ => simp at h
  | cons a s ih =>
    cases i with
    | nil => simp at h
    | cons b i =>
      have := ih (i := i) (by simpa using h)
      simp only [InRange, List.cons_append, List.forall₂_cons] at this ⊢
      rw [this]; tauto

theorem InRange.of_append {s t i : List ℕ} (h : InRange (s ++ t) i) :
    ∃ i1 i2, i = i1 ++ i2 ∧ InRange s i1 ∧ InRange t i2 := by
  have hl := h.length
  rw [List.length_append] at hl
  refine ⟨i.take s.length, i.drop s.length, by simp, ?_⟩
  rw [← inRange_append (by simp; omega)]
  simpa using h

theorem inRange_singleton {n : ℕ} {i : List ℕ} : InRange [n] i ↔ ∃ j, i = [j] ∧ j < n := by
  constructor
  · intro h
    cases h with
    | cons h h' =>
      cases h'
      exact ⟨_, rfl, h⟩
  · rintro ⟨j, rfl, h⟩; exact .cons h .nil

theorem inRange_pair {n p : ℕ} {i : List ℕ} :
    InRange [n, p] i ↔ ∃ j k, i = [j, k] ∧ j < n ∧ k < p := by
  constructor
  · intro h
    cases h with
    | cons h h' =>
      cases h' with
      | cons h2 h3 =>
        cases h3
        exact ⟨_, _, rfl, h, h2⟩
  · rintro ⟨j, k, rfl, h, h'⟩; exact .cons h (.cons h' .nil)

end Sdepy
