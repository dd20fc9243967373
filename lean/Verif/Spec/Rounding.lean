import Verif.Spec.PathsGenerator
import Mathlib.Data.Real.Archimedean
import Mathlib.Data.Int.LeastGreatest

/-!
# Floating point arithmetic, with rounding to nearest, ties to even

The numbers of a floating point format are some of the multiples of the least positive one (gradual underflow).
Results of operations are rounded to the nearest number of the format. Overflow is left out: numbers are not
bounded, there are no infinities and no NaN.
-/

namespace Sdepy.Spec

/-- A set of floating point numbers. -/
structure FloatFormat where
  mem : ℝ → Prop
  /-- The least positive number. -/
  least : ℝ
  least_pos : 0 < least
  least_mem : mem least
  multiple : ∀ x, mem x → ∃ k : ℤ, x = k * least
  zero_mem : mem 0
  one_mem : mem 1
  neg_mem : ∀ x, mem x → mem (-x)
  unbounded : ∀ x : ℝ, ∃ y, mem y ∧ x ≤ y

/-- Numbers with `p` binary digits and exponents not less than `e`: of the form `m * 2^j` with `|m| < 2^p` and
`j ≥ e`. -/
def IsBinary (p : ℕ) (e : ℤ) (x : ℝ) : Prop := ∃ m j : ℤ, |m| < 2 ^ p ∧ e ≤ j ∧ x = m * (2 : ℝ) ^ j

/-- `y` is the greatest number of the format that is not above `x`. -/
def FloatFormat.IsBelow (F : FloatFormat) (x y : ℝ) : Prop :=
  F.mem y ∧ y ≤ x ∧ ∀ z, F.mem z → z ≤ x → z ≤ y

/-- `y` is the least number of the format that is not below `x`. -/
def FloatFormat.IsAbove (F : FloatFormat) (x y : ℝ) : Prop :=
  F.mem y ∧ x ≤ y ∧ ∀ z, F.mem z → x ≤ z → y ≤ z

/-- `y` is `x` rounded to the nearest number of the format; if there are two, to the one that is an even
multiple of their distance. -/
def FloatFormat.Rounds (F : FloatFormat) (x y : ℝ) : Prop :=
  ∃ a b, F.IsBelow x a ∧ F.IsAbove x b ∧
    ((y = a ∧ (x - a < b - x ∨ x - a = b - x ∧ ∃ k : ℤ, a = 2 * k * (b - a))) ∨
     (y = b ∧ (b - x < x - a ∨ x - a = b - x ∧ ¬ ∃ k : ℤ, a = 2 * k * (b - a))))

end Sdepy.Spec
