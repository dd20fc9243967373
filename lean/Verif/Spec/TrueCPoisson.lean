import Verif.Model.TrueCPoisson

/-!
# What is expected of a compound Poisson source with memory
-/

namespace Sdepy.Spec

variable {T Y Zn σ : Type} [Field T] [LinearOrder T] [CommRing Y]

/-- The list `ys` of arrays of variates holds the variates `R c` for each cell `c`, as many as the
number of jumps `d c`: there is one array for each number `i > 0` of jumps that occurs, in increasing
order, with one row for each of the cells with `i` jumps, in order. -/
structure Stores {shape : List ℕ} (d : Pos shape → ℤ) (R : Pos shape → List Y)
    (ys : List (YSample Y)) : Prop where
  len : ∀ c, ((R c).length : ℤ) = d c
  sorted : (ys.map (·.j)).Pairwise (· < ·)
  mem : ∀ i : ℕ, i ∈ ys.map (·.j) ↔ 0 < i ∧ ∃ c, d c = i
  rows : ∀ y ∈ ys, ∃ cells : List (Pos shape),
    (cells.map (·.1)).Pairwise (List.Lex (· < ·)) ∧ (∀ c, c ∈ cells ↔ d c = y.j) ∧
    cells.length = y.n ∧ ∀ r c, cells[r]? = some c → (List.range y.j).map (y.val r) = R c

/-- From a stored time to the next: `n1`, `n2` are the values of the underlying Poisson source, and the
value changes by the sum of the variates stored. -/
def JumpLink {shape : List ℕ} (n1 n2 : Pos shape → ℤ) (R : Pos shape → List Y)
    (z1 z2 : JumpZ Y shape) : Prop :=
  (∃ ys, z1.2 = some ys ∧ Stores (n2 - n1) R ys) ∧ ∀ c, z2.1 c - z1.1 c = (R c).sum

/-- Evaluations of a compound Poisson source with memory and of its underlying Poisson source `N`, at
times in `D`, in any order. Calls evaluate one time after another; if they fail, the memory of either
source may hold some of the times. Any other change concerns the random generator. -/
inductive JumpHistory (paths : ℕ) (vshape : List ℕ) (rtol : T) (N : TrueSrc T Zn
    (Pos (vshape ++ [paths]) → ℤ) σ) [DecidableEq Y] (y : T → Py (Rvs Y σ)) (D : T → Prop)
    (m0 : Mem T (JumpZ Y (vshape ++ [paths])) (Mem T Zn σ)) :
    Mem T (JumpZ Y (vshape ++ [paths])) (Mem T Zn σ) → Prop
  | start : JumpHistory paths vshape rtol N y D m0 m0
  | eval {m s v m'} : JumpHistory paths vshape rtol N y D m0 m → D s →
      (trueCPoisson rtol paths vshape N y).get1 s m = .ok (v, m') →
      JumpHistory paths vshape rtol N y D m0 m'
  | evalDn {m s v n'} : JumpHistory paths vshape rtol N y D m0 m → D s →
      N.get1 s m.s = .ok (v, n') → JumpHistory paths vshape rtol N y D m0 { m with s := n' }
  | other {m} (s : σ) : JumpHistory paths vshape rtol N y D m0 m →
      JumpHistory paths vshape rtol N y D m0 { m with s := { m.s with s := s } }

end Sdepy.Spec
