import Verif.Model.TrueCPoisson

/-!
# Model of the attributes `t` and `size` of sources with memory
(`/repo/sdepy/infrastructure.py`, lines 2173-2179, 2355-2376, 2704-2711)

Stored values are modelled by functions of cells: the attribute `size` of an array of shape
`vshape + (paths,)` is the product of this shape.
-/

namespace Sdepy

section
variable {T Z σ : Type}

/-- `true_source.size` (`infrastructure.py` 2361-2367), for a method `getsize`. -/
def Mem.size (getsize : Z → ℕ) (m : Mem T Z σ) : ℕ := (m.z.map getsize).sum

/-- `true_source.t` (`infrastructure.py` 2369-2376): a copy of the stored times. -/
def Mem.times (m : Mem T Z σ) : List T := m.t

/-- `true_source.getsize` (`infrastructure.py` 2355-2356), for the sources whose stored values are
arrays of shape `shape`: `true_wiener_source` and `true_poisson_source`. -/
def arrSize (shape : List ℕ) (_ : Z) : ℕ := shape.prod

/-- Size of the arrays in a list of variates (`sum(y.size for y in y_value)`, `infrastructure.py`
2707). -/
def ysSize {Y : Type} (ys : List (YSample Y)) : ℕ := (ys.map fun y => y.n * y.j).sum

/-- `true_cpoisson_source.getsize` (`infrastructure.py` 2704-2707). -/
def jumpSize {Y : Type} (shape : List ℕ) (z : JumpZ Y shape) : ℕ :=
  shape.prod + match z.2 with
    | none => 0
    | some ys => ysSize ys

/-- `true_cpoisson_source.size` (`infrastructure.py` 2709-2711): the size of the underlying source with
memory is added. -/
def cpoissonSize {Y : Type} (shape : List ℕ)
    (m : Mem T (JumpZ Y shape) (Mem T (Pos shape → ℤ) σ)) : ℕ :=
  m.size (jumpSize shape) + m.s.size (arrSize shape)

end

end Sdepy
