import Verif.Model.PathsGenerator
import Mathlib.Data.Rat.Floor
import Mathlib.Order.Lattice

/-!
# Model of `paths_generator` along timelines of unsigned integers (`/repo/sdepy/integration.py`, lines 525-535)

The use of floats is forced (line 529) if the data-type of the timeline is of kind 'i', i.e. made of signed
integers. If it is of kind 'u', steps and the working array `sw` (lines 210-218, 551) keep its data-type:
values stored in them are truncated, and their differences wrap around. This is modelled by the type of
times `UTime n`. Functions of times provided by subclasses make use of their values as numbers (`PGen.unsigned`);
differences that subclasses compute from them, that wrap around in a backward pass, are thus not modelled.
Products by `-1` (line 380) are signed numbers, as they are with NumPy before version 2 (they raise
`OverflowError` since then). Steps that are not within the range of the data-type are not modelled.
-/

namespace Sdepy

/-- A time of an unsigned integer type with `n` bits; negative values are those of signed products. -/
structure UTime (n : ℕ) where
  val : ℤ

namespace UTime
variable {n : ℕ}

theorem val_injective : Function.Injective (UTime.val (n := n)) := fun a b h => by
  cases a; cases b; simpa using h

instance : LinearOrder (UTime n) := LinearOrder.lift' UTime.val val_injective

instance : Zero (UTime n) := ⟨⟨0⟩⟩
instance : One (UTime n) := ⟨⟨1⟩⟩
instance : Neg (UTime n) := ⟨fun a => ⟨-a.val⟩⟩
instance : Mul (UTime n) := ⟨fun a b => ⟨a.val * b.val⟩⟩

/-- Differences wrap around. -/
instance : Sub (UTime n) := ⟨fun a b => ⟨(a.val - b.val) % 2 ^ n⟩⟩

/-- A number, stored in an array of unsigned integers. -/
def trunc (q : ℚ) : UTime n := ⟨⌊q⌋⟩

/-- `numpy.linspace(a, b, k, dtype=...)` with an integer type: values are rounded down. -/
instance : Linspace (UTime n) where
  linspace a b k := (Linspace.linspace (a.val : ℚ) (b.val : ℚ) k).map trunc

end UTime

/-- A subclass, called along a timeline of unsigned integers: the time points returned by `next` are stored in
`sw` (lines 434-440, 551). -/
def PGen.unsigned {W O σ : Type} (n : ℕ) (g : PGen ℚ W O σ) : PGen (UTime n) W O σ where
  depth := g.depth
  begin rev sw s := g.begin rev (sw.map fun t => (t.val : ℚ)) s
  next rev win t s :=
    match g.next rev (win.map fun p => ((p.1.val : ℚ), p.2)) t.val s with
    | .error e => .error e
    | .ok (p, s) => .ok ((UTime.trunc p.1, p.2), s)
  store i t x s := g.store i t.val x s
  fin s := g.fin s

/-- `np.fromiter(steps, dtype=ttype)` (lines 217-218) of numbers, for an unsigned integer type. -/
def Steps.unsigned (n : ℕ) : Steps ℚ → Steps (UTime n)
  | .none => .none
  | .int k => .int k
  | .iter l => .iter (l.map UTime.trunc)

/-- `__call__` (lines 476-584) with a one-dimensional timeline of unsigned integers. -/
def callUnsigned {W O σ : Type} (n : ℕ) (g : PGen ℚ W O σ) (fuel : ℕ) (steps : Steps ℚ) (i0 : ℤ) (tl : List ℕ)
    (s : σ) : Py (CallResult (UTime n) O σ) :=
  callPG (g.unsigned n) fuel (steps.unsigned n) i0 ⟨[tl.length], tl.map fun t : ℕ => ⟨t⟩⟩ s

/-- `__call__` (lines 476-584) with a one-dimensional timeline of signed integers: these are converted to floats
(lines 529-530). -/
def callSigned {W O σ : Type} (g : PGen ℚ W O σ) (fuel : ℕ) (steps : Steps ℚ) (i0 : ℤ) (tl : List ℤ)
    (s : σ) : Py (CallResult ℚ O σ) :=
  callPG g fuel steps i0 ⟨[tl.length], tl.map fun t : ℤ => (t : ℚ)⟩ s

end Sdepy
