import Verif.Model.PathsGenerator

/-!
# Calls of the same `paths_generator` instance, one after the other (`/repo/sdepy/integration.py`)

Among the attributes set at instantiation (lines 170-182), `steps` may be changed by calls: it is "iterable, or int,
or None" (line 61), and an iterator, such as a generator expression, yields its values only once.
-/

namespace Sdepy

/-- The `steps` attribute of an instance. -/
inductive StepsArg (T : Type) where
  /-- `None`, an integer, or an iterable that can be iterated upon several times (a list, a tuple, an array) -/
  | plain (steps : Steps T)
  /-- an iterator, with the values it is still to yield -/
  | once (l : List T)

section
variable {T W O σ : Type} [Zero T] [One T] [Neg T] [Sub T] [Mul T] [LinearOrder T] [Linspace T]

/-- `steps`, as found by a call. -/
def StepsArg.now : StepsArg T → Steps T
  | .plain s => s
  | .once l => .iter l

/-- `steps` after `pace` (`integration.py` 209-218): `np.fromiter` consumes an iterator; it is not reached if the
timeline has one point. -/
def StepsArg.paced (a : StepsArg T) (tt : List T) : StepsArg T :=
  if tt.length = 1 then a
  else match a with
    | .plain s => .plain s
    | .once _ => .once []

/-- `steps` after `p(timeline)`, whether or not this raises: `pace` is called (line 535) after validation of the
depth, of the timeline and of `i0` (lines 498-525). -/
def StepsArg.after (a : StepsArg T) (depth : ℕ) (i0 : ℤ) (timeline : TArr T) : StepsArg T :=
  if depth < 2 then a
  else if timeline.shape ≠ [timeline.data.length] then a
  else if timeline.data ≠ npUnique timeline.data then a
  else
    match pyIndex timeline.data.length i0 with
    | none => a
    | some _ => a.paced timeline.data

/-- Results of the calls `p(timeline)` of one instance, each with the state in which callbacks find their
environment, and `steps` in the end. -/
def callsObj (g : PGen T W O σ) (fuel : ℕ) (i0 : ℤ) :
    StepsArg T → List (TArr T × σ) → List (Py (CallResult T O σ)) × StepsArg T
  | a, [] => ([], a)
  | a, (tl, s) :: cs =>
    let r := callsObj g fuel i0 (a.after g.depth i0 tl) cs
    (callPG g fuel a.now i0 tl s :: r.1, r.2)

end

end Sdepy
