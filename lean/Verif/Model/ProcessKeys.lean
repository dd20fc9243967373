import Verif.Model.Process

/-!
# Keys of process indexing (`/repo/sdepy/infrastructure.py`, lines 655-703)

The method `process.__getitem__` as a whole: which keys are handled as those of an array, which as process
specific ones, and what becomes of items that are not Python integers, slices or lists.
-/

namespace Sdepy

/-- An item of a key: those of `NpIx` (Python integers, slices, lists or arrays of integers), NumPy integers (that
are not instances of `int`, line 690), lists or arrays of booleans. `None`, `...` and arrays with more axes are not
modelled. -/
inductive GIx where
  | ix (i : NpIx)
  | npInt (i : ℤ)
  | mask (m : List Bool)
  deriving DecidableEq

/-- A key in brackets: a single item; a string; a tuple of items; a tuple that starts with a string, followed by items, or
by one tuple of items. -/
inductive Key where
  | one (g : GIx)
  | str (a : String)
  | tuple (l : List GIx)
  | mode (a : String) (l : List GIx)
  | modeTuple (a : String) (l : List GIx)

/-- What is returned: an array, or a process. -/
inductive GOut (T K : Type) where
  | arr (a : Arr K)
  | proc (p : Proc T K)

/-- Positions of true items, in order (`nonzero` of NumPy). -/
def truePos (m : List Bool) : List ℕ := (List.range m.length).filter fun k => m.getD k false

/-- An item, applied to an axis of size `n`: NumPy integers are integers, booleans are the list of positions
of the true ones, as many as the size of the axis. -/
def GIx.toNp (n : ℕ) : GIx → Py NpIx
  | .ix i => .ok i
  | .npInt i => .ok (.int i)
  | .mask m => if m.length = n then .ok (.list ((truePos m).map fun k : ℕ => (k : ℤ))) else .error .indexError

/-- Items, applied to the first axes. -/
def toNps : List ℕ → List GIx → Py (List NpIx)
  | _, [] => .ok []
  | [], _ :: _ => .error .indexError
  | n :: s, g :: l =>
    match g.toNp n with
    | .error e => .error e
    | .ok i =>
      match toNps s l with
      | .error e => .error e
      | .ok is => .ok (i :: is)

/-- `a[key]` for an array. -/
def Arr.gIndex {α : Type} (a : Arr α) (l : List GIx) : Py (Arr α) :=
  match toNps a.shape l with
  | .error e => .error e
  | .ok is => a.npIndex is

/-- `a[(Ellipsis,) + key]`, for a key with no more than one item. -/
def Arr.gIndexLast {α : Type} (a : Arr α) (l : List GIx) : Py (Arr α) :=
  match l with
  | [] => .ok a
  | g :: _ =>
    match g.toNp (a.shape.getLastD 0) with
    | .error e => .error e
    | .ok i => a.indexLast i

variable {T K : Type}

/-- Lines 690-694: only Python integers become slices. -/
def pyIntToSlice : GIx → GIx
  | .ix i => .ix (intToSlice i)
  | g => g

/-- `t[key]`, followed by the checks of `process.__new__` (lines 425-430, 696): a single time is a timeline of
one. -/
def timelineAt (t : List T) (l : List GIx) : Py (List T) :=
  match t with
  | [] => .error .indexError
  | a :: _ =>
    match (⟨[t.length], fun i => t.getD (i.headD 0) a⟩ : Arr T).gIndex l with
    | .error e => .error e
    | .ok r => .ok (if r.shape = [] then [r.get []] else r.toList1)

/-- Process specific indexing (lines 683-703). -/
def Proc.getMode (p : Proc T K) (a : String) (l : List GIx) : Py (Proc T K) :=
  if a ≠ "v" ∧ a ≠ "t" ∧ a ≠ "p" then .error .indexError
  else if a = "v" then
    match p.x.gIndex (.ix NpIx.all :: l ++ [.ix NpIx.all]) with
    | .error e => .error e
    | .ok x => Proc.make p.t x
  else if 1 < l.length then .error .assertionError
  else if a = "t" then
    match timelineAt p.t (l.map pyIntToSlice) with
    | .error e => .error e
    | .ok t =>
      match p.x.gIndex (l.map pyIntToSlice) with
      | .error e => .error e
      | .ok x => Proc.make t x
  else
    match p.x.gIndexLast (l.map pyIntToSlice) with
    | .error e => .error e
    | .ok x => Proc.make p.t x

/-- `p[key]` (lines 655-703). -/
def Proc.getitem (p : Proc T K) (key : Key) : Py (GOut T K) :=
  let arr (l : List GIx) : Py (GOut T K) :=
    match p.x.gIndex l with
    | .error e => .error e
    | .ok a => .ok (.arr a)
  let proc (a : String) (l : List GIx) : Py (GOut T K) :=
    match p.getMode a l with
    | .error e => .error e
    | .ok z => .ok (.proc z)
  match key with
  | .one g => arr [g]
  | .str a => proc a []
  | .tuple l => arr l
  | .mode a l => proc a l
  | .modeTuple a l => proc a l

end Sdepy
