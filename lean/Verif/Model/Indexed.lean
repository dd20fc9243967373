import Verif.Model.TrueCPoisson

/-!
# Model of indexed sources with memory (`/repo/sdepy/infrastructure.py`, lines 2157-2179, 2231-2252)

Indices are integers and slices, or tuples of them (basic indexing); `None`, boolean and integer arrays
are not modelled.
-/

namespace Sdepy

/-- An item of an index: an integer, or a slice `start:stop:step`. -/
inductive Ix where
  | int (i : ℤ)
  | slice (start stop : Option ℤ) (step : ℤ)

/-- A bound of a slice, along an axis of size `d` (`slice.indices` of Python; `dflt` is the default
value, `lo` and `hi` are the extremes allowed). -/
def sliceBound (d : ℕ) (dflt lo hi : ℤ) : Option ℤ → ℤ
  | none => dflt
  | some i => if i < 0 then max (i + d) lo else min i hi

/-- The positions selected by a slice along an axis of size `d`, as given by `slice.indices` of Python
(`step` is not zero). -/
def slicePos (d : ℕ) (start stop : Option ℤ) (step : ℤ) : List ℕ :=
  let lo : ℤ := if 0 < step then 0 else -1
  let hi : ℤ := if 0 < step then d else d - 1
  let i := sliceBound d (if 0 < step then lo else hi) lo hi start
  let j := sliceBound d (if 0 < step then hi else lo) lo hi stop
  let n := if 0 < step then (j - i + step - 1) / step else (i - j - step - 1) / (-step)
  (List.range n.toNat).map fun k : ℕ => (i + k * step).toNat

/-- NumPy basic indexing: given the shape of an array, the shape of the result and the index in the
array of each of its items. -/
def ixApply : List Ix → List ℕ → Py (List ℕ × (List ℕ → List ℕ))
  | [], s => .ok (s, id)
  | _ :: _, [] => .error .indexError
  | .int i :: is, d :: s =>
    if -(d : ℤ) ≤ i ∧ i < d then
      match ixApply is s with
      | .error e => .error e
      | .ok (s', g) => .ok (s', fun j => (if 0 ≤ i then i.toNat else (i + d).toNat) :: g j)
    else .error .indexError
  | .slice a b c :: is, d :: s =>
    if c = 0 then .error .valueError
    else
      match ixApply is s with
      | .error e => .error e
      | .ok (s', g) =>
        .ok ((slicePos d a b c).length :: s',
          fun j => (slicePos d a b c).getD (j.headD 0) 0 :: g j.tail)

/-- `a[index_exp[vindex] + index_exp[..., :]]` (`infrastructure.py` 2163, 2171): the items of `vindex`
apply to the leading axes, the last axis is left alone; there should be enough of them. -/
def Arr.index {Y : Type} (a : Arr Y) (ix : List Ix) : Py (Arr Y) :=
  if a.shape.length < ix.length + 1 then .error .indexError
  else
    match ixApply ix a.shape with
    | .error e => .error e
    | .ok (s, g) => .ok ⟨s, fun j => a.get (g j)⟩

section
variable {T Y Z σ : Type} [Field T] [LinearOrder T] [AddCommGroup Y]

/-- `true_source.__call__` (`infrastructure.py` 2254-2296) on arrays of times: `dz(t)`, or
`dz(t, dt)`. -/
def TrueSrc.callArr {shape : List ℕ} (S : TrueSrc T Z (Pos shape → Y) σ) (t : Arr T)
    (dt : Option (Arr T)) (m : Mem T Z σ) : Py (Arr Y × Mem T Z σ) :=
  match dt with
  | none =>
    match S.call ((ndindex t.shape).map t.get) none m with
    | .error e => .error e
    | .ok (vs, m) =>
      .ok (assemble t.shape shape 0 ((ndindex t.shape).zip (vs.map (ofPos 0))), m)
  | some dt =>
    match broadcast2 t dt with
    | .error e => .error e
    | .ok (t, dt) =>
      match S.call ((ndindex t.shape).map t.get) (some ((ndindex t.shape).map dt.get)) m with
      | .error e => .error e
      | .ok (vs, m) =>
        .ok (assemble t.shape shape 0 ((ndindex t.shape).zip (vs.map (ofPos 0))), m)

/-- `_indexed_true_source.__init__` (`infrastructure.py` 2161-2167): the attribute `vshape`. -/
def TrueSrc.indexedNew {shape : List ℕ} (S : TrueSrc T Z (Pos shape → Y) σ) (t0 : T) (ix : List Ix)
    (m : Mem T Z σ) : Py (List ℕ × Mem T Z σ) :=
  match S.callArr (.scalar t0) none m with
  | .error e => .error e
  | .ok (a, m) =>
    match a.index ix with
    | .error e => .error e
    | .ok b => if b.shape.getLast? = some 0 then .error .indexError else .ok (b.shape.dropLast, m)

/-- `_indexed_true_source.__call__` (`infrastructure.py` 2169-2171). -/
def TrueSrc.indexedCall {shape : List ℕ} (S : TrueSrc T Z (Pos shape → Y) σ) (ix : List Ix)
    (t : Arr T) (dt : Option (Arr T)) (m : Mem T Z σ) : Py (Arr Y × Mem T Z σ) :=
  match S.callArr t dt m with
  | .error e => .error e
  | .ok (a, m) =>
    match a.index ix with
    | .error e => .error e
    | .ok b => .ok (b, m)

end

end Sdepy
