import Verif.Py
import Mathlib.Algebra.Order.Field.Basic
import Mathlib.Algebra.Order.AbsoluteValue.Basic
import Mathlib.Data.List.InsertIdx

/-!
# Model of the sources with memory (`/repo/sdepy/infrastructure.py`, lines 2157-2376)

Times are exact. The memory of a source is modelled as in the code, by two lists. The state `σ`
holds whatever else evaluations depend on: the random generator, and, for `true_cpoisson_source`,
the underlying source `dn`.
-/

namespace Sdepy

variable {T Z V σ : Type} [Field T] [LinearOrder T]

/-- Loop of `bisect.bisect_right` (python standard library, called at `infrastructure.py` 2275): the
item is looked for between positions `lo` and `hi`. Each iteration makes the interval smaller: the
length of the list is enough as a bound to their number (`bisectRight_spec`). -/
def bisectGo (t : List T) (s : T) : ℕ → ℕ → ℕ → ℕ
  | 0, lo, _ => lo
  | n + 1, lo, hi =>
    if lo < hi then
      match t[(lo + hi) / 2]? with
      | some u => if s < u then bisectGo t s n lo ((lo + hi) / 2)
          else bisectGo t s n ((lo + hi) / 2 + 1) hi
      | none => lo
    else lo

/-- `bisect.bisect_right(t, s)`. -/
def bisectRight (t : List T) (s : T) : ℕ := bisectGo t s t.length 0 t.length

/-- `np.isclose(s, t, rtol=rtol, atol=0.)` (called at `infrastructure.py` 2276). -/
def isClose (rtol s t : T) : Prop := |s - t| ≤ rtol * |t|

instance (rtol s t : T) : Decidable (isClose rtol s t) := by unfold isClose; infer_instance

/-- What subclasses of `true_source` define (`infrastructure.py` 2300-2353). Methods may modify
stored values in place (`true_cpoisson_source` does, lines 2655 and 2693): they are modelled as
returning the modified value, followed by the new one. -/
structure TrueSrc (T Z V σ : Type) where
  rtol : T
  /-- `new_outside(z, t, s)` -/
  outside : Z → T → T → σ → Py ((Z × Z) × σ)
  /-- `new_inside(z1, z2, t1, t2, s)`: modified `z1`, and new value or `None` -/
  inside : Z → Z → T → T → T → σ → Py ((Z × Option Z) × σ)
  getvalue : Z → V

/-- `_tlist`, `_zlist` (`infrastructure.py` 2226-2228), and the rest of the state. -/
structure Mem (T Z σ : Type) where
  t : List T
  z : List Z
  s : σ
deriving DecidableEq

/-- Memory of a new source (`infrastructure.py` 2226-2228). -/
def Mem.new (t0 : T) (z0 : Z) (s : σ) : Mem T Z σ := ⟨[t0], [z0], s⟩

/-- The function `f` in `true_source._retrieve_old_or_generate_new` (`infrastructure.py`
2274-2291). For `k = 0`, `t[k-1]` is the last item. -/
def TrueSrc.get1 (S : TrueSrc T Z V σ) (s : T) (m : Mem T Z σ) : Py (V × Mem T Z σ) :=
  let k := bisectRight m.t s
  let j := if k = 0 then m.t.length - 1 else k - 1
  match m.t[j]?, m.z[j]? with
  | some tj, some zj =>
    if isClose S.rtol s tj then .ok (S.getvalue zj, m)
    else if k = m.t.length then
      match m.z.getLast?, m.t.getLast? with
      | some z, some t =>
        match S.outside z t s m.s with
        | .error e => .error e
        | .ok ((z', znew), st) =>
          .ok (S.getvalue znew, ⟨m.t ++ [s], m.z.dropLast ++ [z', znew], st⟩)
      | _, _ => .error .indexError
    else if k = 0 then
      match m.z, m.t with
      | z :: zs, t :: ts =>
        match S.outside z t s m.s with
        | .error e => .error e
        | .ok ((z', znew), st) => .ok (S.getvalue znew, ⟨s :: t :: ts, znew :: z' :: zs, st⟩)
      | _, _ => .error .indexError
    else
      match m.t[k]?, m.z[k]? with
      | some tk, some zk =>
        match S.inside zj zk tj tk s m.s with
        | .error e => .error e
        | .ok ((zj', none), st) => .ok (S.getvalue zk, ⟨m.t, m.z.set (k - 1) zj', st⟩)
        | .ok ((zj', some znew), st) =>
          .ok (S.getvalue znew, ⟨m.t.insertIdx k s, (m.z.set (k - 1) zj').insertIdx k znew, st⟩)
      | _, _ => .error .indexError
  | _, _ => .error .indexError

/-- `true_source._retrieve_old_or_generate_new` (`infrastructure.py` 2266-2296), on the list of
items of an array of times. -/
def TrueSrc.getList (S : TrueSrc T Z V σ) : List T → Mem T Z σ → Py (List V × Mem T Z σ)
  | [], m => .ok ([], m)
  | s :: ss, m =>
    match S.get1 s m with
    | .error e => .error e
    | .ok (v, m) =>
      match S.getList ss m with
      | .error e => .error e
      | .ok (vs, m) => .ok (v :: vs, m)

/-- `true_source.__call__` (`infrastructure.py` 2254-2264): `dz(t)`, or `dz(t, dt)`. Arrays `t` and
`dt` are lists of their items, once broadcast. -/
def TrueSrc.call [Sub V] (S : TrueSrc T Z V σ) (t : List T) (dt : Option (List T))
    (m : Mem T Z σ) : Py (List V × Mem T Z σ) :=
  match dt with
  | none => S.getList t m
  | some dt =>
    match S.getList (List.zipWith (· + ·) t dt) m with
    | .error e => .error e
    | .ok (v1, m) =>
      match S.getList t m with
      | .error e => .error e
      | .ok (v0, m) => .ok (List.zipWith (· - ·) v1 v0, m)

end Sdepy
