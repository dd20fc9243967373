import Verif.Model.MonteCarlo

/-!
# Model of `montecarlo`: indexing (`/repo/sdepy/infrastructure.py`, lines 3023-3039)

Indexing by a tuple of integers. The instance returned holds references to objects of the indexed one:
the list `_paths`; the items of `_bins` and of `_counts`, that are arrays modified in place. Values of
`_mean`, `_moments`, `_paths_outside` are views, modified in place, if fewer integers are given than
there are axes; otherwise they are numbers, i.e. copies. This is modelled by the state of the indexed
instance at the time of indexing, from which copies have been taken, and by its current state.
Updates of the instance returned are modelled in `McUpdate`.
-/

namespace Sdepy

variable {K : Type}

/-- An integer used as an index along an axis of size `n`. -/
def normInt (n : ℕ) (i : ℤ) : Py ℕ :=
  if 0 ≤ i ∧ i < n then .ok i.toNat
  else if -(n : ℤ) ≤ i ∧ i < 0 then .ok (i + n).toNat
  else .error .indexError

/-- A tuple of integers used as an index, for an array of the given shape. -/
def normIdx : List ℕ → List ℤ → Py (List ℕ)
  | _, [] => .ok []
  | [], _ :: _ => .error .indexError
  | n :: s, i :: is =>
    match normInt n i with
    | .error e => .error e
    | .ok k =>
      match normIdx s is with
      | .error e => .error e
      | .ok ks => .ok (k :: ks)

/-- `a[i]`. -/
def Arr.at (a : Arr K) (i : List ℕ) : Arr K := ⟨a.shape.drop i.length, fun c => a.get (i ++ c)⟩

def Moments.at' (st : Moments K) (i : List ℕ) : Moments K :=
  ⟨st.vshape.drop i.length, st.mom.map fun a => a.at i, st.mean.at i, st.center.at i, st.nan⟩

/-- The values found by applying the index `i` to all attributes. -/
def MC.comp (mc : MC K) (i : List ℕ) : MC K where
  paths := mc.paths
  bins := match mc.bins with
    | .objs a => .objs ⟨a.shape.drop i.length, fun c => a.get (i ++ c)⟩
    | b => b
  range := none
  use := "all"
  stats := mc.stats.map fun st => st.at' i
  counts := fun c => mc.counts (i ++ c)
  outside := fun c => mc.outside (i ++ c)

/-- An instance returned by indexing: the index, and the state of the indexed instance at the time. -/
structure McView (K : Type) where
  idx : List ℕ
  snap : MC K

/-- `__getitem__` (`infrastructure.py` 3025-3039), for an instance that is empty, with no bins or bins
given as a number or string, or that has been updated. In the latter case, if there are no bins `_counts`
is still `None`, the instance having been created without a sample (otherwise there is no such
attribute, and the exception is an `AttributeError`). -/
def MC.getItem (mc : MC K) (i : List ℤ) : Py (McView K) :=
  if mc.paths = 0 then
    match mc.bins with
    | .objs a =>
      match normIdx a.shape i with
      | .error e => .error e
      | .ok k => .ok ⟨k, mc⟩
    | _ => .ok ⟨[], mc⟩
  else
    match mc.stats with
    | none => .error .typeError
    | some st =>
      match normIdx st.vshape i with
      | .error e => .error e
      | .ok k =>
        match mc.bins with
        | .none => .error .typeError
        | _ => .ok ⟨k, mc⟩

/-- All axes are indexed: values are numbers. -/
def McView.full (v : McView K) : Bool :=
  match v.snap.stats with
  | none => true
  | some st => st.vshape.length = v.idx.length

/-- Attributes of an instance returned by indexing, given the current state of the indexed instance.
If the latter was empty, only `_paths` is shared. -/
def McView.resolve (v : McView K) (cur : MC K) : MC K :=
  if v.snap.paths = 0 then
    { MC.new .none none "all" with paths := cur.paths }
  else if v.full then
    { v.snap.comp v.idx with
      paths := cur.paths
      counts := fun c => cur.counts (v.idx ++ c) }
  else { cur.comp v.idx with bins := (v.snap.comp v.idx).bins }

/-- `histogram()` of an instance returned by indexing. If the indexed instance was empty, `_counts` is
`None`. -/
def McView.histogram [Field K] (v : McView K) (cur : MC K) : Py (List ℤ × List K) :=
  if v.snap.paths = 0 then
    if cur.paths = 0 then .error .valueError
    else
      match v.snap.bins with
      | .none => .error .valueError
      | _ => .error .attributeError
  else (v.resolve cur).histogram

end Sdepy
