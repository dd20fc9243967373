import Verif.Model.McIndex
import Verif.NpIndex

/-!
# Model of `montecarlo`: indexing by slices and lists (`/repo/sdepy/infrastructure.py`, lines 3023-3039)

Indexing by a tuple of integers, slices and lists, of an instance that has received data. Without lists,
values of `_mean`, `_moments`, `_paths_outside` are views, modified in place by updates of the indexed
instance, unless the index selects a single number. With lists, they are copies. Items of `_counts` and
`_bins` are arrays modified in place, and are shared in all cases. As in `McIndex`, this is modelled by the
state of the indexed instance at the time of indexing, and by its current state.
Masks, `None` and `Ellipsis` in indices are not modelled, nor are updates of the instance returned.
-/

namespace Sdepy

variable {K : Type}

/-- Components selected by an index, for data points of the given shape: the array of all component indices
is indexed. -/
def selected (vs : List ℕ) (ix : List NpIx) : Py (Arr (List ℕ)) := (Arr.mk vs id).npIndex ix

/-- Items at given positions. -/
def Arr.atAll {α : Type} (a : Arr α) (s : Arr (List ℕ)) : Arr α := ⟨s.shape, fun c => a.get (s.get c)⟩

/-- `_moments`, `_mean` at given positions. -/
def Moments.atAll (st : Moments K) (s : Arr (List ℕ)) : Moments K :=
  ⟨s.shape, st.mom.map fun a => a.atAll s, st.mean.atAll s, st.center.atAll s, st.nan⟩

/-- The values found by applying an index to all attributes. -/
def MC.atAll (mc : MC K) (s : Arr (List ℕ)) : MC K where
  paths := mc.paths
  bins := match mc.bins with
    | .objs a => .objs (a.atAll s)
    | b => b
  range := none
  use := "all"
  stats := mc.stats.map fun st => st.atAll s
  counts := fun c => mc.counts (s.get c)
  outside := fun c => mc.outside (s.get c)

/-- There is a list in an index. -/
def hasList (ix : List NpIx) : Bool := ix.any fun i => match i with
  | .list _ => true
  | _ => false

/-- An instance returned by indexing: the components selected, whether values are views, and the state of
the indexed instance at the time. -/
structure McSlice (K : Type) where
  sel : Arr (List ℕ)
  view : Bool
  snap : MC K

/-- `__getitem__` (`infrastructure.py` 3025-3039), for an instance that has been updated. If there are no
bins `_counts` is still `None`, the instance having been created without a sample (otherwise there is no
such attribute, and the exception is an `AttributeError`). An instance not updated has no moments: this is
modelled in `McIndex`, and here gives an error. -/
def MC.getIx (mc : MC K) (ix : List NpIx) : Py (McSlice K) :=
  match mc.stats with
  | none => .error .typeError
  | some st =>
    match selected st.vshape ix with
    | .error e => .error e
    | .ok s =>
      match mc.bins with
      | .none => .error .typeError
      | _ => .ok ⟨s, !hasList ix && !s.shape.isEmpty, mc⟩

/-- Attributes of an instance returned by indexing, given the current state of the indexed instance. -/
def McSlice.resolve (v : McSlice K) (cur : MC K) : MC K :=
  if v.view then { cur.atAll v.sel with bins := (v.snap.atAll v.sel).bins }
  else { v.snap.atAll v.sel with
    paths := cur.paths
    counts := fun c => cur.counts (v.sel.get c) }

end Sdepy
