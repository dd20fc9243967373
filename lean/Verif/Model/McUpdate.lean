import Verif.Model.McIndex

/-!
# Model of `montecarlo`: updates of instances obtained by indexing
(`/repo/sdepy/infrastructure.py`, lines 2824-2840, 2869-3021 and 3025-3039)

Instances related by indexing share the number of paths, stored as a list with one item (2829-2832). Instances
obtained from one that is not empty have no attribute `_center`.
-/

namespace Sdepy

variable {K : Type} [Field K]

/-- `__getitem__` of an empty instance (`infrastructure.py` 3025-3033), by a tuple of integers: a new instance, with `_bins` and,
unless bins are given explicitly, `_range`. Other attributes are those set by `montecarlo()`, `_use` among them. The items of
an array of objects are arrays, or `None`. -/
def MC.child (mc : MC K) (i : List ℤ) : Py (MC K) :=
  match mc.bins with
  | .none => .ok (MC.new .none mc.range "all")
  | .int n => .ok (MC.new (.int n) mc.range "all")
  | .str s => .ok (MC.new (.str s) mc.range "all")
  | .array a =>
    match normIdx a.shape i with
    | .error e => .error e
    | .ok k => .ok (MC.new (.array (a.at k)) none "all")
  | .objs a =>
    match normIdx a.shape i with
    | .error e => .error e
    | .ok k =>
      if a.shape.length = k.length then
        match a.get k with
        | none => .ok (MC.new .none none "all")
        | some l => .ok (MC.new (.array ⟨[l.length], fun c => l.getD (c.headD 0) 0⟩) none "all")
      else .ok (MC.new (.objs (a.at k)) none "all")

variable [LinearOrder K]

/-- `update` (`infrastructure.py` 2869-2922) of one of the instances that share the number of paths, namely an instance that was
empty and those obtained from it by indexing. -/
def shareUpdate {ι : Type} [DecidableEq ι] (auto : String → Option (K × K) → List K → Py (List K))
    (objs : ι → MC K) (w : ι) (sample : Arr K) (axis : ℤ) : (ι → MC K) × Py Unit :=
  match (objs w).update auto sample axis with
  | (mc, out) => (fun v => if v = w then mc else { objs v with paths := mc.paths }, out)

/-- `update` (`infrastructure.py` 2869-2922) of an instance obtained by indexing from one that had received data, and is now in state
`cur`; the latter shares its data. As the number of paths is not zero, line 2945 reads `_center`. -/
def McView.update (v : McView K) (cur : MC K) (sample : Arr K) (axis : ℤ) : MC K × Py Unit :=
  match mcPrepare (v.resolve cur).use sample axis with
  | .error e => (cur, .error e)
  | .ok _ => (cur, .error .attributeError)

end Sdepy
