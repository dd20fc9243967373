import Verif.Np

/-!
# Model of `SDEs.pack`, `SDEs.unpack`, `SDEs.shapes` (`/repo/sdepy/integration.py`)
-/

namespace Sdepy

/-- Map a function that may raise over a list (a generator consumed by `tuple`). -/
def mapPy {α β : Type} (f : α → Py β) : List α → Py (List β)
  | [] => .ok []
  | a :: as =>
    match f a with
    | .error e => .error e
    | .ok b =>
      match mapPy f as with
      | .error e => .error e
      | .ok bs => .ok (b :: bs)

/-- Layout attributes of a system of equations: `q`, `addaxis` (after `_inspect_args_defaults`,
`integration.py` 1683-1691), `vshape`, `paths`. -/
structure Layout where
  q : ℕ
  addaxis : Bool
  vshape : List ℕ
  paths : ℕ

/-- `_inspect_args_defaults` (`integration.py` 1683-1691): `q < 1` is rejected, and an axis is
added if values are scalar. -/
def mkLayout (q : ℤ) (addaxis : Bool) (vshape : List ℕ) (paths : ℕ) : Py Layout :=
  if q < 1 then .error .valueError
  else .ok ⟨q.toNat, addaxis || vshape = [], vshape, paths⟩

/-- `SDEs.shapes` (`integration.py` 1785-1792): `wshape` (and `xshape`). -/
def Layout.wshape (L : Layout) : List ℕ :=
  if L.addaxis then L.vshape ++ [L.q]
  else L.vshape.dropLast ++ [L.vshape.getLastD 0 * L.q]

/-- `SDEs.unpack` (`integration.py` 1735-1757). -/
def Layout.unpack {α : Type} (L : Layout) (X : Arr α) : Py (List (Arr α)) :=
  if L.addaxis then mapPy (fun k => X.index2 k) (List.range L.q)
  else
    match L.vshape.getLast? with
    | none => .error .indexError
    | some d => mapPy (fun k => X.slice2 (k * d) ((k + 1) * d)) (List.range L.q)

/-- `SDEs.pack` (`integration.py` 1759-1783). -/
def Layout.pack {α : Type} (L : Layout) (xs : List (Arr α)) : Py (Arr α) :=
  match mapPy (fun x : Arr α => x.broadcastTo (L.vshape ++ [L.paths])) xs with
  | .error e => .error e
  | .ok ys => concat2 (if L.addaxis then ys.map Arr.newaxis2 else ys)

end Sdepy
