import Verif.Model.SDE
import Verif.Model.Packing
import Mathlib.Algebra.Ring.Pi

/-!
# Model of `SDEs` (`/repo/sdepy/integration.py`, lines 1584-1835)

A system of `q` equations is integrated as a single `SDE`, whose working array, of shape
`wshape + (paths,)`, packs the values of the equations. The working values are functions on the
multi-indices of that array, with pointwise operations.
-/

namespace Sdepy

/-- An instance of an `SDEs` subclass: layout attributes, sources (with values of shape
`wshape + (paths,)`), `sde` with parameters bound (a function of `t` and of the list of arrays
`x, y, ...`; the outer `none` is a result that is not a list or tuple, inner ones are items that
are not dictionaries), parameter `x0` of `init` as an array, `log`; `logK`, `expK` are `numpy.log`
and `numpy.exp`. -/
structure SDEs (T K Id σ : Type) where
  L : Layout
  sources : List (Id × (T → T → σ → Py ((List ℕ → K) × σ)))
  sde : T → List (Arr K) → Py (Option (List (Option (List (Id × Arr K)))))
  x0 : Arr K
  log : Bool
  logK : K → K
  expK : K → K

/-- An array has no values outside its shape: normalise them away. -/
def Arr.canon {K : Type} [Zero K] (a : Arr K) : Arr K :=
  ⟨a.shape, fun i => if InRange a.shape i then a.get i else 0⟩

/-- Iteration over an array: subarrays along the first axis. -/
def Arr.iter0 {K : Type} (a : Arr K) : List (Arr K) :=
  match a.shape with
  | [] => []
  | n :: s => (List.range n).map fun k => ⟨s, fun i => a.get (k :: i)⟩

section
variable {T K Id σ : Type} [Field T] [LinearOrder T] [CommRing K] [LinearOrder Id]

/-- The working array holding given values. -/
def SDEs.packed (S : SDEs T K Id σ) (x : List ℕ → K) : Arr K :=
  ⟨S.L.wshape ++ [S.L.paths], x⟩

/-- `SDE._check_sde_values` on a single equation (`integration.py` 1203-1214). -/
def SDEs.checkOne (S : SDEs T K Id σ) (A : Option (List (Id × Arr K))) :
    Py (List (Id × Arr K)) :=
  match A with
  | none => .error .typeError
  | some A =>
    if ∀ k ∈ A.map Prod.fst, k ∈ S.sources.map Prod.fst then .ok A else .error .keyError

/-- `SDEs._check_sde_values` (`integration.py` 1697-1709). -/
def SDEs.checkValues (S : SDEs T K Id σ) (As : Option (List (Option (List (Id × Arr K))))) :
    Py (List (List (Id × Arr K))) :=
  match As with
  | none => .error .typeError
  | some As => if As.length ≠ S.L.q then .error .valueError else mapPy S.checkOne As

/-- One entry of the packed dictionary: `pack(tuple(a.get(id, 0) for a in As))`
(`integration.py` 1728). -/
def SDEs.packEntry (S : SDEs T K Id σ) (As : List (List (Id × Arr K))) (id : Id) :
    Py (Id × (List ℕ → K)) :=
  match S.L.pack (As.map fun a => (a.lookup id).getD (.scalar 0)) with
  | .error e => .error e
  | .ok X => .ok (id, X.get)

/-- `SDEs.A` (`integration.py` 1711-1730). -/
def SDEs.A (S : SDEs T K Id σ) (t : T) (x : List ℕ → K) : Py (List (Id × (List ℕ → K))) :=
  match S.L.unpack (S.packed x) with
  | .error e => .error e
  | .ok xs =>
    match S.sde t (xs.map Arr.canon) with
    | .error e => .error e
    | .ok As =>
      match S.checkValues As with
      | .error e => .error e
      | .ok As => mapPy (S.packEntry As) (As.flatMap fun a => a.map Prod.fst).dedup

/-- `SDEs.init` (`integration.py` 1794-1802) and the assignment in `SDE.init` (1469). -/
def SDEs.init (S : SDEs T K Id σ) : Py (List ℕ → K) :=
  match S.L.pack (if S.x0.shape = [] then List.replicate S.L.q S.x0 else S.x0.iter0) with
  | .error e => .error e
  | .ok X0 =>
    match X0.broadcastTo (S.L.wshape ++ [S.L.paths]) with
    | .error e => .error e
    | .ok X => .ok X.get

/-- The system as a single SDE. (`SDEs.A` overrides `SDE.A`: the check made there is repeated
here, with no effect, since the keys have already been checked.) -/
def SDEs.toSDE (S : SDEs T K Id σ) : SDE T (List ℕ → K) (List ℕ → K) Id σ where
  sources := S.sources
  sde t x :=
    match S.A t x with
    | .error e => .error e
    | .ok A => .ok (some A)
  init _ := S.init
  letX _ x := x
  log := S.log
  logX x := fun i => S.logK (x i)
  expO x := fun i => S.expK (x i)

/-- `SDEs.result` (`integration.py` 1830-1835) on the values at one time: exponential if `log`,
then `unpack`, each array being that of one of the resulting processes. -/
def SDEs.resultAt (S : SDEs T K Id σ) (x : Option (List ℕ → K)) : Py (Option (List (Arr K))) :=
  match x with
  | none => .ok none
  | some x =>
    match S.L.unpack (S.packed (if S.log then fun i => S.expK (x i) else x)) with
    | .error e => .error e
    | .ok ys => .ok (some (ys.map Arr.canon))

/-- `p(timeline)` for a system of equations: at each time, the values of each of the resulting
processes. -/
def SDEs.call (S : SDEs T K Id σ) (fuel : ℕ) (steps : Steps T) (i0 : ℤ) (tl : TArr T) (s : σ) :
    Py (List (Option (List (Arr K))) × σ) :=
  match S.toSDE.call fuel steps i0 tl s with
  | .error e => .error e
  | .ok (xx, s) =>
    match mapPy S.resultAt xx with
    | .error e => .error e
    | .ok r => .ok (r, s)

end

end Sdepy
