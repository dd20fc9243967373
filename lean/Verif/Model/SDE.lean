import Verif.Model.PathsGenerator

/-!
# Model of `integrator` and `SDE` (`/repo/sdepy/integration.py`, lines 596-1581)

Simplifications (besides those of `Verif.Model.PathsGenerator`):

* Working values are elements of a type `X` with sum and product (for arrays: functions on cells, with
  pointwise operations), subject to no laws here, so that operations may be rounded; broadcasting of
  coefficients is not modelled here.
* User methods `sde`, `init`, `let` are functions of their arguments (they may raise); sources
  act on an arbitrary state `σ`.
* Dictionaries are association lists with distinct keys. `sde` returns `none` if the returned
  object is not a dictionary.
* `info_*` methods are modelled separately (`Verif.Model.Info`).
-/

namespace Sdepy

/-- An instance of an `SDE` subclass, as seen by the integrator (`integration.py` 960-1581):
`sources` after `_sources_setup` (1070-1076), `sde` with parameters already bound (`A`, 1216-1225),
`init`, `let`, `log`. `logX`, `expO` are `numpy.log`, `numpy.exp`. -/
structure SDE (T X O Id σ : Type) where
  sources : List (Id × (T → T → σ → Py (X × σ)))
  sde : T → X → Py (Option (List (Id × X)))
  init : T → Py X
  letX : T → X → O
  log : Bool
  logX : X → X
  expO : O → O

section
variable {T X O Id σ : Type} [Zero T] [One T] [Neg T] [Sub T] [Mul T] [LinearOrder T] [Linspace T]
  [Zero X] [Add X] [Mul X] [LinearOrder Id]

/-- `_check_sde_values` (`integration.py` 1203-1214). -/
def SDE.checkValues (S : SDE T X O Id σ) (A : Option (List (Id × X))) :
    Py (List (Id × X)) :=
  match A with
  | none => .error .typeError
  | some A =>
    if ∀ k ∈ A.map Prod.fst, k ∈ S.sources.map Prod.fst then .ok A else .error .keyError

/-- `SDE.A` (`integration.py` 1216-1225). -/
def SDE.A (S : SDE T X O Id σ) (t : T) (x : X) : Py (List (Id × X)) :=
  match S.sde t x with
  | .error e => .error e
  | .ok A => S.checkValues A

/-- Evaluation of sources in the given order (the dict comprehension in `SDE.dZ`). -/
def evalSources (t dt : T) : List (Id × (T → T → σ → Py (X × σ))) → σ → Py (List (Id × X) × σ)
  | [], s => .ok ([], s)
  | (id, z) :: zs, s =>
    match z t dt s with
    | .error e => .error e
    | .ok (v, s) =>
      match evalSources t dt zs s with
      | .error e => .error e
      | .ok (vs, s) => .ok ((id, v) :: vs, s)

/-- `SDE.dZ` (`integration.py` 1227-1234), sources in order of ascending id
(`_ordered_source_ids`, 1135). -/
def SDE.dZ (S : SDE T X O Id σ) (t dt : T) (s : σ) : Py (List (Id × X) × σ) :=
  evalSources t dt (S.sources.insertionSort (fun a b => a.1 ≤ b.1)) s

/-- Items of `A.get(id, 0)*dZ[id] for id in A.keys()` (`integration.py` 718), added to `acc`, from the first
one on; `dZ[id]` is a `KeyError` if absent. -/
def addAdZ (dZ : List (Id × X)) : List (Id × X) → X → Py X
  | [], acc => .ok acc
  | (id, a) :: A, acc =>
    match dZ.lookup id with
    | none => .error .keyError
    | some z => addAdZ dZ A (acc + a * z)

/-- `sum(A.get(id, 0)*dZ[id] for id in A.keys())` (`integration.py` 718): python starts from zero. -/
def sumAdZ (dZ A : List (Id × X)) : Py X := addAdZ dZ A 0

/-- `euler_next` (`integration.py` 707-724). -/
def SDE.eulerNext (S : SDE T X O Id σ) (s0 : T) (x : X) (s1 : T) (st : σ) : Py (X × σ) :=
  match S.A s0 x with
  | .error e => .error e
  | .ok A =>
    match S.dZ s0 (s1 - s0) st with
    | .error e => .error e
    | .ok (dZ, st) =>
      match sumAdZ dZ A with
      | .error e => .error e
      | .ok d => .ok (x + d, st)

/-- `SDE.begin` (`integration.py` 1154-1164). -/
def SDE.beginX (S : SDE T X O Id σ) (t0 : T) : Py X :=
  match S.init t0 with
  | .error e => .error e
  | .ok x => .ok (if S.log then S.logX x else x)

/-- An `SDE` integrated by `integrator` (`integration.py` 596-779, 1154-1191): `begin`, `next`
(which sets `sw[1]` to the target, 255-288, and delegates to `euler_next`), `store`. -/
def SDE.toPGen (S : SDE T X O Id σ) : PGen T X O σ where
  depth := 2
  begin _ sw st :=
    match sw with
    | [t0] =>
      match S.beginX t0 with
      | .error e => .error e
      | .ok x => .ok (fun _ => x, st)
    | _ => .error .indexError
  next _ win target st :=
    match win with
    | [(s0, x)] =>
      match S.eulerNext s0 x target st with
      | .error e => .error e
      | .ok (x', st) => .ok ((target, x'), st)
    | _ => .error .indexError
  store _ t x st := .ok (S.letX t x, st)
  fin st := .ok st

/-- `SDE.exit` before `result` (`integration.py` 1193-1196). NaN stays NaN. -/
def SDE.exitX (S : SDE T X O Id σ) (xx : List (Option O)) : List (Option O) :=
  if S.log then xx.map (Option.map S.expO) else xx

/-- `p(timeline)` for an integrated SDE with the default `result` (`integration.py` 476-584,
1193-1197): values of the resulting process, and final state of the sources. -/
def SDE.call (S : SDE T X O Id σ) (fuel : ℕ) (steps : Steps T) (i0 : ℤ) (tl : TArr T) (s : σ) :
    Py (List (Option O) × σ) :=
  match callPG S.toPGen fuel steps i0 tl s with
  | .error e => .error e
  | .ok r => .ok (S.exitX r.xx, r.s)

end

end Sdepy
