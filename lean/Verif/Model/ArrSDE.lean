import Verif.Model.SDE
import Verif.Model.Packing
import Verif.Model.Params

/-!
# Model of the integration of array valued equations (`/repo/sdepy/integration.py`, 596-1581)

`Verif.Model.SDE` models values as elements of a ring, and `Verif.Model.Presets` takes parameters
that are broadcast already. Here values, parameters and realisations of sources are NumPy arrays,
with shapes, and operations broadcast them.

The equation is given by expressions built with elementwise operations (NumPy ufuncs), as those of all
preset processes are. Simplifications, besides those of `Verif.Model.SDE`: time and values are exact
numbers in the same field `K`; `let` is the one of `SDE`, or of `hull_white_SDE`.
-/

namespace Sdepy

/-- A NumPy ufunc of two arguments. -/
def Arr.zip {α β γ : Type} (f : α → β → γ) (a : Arr α) (b : Arr β) : Py (Arr γ) :=
  match broadcast2 a b with
  | .error e => .error e
  | .ok (a, b) => .ok ⟨a.shape, fun i => f (a.get i) (b.get i)⟩

/-- A NumPy ufunc of one argument. -/
def Arr.app {α β : Type} (f : α → β) (a : Arr α) : Arr β := ⟨a.shape, fun i => f (a.get i)⟩

/-- `out[...] = v`, for an array `out` of the given shape: NumPy drops the leading axes that `v` has in
excess, which should be of size one, and broadcasts. -/
def Arr.assignInto {α : Type} (v : Arr α) (shape : List ℕ) : Py (Arr α) :=
  let k := v.shape.length - shape.length
  if (∀ n ∈ v.shape.take k, n = 1) ∧ BcOk (v.shape.drop k) shape then .ok ⟨shape, v.bget⟩
  else .error .valueError

/-- An expression built with elementwise operations on `x`, on parameters, and on numbers. -/
inductive UExpr (N K : Type) where
  | x
  | par (n : N)
  | num (c : K)
  | un (f : K → K) (e : UExpr N K)
  | bin (f : K → K → K) (e e' : UExpr N K)

section
variable {N K Id σ : Type} [DecidableEq N]

/-- Value of an expression; operations on `None` raise `TypeError`. -/
def UExpr.eval (x : Arr K) (env : List (N × Option (Arr K))) : UExpr N K → Py (Arr K)
  | .x => .ok x
  | .par n =>
    match env.lookup n with
    | none => .error .keyError
    | some none => .error .typeError
    | some (some a) => .ok a
  | .num c => .ok (.scalar c)
  | .un f e =>
    match e.eval x env with
    | .error r => .error r
    | .ok a => .ok (a.app f)
  | .bin f e e' =>
    match e.eval x env with
    | .error r => .error r
    | .ok a =>
      match e'.eval x env with
      | .error r => .error r
      | .ok b => a.zip f b

/-- `z(t) if callable(z) else z` (`integration.py` 1219). -/
def Param.valueAt (p : Param K) (t : K) : Py (Option (Arr K)) :=
  match p with
  | .none => .ok Option.none
  | .arr a => .ok (some a)
  | .fn _ f =>
    match f t with
    | .error e => .error e
    | .ok a => .ok (some a)

/-- `sde_args_eval` (`integration.py` 1218-1221). -/
def evalParams (t : K) : List (N × Param K) → Py (List (N × Option (Arr K)))
  | [] => .ok []
  | (n, p) :: ps =>
    match p.valueAt t with
    | .error e => .error e
    | .ok v =>
      match evalParams t ps with
      | .error e => .error e
      | .ok vs => .ok ((n, v) :: vs)

/-- Values of the entries of the dictionary returned by `sde`, in order. -/
def evalEntries (x : Arr K) (env : List (N × Option (Arr K))) :
    List (Id × UExpr N K) → Py (List (Id × Arr K))
  | [] => .ok []
  | (id, e) :: es =>
    match e.eval x env with
    | .error r => .error r
    | .ok a =>
      match evalEntries x env es with
      | .error r => .error r
      | .ok as => .ok ((id, a) :: as)

/-- An instance of an `SDE` subclass (`integration.py` 1081-1148): shapes, sources, parameters of `sde`
after `_sde_args_setup` (1057-1062), the dictionary that `sde` returns, the parameter `x0` of `init`
after `_init_args_setup` (1064-1068), `let`: `factors` is false for `out_x[...] = x` (1528), true for
`out_x[...] = x.sum(axis=-2)` (2272). -/
structure ArrSDE (N K Id σ : Type) where
  paths : ℕ
  xshape : List ℕ
  wshape : List ℕ
  sources : List (Id × (K → K → σ → Py (Arr K × σ)))
  params : List (N × Param K)
  eqs : List (Id × UExpr N K)
  x0 : Arr K
  factors : Bool
  log : Bool
  logK : K → K
  expK : K → K

variable [Field K] [LinearOrder K] [LinearOrder Id]

/-- Shape of the working values: `wshape + (paths,)`. -/
def ArrSDE.wfull (S : ArrSDE N K Id σ) : List ℕ := S.wshape ++ [S.paths]

/-- `SDE.A` (`integration.py` 1203-1225). -/
def ArrSDE.A (S : ArrSDE N K Id σ) (t : K) (x : Arr K) : Py (List (Id × Arr K)) :=
  match evalParams t S.params with
  | .error e => .error e
  | .ok env =>
    match evalEntries x env S.eqs with
    | .error e => .error e
    | .ok A =>
      if ∀ k ∈ A.map Prod.fst, k ∈ S.sources.map Prod.fst then .ok A else .error .keyError

/-- Evaluation of sources in the given order. -/
def evalArrSources (t dt : K) :
    List (Id × (K → K → σ → Py (Arr K × σ))) → σ → Py (List (Id × Arr K) × σ)
  | [], s => .ok ([], s)
  | (id, z) :: zs, s =>
    match z t dt s with
    | .error e => .error e
    | .ok (v, s) =>
      match evalArrSources t dt zs s with
      | .error e => .error e
      | .ok (vs, s) => .ok ((id, v) :: vs, s)

/-- `SDE.dZ` (`integration.py` 1227-1234). -/
def ArrSDE.dZ (S : ArrSDE N K Id σ) (t dt : K) (s : σ) : Py (List (Id × Arr K) × σ) :=
  evalArrSources t dt (S.sources.insertionSort (fun a b => a.1 ≤ b.1)) s

/-- `sum(A.get(id, 0)*dZ[id] for id in A.keys())` (`integration.py` 718): items are added to `acc`,
from the first one on; python starts from the number zero. -/
def sumArr (dZ : List (Id × Arr K)) : List (Id × Arr K) → Arr K → Py (Arr K)
  | [], acc => .ok acc
  | (id, a) :: A, acc =>
    match dZ.lookup id with
    | none => .error .keyError
    | some z =>
      match a.zip (· * ·) z with
      | .error e => .error e
      | .ok p =>
        match acc.zip (· + ·) p with
        | .error e => .error e
        | .ok acc => sumArr dZ A acc

/-- `euler_next` (`integration.py` 707-724). -/
def ArrSDE.eulerNext (S : ArrSDE N K Id σ) (s0 : K) (x : Arr K) (s1 : K) (st : σ) :
    Py (Arr K × σ) :=
  match S.A s0 x with
  | .error e => .error e
  | .ok A =>
    match S.dZ s0 (s1 - s0) st with
    | .error e => .error e
    | .ok (dZ, st) =>
      match sumArr dZ A (.scalar 0) with
      | .error e => .error e
      | .ok d =>
        match x.zip (· + ·) d with
        | .error e => .error e
        | .ok v =>
          match v.assignInto S.wfull with
          | .error e => .error e
          | .ok x' => .ok (x', st)

/-- `SDE.begin` (`integration.py` 1154-1164) and `SDE.init` (1469). -/
def ArrSDE.beginX (S : ArrSDE N K Id σ) : Py (Arr K) :=
  match S.x0.assignInto S.wfull with
  | .error e => .error e
  | .ok x => .ok (if S.log then x.app S.logK else x)

/-- `x.sum(axis=-2)` -/
def Arr.sum2 (a : Arr K) : Py (Arr K) :=
  match a.shape.reverse with
  | p :: n :: pre =>
    .ok ⟨pre.reverse ++ [p],
      fun i => ((List.range n).map fun k => a.get (i.dropLast ++ [k] ++ i.getLast?.toList)).sum⟩
  | _ => .error .indexError

/-- `let` (`integration.py` 1528, 2272). -/
def ArrSDE.letX (S : ArrSDE N K Id σ) (x : Arr K) : Py (Arr K) :=
  if S.factors then
    match x.sum2 with
    | .error e => .error e
    | .ok v => v.assignInto (S.xshape ++ [S.paths])
  else x.assignInto (S.xshape ++ [S.paths])

/-- Integration by `integrator` (`integration.py` 596-779, 1154-1191). -/
def ArrSDE.toPGen (S : ArrSDE N K Id σ) : PGen K (Arr K) (Arr K) σ where
  depth := 2
  begin _ sw st :=
    match sw with
    | [_] =>
      match S.beginX with
      | .error e => .error e
      | .ok x => .ok (fun _ => x, st)
    | _ => .error .indexError
  next _ win target st :=
    match win with
    | [(s0, x)] =>
      match S.eulerNext s0 x target st with
      | .error e => .error e
      | .ok (x', st) => .ok ((target, x'), st)
    | _ => .error .indexError
  store _ _ x st :=
    match S.letX x with
    | .error e => .error e
    | .ok o => .ok (o, st)
  fin st := .ok st

/-- `p(timeline)` (`integration.py` 476-584, 1193-1197): values of the resulting process, and final
state of the sources. -/
def ArrSDE.call (S : ArrSDE N K Id σ) (fuel : ℕ) (steps : Steps K) (i0 : ℤ) (tl : TArr K) (s : σ) :
    Py (List (Option (Arr K)) × σ) :=
  match callPG S.toPGen fuel steps i0 tl s with
  | .error e => .error e
  | .ok r => .ok (if S.log then r.xx.map (Option.map (Arr.app S.expK)) else r.xx, r.s)

end

end Sdepy
