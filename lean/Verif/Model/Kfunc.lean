import Verif.Py
import Verif.Model.Args

/-!
# Functions and classes with managed keywords

Model of `/repo/sdepy/kfun.py`.

Dictionaries are association lists, as in `Verif/Model/Args.lean`. Names have a type `N`, values a
type `V`. Objects live in a heap: a list, in which an object is referred to by its position; nothing
is ever removed from it (garbage collection is not modelled). Only the objects that a caller can
hold are put in the heap: an object created and evaluated within one call is not.

A wrapped class is given by what its `__init__` and `__call__` do: they are arbitrary functions,
which may raise, of the attributes of the object (`S`) and of the arguments. Simplified: effects of
`__init__` and `__call__` on anything else than the attributes of the object are not modelled, and
neither are the undecorated subclasses of a kfunc class (lines 127-135, a warning is issued and
instances are created as for ordinary classes), warnings, and the parameters named `cls` or `self`,
with which python refuses to call the wrappers.
-/

namespace Sdepy

/-- Kinds of parameters, as told by the `inspect` module. -/
inductive PKind where
  | posOnly
  | posOrKw
  | varPos
  | kwOnly
  | varKw
  deriving DecidableEq, Repr

/-- A parameter in a signature; `default = none` stands for `inspect._empty`. -/
structure SigParam (N V : Type) where
  name : N
  kind : PKind
  default : Option V
  deriving DecidableEq, Repr

section
variable {N V S R : Type} [DecidableEq N]

/-! ### evaluation -/

/-- A class or function wrapped as a kfunc: behaviour of the methods of the wrapped class `f`, and
the class attributes set by the wrapper (`kfun.py` 121-122, 242-243). -/
structure KClass (N V S R : Type) where
  /-- `f.__init__(**args)`: attributes of the instance -/
  init : List (N × V) → Py S
  /-- `f.__call__(*vars, **args)`: outcome, and attributes of the instance after the call -/
  call : S → List V → List (N × V) → Py R × S
  /-- keys of `_kfunc_call_args` -/
  callNames : List N
  /-- `_kfunc_init_args` -/
  initArgs : Sig N V
  /-- `self.args`, for SDE classes (`kfun.py` 183) -/
  sdeArgs : Option (S → List (N × V))

/-- An instance: `_kfunc_params`, `_kfunc_parent` and the other attributes. -/
structure KObj (N V S : Type) where
  params : List (N × V)
  parent : Option ℕ
  state : S
  deriving DecidableEq, Repr

/-- What a call to a kfunc class or instance returns: an instance of the kfunc class, or a result of
the wrapped object. -/
inductive KRes (R : Type) where
  | inst (i : ℕ)
  | val (r : R)
  deriving DecidableEq, Repr

/-- `_kfunc_split_args`, `call_args` (`kfun.py` 41-42). -/
def KClass.callArgs (c : KClass N V S R) (args : List (N × V)) : List (N × V) :=
  args.filter fun p => p.1 ∈ c.callNames

/-- `_kfunc_split_args`, `init_args` (`kfun.py` 43-44). -/
def KClass.parArgs (c : KClass N V S R) (args : List (N × V)) : List (N × V) :=
  args.filter fun p => ¬ p.1 ∈ c.callNames

/-- `__new__` of the wrapper (`kfun.py` 124-151). -/
def KClass.new (c : KClass N V S R) (h : List (KObj N V S)) (vars : List V) (args : List (N × V)) :
    Py (KRes R) × List (KObj N V S) :=
  match c.init (c.parArgs args) with
  | .error e => (.error e, h)
  | .ok s =>
    if vars ≠ [] ∨ c.callArgs args ≠ [] then
      match (c.call s vars (c.callArgs args)).1 with
      | .error e => (.error e, h)
      | .ok r => (.ok (.val r), h)
    else (.ok (.inst h.length), h ++ [⟨c.parArgs args, none, s⟩])

/-- `__call__` of the wrapper, for the instance `h[i]` (`kfun.py` 155-180). An `i` that is no
instance does not occur in python: the model raises. -/
def KClass.callInst (c : KClass N V S R) (h : List (KObj N V S)) (i : ℕ) (vars : List V)
    (args : List (N × V)) : Py (KRes R) × List (KObj N V S) :=
  match h[i]? with
  | none => (.error .attributeError, h)
  | some o =>
    if c.parArgs args = [] then
      let out := c.call o.state vars (c.callArgs args)
      match out.1 with
      | .error e => (.error e, h.set i { o with state := out.2 })
      | .ok r => (.ok (.val r), h.set i { o with state := out.2 })
    else
      let merged := dictUpdate o.params (c.parArgs args)
      match c.init merged with
      | .error e => (.error e, h)
      | .ok s =>
        if vars ≠ [] ∨ c.callArgs args ≠ [] then
          match (c.call s vars (c.callArgs args)).1 with
          | .error e => (.error e, h)
          | .ok r => (.ok (.val r), h)
        else (.ok (.inst h.length), h ++ [⟨merged, some i, s⟩])

/-- The `params` property (`kfun.py` 183-196). -/
def KClass.paramsOf (c : KClass N V S R) (o : KObj N V S) : Sig N V :=
  let d := dictUpdate c.initArgs (o.params.map fun p => (p.1, some p.2))
  match c.sdeArgs with
  | none => d
  | some a => dictUpdate d ((a o.state).map fun p => (p.1, some p.2))

/-- A statement of a program using a kfunc. -/
inductive KOp (N V : Type) where
  | new (vars : List V) (args : List (N × V))
  | call (i : ℕ) (vars : List V) (args : List (N × V))

/-- Heap after a statement, whatever its outcome. -/
def KClass.step (c : KClass N V S R) (h : List (KObj N V S)) : KOp N V → List (KObj N V S)
  | .new vars args => (c.new h vars args).2
  | .call i vars args => (c.callInst h i vars args).2

/-- Heap after a program. -/
def KClass.run (c : KClass N V S R) (h : List (KObj N V S)) (ops : List (KOp N V)) :
    List (KObj N V S) :=
  ops.foldl c.step h

/-! ### wrapping -/

/-- What `_kfunc_decorate_class` looks at, in a class `f`: whether it has an attribute `_is_kfunc`;
whether it, or a base class other than `object`, defines `__new__`, `__init__`, `__call__`; the
signatures of `f.__init__` and `f.__call__`, the instance included. -/
structure ClassInfo (N V : Type) where
  isKfunc : Bool
  hasNew : Bool
  hasInit : Bool
  hasCall : Bool
  initSig : List (SigParam N V)
  callSig : List (SigParam N V)

/-- Class attributes of the wrapper: `_kfunc_init_args` and the keys of `_kfunc_call_args`. -/
structure KMeta (N V : Type) where
  initArgs : Sig N V
  callNames : List N
  deriving DecidableEq, Repr

/-- Signature without the `**kwargs` parameter (`kfun.py` 90-95, 214-216). -/
def noVarKw (s : List (SigParam N V)) : List (SigParam N V) := s.filter fun z => z.kind ≠ .varKw

/-- `_kfunc_decorate_class` (`kfun.py` 57-201): class attributes of the wrapper. -/
def decorateClass (f : ClassInfo N V) : Py (KMeta N V) :=
  if f.isKfunc = false ∧ f.hasNew = true then .error .typeError
  else if f.isKfunc = false ∧ ¬ (f.hasInit = true ∧ f.hasCall = true) then .error .typeError
  else
    let ini := (noVarKw f.initSig).drop 1
    let cal := (noVarKw f.callSig).drop 1
    if ini.any fun z => z.kind ≠ .kwOnly then .error .typeError
    else if (cal.map (·.name)).any fun k => k ∈ ini.map (·.name) then .error .typeError
    else .ok ⟨ini.map fun z => (z.name, z.default), cal.map (·.name)⟩

/-- What can be given to the decorators: a class, or a function with its signature. -/
inductive Decorated (N V : Type) where
  | cls (f : ClassInfo N V)
  | fn (sig : List (SigParam N V))

/-- `_kfunc_decorate_function(nvar)(f)` (`kfun.py` 204-248): class attributes of the wrapper. The
class defined at 232-240 is accepted by `_kfunc_decorate_class`: it defines `__init__` and
`__call__`, and its `__init__` has no parameters but `**args`. -/
def decorateFunction (nvar : ℤ) : Decorated N V → Py (KMeta N V)
  | .cls _ => .error .syntaxError
  | .fn sig =>
    let s := noVarKw sig
    if ¬ (0 < nvar ∧ nvar ≤ s.length) then .error .valueError
    else if (s.drop nvar.toNat).any fun z => z.kind ≠ .kwOnly then .error .typeError
    else .ok ⟨(s.drop nvar.toNat).map fun z => (z.name, z.default),
      (s.take nvar.toNat).map (·.name)⟩

/-- Result of `kfunc(f, nvar=nvar)`: a wrapper, or a decorator. -/
inductive KfuncOut (N V : Type) where
  | wrapped (m : KMeta N V)
  | decorator (dec : Decorated N V → Py (KMeta N V))

/-- `kfunc` (`kfun.py` 251-355). -/
def kfuncDeco (f : Option (Decorated N V)) (nvar : Option ℤ) : Py (KfuncOut N V) :=
  match f, nvar with
  | some (.cls f), none =>
    match decorateClass f with
    | .error e => .error e
    | .ok m => .ok (.wrapped m)
  | none, some n => .ok (.decorator (decorateFunction n))
  | _, _ => .error .syntaxError

/-- The kfunc class made of a function by `_kfunc_decorate_function` (`kfun.py` 232-244): its
`__init__` stores the parameters and its `__call__` evaluates `f(*var, **args, **params)`, which
raises in case of names given twice. -/
def functionClass (m : KMeta N V) (f : List V → List (N × V) → Py R) :
    KClass N V (List (N × V)) R where
  init := fun args => .ok args
  call := fun s vars args =>
    (if args.any (fun p => p.1 ∈ s.map Prod.fst) then .error .typeError else f vars (args ++ s), s)
  callNames := m.callNames
  initArgs := m.initArgs
  sdeArgs := none

end

end Sdepy
