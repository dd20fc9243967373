import Verif.Py
import Mathlib.Data.List.Dedup
import Mathlib.Data.List.Nodup
import Mathlib.Data.Int.Notation
import Mathlib.Data.Nat.Notation

/-!
# Model of the parameters of SDEs, and of the `integrate` decorator
(`/repo/sdepy/integration.py`, lines 970-1055, 1843-1955)

Python dictionaries are association lists with distinct keys; `Option V` is a default, `none`
standing for `inspect._empty`. Two defaults are the same if equal and hashable; unhashable defaults
(a `TypeError` raised by `set`) are not modelled.
-/

namespace Sdepy

/-- `_signature` of a function (`infrastructure.py` 259-265): names and defaults of its
parameters, in order. -/
abbrev Sig (N V : Type) := List (N × Option V)

section
variable {N V : Type} [DecidableEq N] [DecidableEq V]

/-- `dict.update` with one item. -/
def dictSet {W : Type} (D : List (N × W)) (k : N) (w : W) : List (N × W) :=
  if k ∈ D.map Prod.fst then D.map fun p => if p.1 = k then (k, w) else p else D ++ [(k, w)]

/-- `dict.update`. -/
def dictUpdate {W : Type} (D E : List (N × W)) : List (N × W) :=
  E.foldl (fun D p => dictSet D p.1 p.2) D

/-- Values collected for key `k`: `defaults[k]` (`integration.py` 1012-1017). -/
def defaultsOf (sigs : List (Sig N V)) (k : N) : List (Option V) :=
  sigs.flatMap fun D => (D.filter fun p => p.1 = k).map Prod.snd

/-- `_inspect_args_defaults` from line 1004 on (`integration.py` 1004-1035): expected parameters
and their defaults. -/
def inspectArgs (sigs : List (Sig N V)) : Py (Sig N V) :=
  let expected := sigs.foldl dictUpdate []
  if ∃ k ∈ expected.map Prod.fst, 1 < (defaultsOf sigs k).dedup.length then .error .typeError
  else .ok expected

/-- `_consolidate_args` (`integration.py` 1037-1055). -/
def consolidateArgs (expected : Sig N V) (args : List (N × V)) : Py (List (N × V)) :=
  let all := dictUpdate expected (args.map fun p => (p.1, some p.2))
  if ∃ k ∈ all.map Prod.fst, k ∉ expected.map Prod.fst then .error .typeError
  else if ∃ p ∈ all, p.2 = none then .error .typeError
  else .ok (all.filterMap fun p => p.2.map fun v => (p.1, v))

/-- `_inspect_args_defaults` (`integration.py` 986-1035) and `_consolidate_args`: signatures of
the source methods (`none`: the class has no method `source_id`, 970-977), and of `init`, `sde`,
`more` in full. `nvars` is the number of equation variables. -/
def resolveArgs (sources : List (Option (Sig N V))) (init sde more : Sig N V) (nvars : ℕ)
    (args : List (N × V)) : Py (List (N × V)) :=
  if none ∈ sources then .error .valueError
  else
    match inspectArgs (sources.filterMap id ++ [init.drop 2, sde.drop (1 + nvars), more]) with
    | .error e => .error e
    | .ok expected => consolidateArgs expected args

/-- `_get_args` (`integration.py` 982-984): parameters served to a method with signature `sig`. -/
def getArgs (all : List (N × V)) (sig : Sig N V) : List (N × V) :=
  all.filter fun p => p.1 ∈ sig.map Prod.fst

end

/-! ### the `integrate` decorator -/

/-- What a test evaluation of the decorated function can return: a list or tuple of objects, or
another object; objects are dictionaries, of which the keys matter, or not (`none`). -/
inductive TestVal (Id : Type) where
  | seq (items : List (Option (List Id)))
  | obj (o : Option (List Id))

/-- The class built by `integrate`: a system if `q > 0`, a single equation if `q = 0`, and the
sources. -/
structure Built (Id : Type) where
  system : Bool
  q : ℤ
  sources : List Id

section
variable {Id : Type} [DecidableEq Id]

/-- `ids.update(z.keys())` for each item (`integration.py` 1870-1872): not a dictionary is an
`AttributeError`. -/
def collectIds : List (Option (List Id)) → Py (List Id)
  | [] => .ok []
  | none :: _ => .error .attributeError
  | some ks :: zs =>
    match collectIds zs with
    | .error e => .error e
    | .ok ids => .ok (ks ++ ids)

/-- The consistency check (`integration.py` 1874-1875); `sources` are compared as sets. -/
def inconsistent (q : Option ℤ) (neq : ℤ) (sources : Option (List Id)) (ids : List Id) : Bool :=
  (match q with
    | none => false
    | some q => decide (neq ≠ q)) ||
  (match sources with
    | none => false
    | some ss => decide (¬ ((∀ i ∈ ss, i ∈ ids) ∧ ∀ i ∈ ids, i ∈ ss)))

/-- Sources, consistency check and result (`integration.py` 1870-1889), given the number of
equations and the dictionaries found. -/
def buildItems (neq : ℤ) (items : List (Option (List Id))) (q : Option ℤ)
    (sources : Option (List Id)) : Py (Built Id) :=
  match collectIds items with
  | .error e => .error e
  | .ok ids =>
    if inconsistent q neq sources ids then .error .typeError else .ok ⟨neq ≠ 0, neq, ids⟩

/-- Inference from the test value (`integration.py` 1860-1889). -/
def buildFrom (v : TestVal Id) (q : Option ℤ) (sources : Option (List Id)) : Py (Built Id) :=
  match v with
  | .seq items =>
    if items.length = 0 then .error .valueError else buildItems items.length items q sources
  | .obj o => buildItems 0 [o] q sources

/-- `_SDE_from_function` (`integration.py` 1843-1891). `test0`, `test2` are the outcomes of
`f()` and `f(1., 1.)` (`none` if an exception is raised). -/
def sdeFromFunction (test0 test2 : Option (TestVal Id)) (q : Option ℤ) (sources : Option (List Id)) :
    Py (Built Id) :=
  match q, sources with
  | some q, some ids => .ok ⟨q ≠ 0, q, ids⟩
  | q, sources =>
    match test0 with
    | some v => buildFrom v q sources
    | none =>
      match test2 with
      | some v => buildFrom v q sources
      | none => .error .typeError

end

end Sdepy
