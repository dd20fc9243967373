import Verif.Model.SDE
import Mathlib.Algebra.BigOperators.Group.Finset.Basic
import Mathlib.Data.Finset.Sort

/-!
# The Euler-Maruyama recursion, as users expect it
-/

namespace Sdepy.Spec

open BigOperators

variable {T X O Id σ : Type} [LinearOrder Id]

section
variable [Zero X]

/-- Value of entry `id` of a dictionary, zero if absent. -/
def entry (A : List (Id × X)) (id : Id) : X := (A.lookup id).getD 0

/-- Realise the sources listed by ascending id, for a step from `t` of size `dt`. -/
def realise (z : Id → T → T → σ → Py (X × σ)) (t dt : T) : List Id → σ → Py ((Id → X) × σ)
  | [], s => .ok (fun _ => 0, s)
  | id :: ids, s => do
    let (v, s) ← z id t dt s
    let (f, s) ← realise z t dt ids s
    pure (Function.update f id v, s)

/-- A stochastic differential equation: the differentials `ids` it declares, how they are
realised, and its coefficients. -/
structure Equation (T X Id σ : Type) where
  ids : Finset Id
  noise : Id → T → T → σ → Py (X × σ)
  coef : T → X → Py (Id → X)

end

section
variable [CommRing X]

/-- One step: `x(t+dt) = x(t) + sum over differentials of coefficient(t, x(t)) * dZ(t, dt)`. -/
def Equation.step [Sub T] (E : Equation T X Id σ) (t : T) (x : X) (t' : T) (s : σ) :
    Py (X × σ) := do
  let a ← E.coef t x
  let (dz, s) ← realise E.noise t (t' - t) (E.ids.sort (· ≤ ·)) s
  pure (x + ∑ id ∈ E.ids, a id * dz id, s)

/-- The Euler-Maruyama solution along given time points, starting from `x` at `t`. -/
def Equation.path [Sub T] (E : Equation T X Id σ) : T → X → List T → σ → Py (List (T × X) × σ)
  | _, _, [], s => .ok ([], s)
  | t, x, t' :: ts, s => do
    let (x', s) ← E.step t x t' s
    let (ps, s) ← E.path t' x' ts s
    pure ((t', x') :: ps, s)

/-- The solution on a whole grid, from `x0` at `t0`, first backwards and then forwards. -/
def Equation.solution [LinearOrder T] [Sub T] (E : Equation T X Id σ) (t0 : T) (x0 : X)
    (grid : List T) (s : σ) : Py (List (T × X) × σ) := do
  let (pb, s) ← E.path t0 x0 (grid.filter (· < t0)).reverse s
  let (pf, s) ← E.path t0 x0 (grid.filter (t0 < ·)) s
  pure (pb.reverse ++ (t0, x0) :: pf, s)

end

section
variable [Zero X]

/-- The equation stated by an `SDE` subclass: the coefficient of a differential is the entry of
the dictionary returned by `sde`, zero if there is none. `sde` must return a dictionary,
with no key that is not a declared source. -/
def equation (S : SDE T X O Id σ) : Equation T X Id σ where
  ids := (S.sources.map Prod.fst).toFinset
  noise id t dt s := match S.sources.lookup id with
    | none => .ok (0, s)
    | some z => z t dt s
  coef t x := do
    match ← S.sde t x with
    | none => .error .typeError
    | some A =>
      if ∃ k ∈ A.map Prod.fst, k ∉ S.sources.map Prod.fst then .error .keyError
      else pure (entry A)

/-- One step of the equation stated by an `SDE` subclass, in an arithmetic that may be rounded: products of
coefficients and realised differentials are added, to zero, in the order in which the dictionary returned by
`sde` lists them. -/
def roundedStep [Add X] [Mul X] [Sub T] (S : SDE T X O Id σ) (t : T) (x : X) (t' : T) (s : σ) :
    Py (X × σ) := do
  match ← S.sde t x with
  | none => .error .typeError
  | some A =>
    if ∃ k ∈ A.map Prod.fst, k ∉ S.sources.map Prod.fst then .error .keyError
    else
      let (dz, s) ← realise (equation S).noise t (t' - t) ((S.sources.map Prod.fst).toFinset.sort (· ≤ ·)) s
      pure (x + A.foldl (fun acc p => acc + p.2 * dz p.1) 0, s)

end

/-- Values at given time points, computed step by step from `x` at `t`. -/
def pathOf (step : T → X → T → σ → Py (X × σ)) : T → X → List T → σ → Py (List (T × X) × σ)
  | _, _, [], s => .ok ([], s)
  | t, x, t' :: ts, s => do
    let (x', s) ← step t x t' s
    let (ps, s) ← pathOf step t' x' ts s
    pure ((t', x') :: ps, s)

/-- The same on a whole grid, from `x0` at `t0`, first backwards and then forwards. -/
def solutionOf [LinearOrder T] (step : T → X → T → σ → Py (X × σ)) (t0 : T) (x0 : X) (grid : List T)
    (s : σ) : Py (List (T × X) × σ) := do
  let (pb, s) ← pathOf step t0 x0 (grid.filter (· < t0)).reverse s
  let (pf, s) ← pathOf step t0 x0 (grid.filter (t0 < ·)) s
  pure (pb.reverse ++ (t0, x0) :: pf, s)

/-- Python dictionaries have no repeated keys. -/
def DictOk {V : Type} (A : List (Id × V)) : Prop := (A.map Prod.fst).Nodup

/-- The dictionaries involved in an SDE are well formed. -/
structure SDEOk (S : SDE T X O Id σ) : Prop where
  sources : DictOk S.sources
  sde : ∀ t x A, S.sde t x = .ok (some A) → DictOk A

end Sdepy.Spec
