import Verif.Model.SDEs
import Verif.Spec.SDE

/-!
# A system of stochastic differential equations, equation by equation
-/

namespace Sdepy

namespace Spec

/-- The value of equation `i` at component `c` (a multi-index within `vshape`) and path `p`, in an
array packing a system of equations, as documented (`integration.py` 1626-1647): with `addaxis` it
is found at `c ++ [i, p]`; otherwise, `c` being `kk ++ [h]` and `N` the last size of `vshape`, at
`kk ++ [i*N + h, p]`. -/
def component {α : Type} (L : Layout) (X : Arr α) (i : ℕ) (c : List ℕ) (p : ℕ) : α :=
  if L.addaxis then X.get (c ++ [i, p])
  else X.get (c.dropLast ++ [i * L.vshape.getLastD 0 + c.getLastD 0, p])

/-- The scalar equations a system consists of: one for each equation `i`, component `c` and
path `p`. -/
abbrev Cell (L : Layout) : Type :=
  { x : ℕ × List ℕ × ℕ // x.1 < L.q ∧ InRange L.vshape x.2.1 ∧ x.2.2 < L.paths }

variable {T K Id σ : Type} [CommRing K] [LinearOrder Id]

/-- Array of the values of equation `i`, of shape `vshape + (paths,)`. -/
def eqArr (L : Layout) (x : Cell L → K) (i : ℕ) : Arr K :=
  ⟨L.vshape ++ [L.paths], fun idx =>
    if h : (i < L.q ∧ InRange L.vshape idx.dropLast ∧ idx.getLastD 0 < L.paths) ∧ idx ≠ [] then
      x ⟨(i, idx.dropLast, idx.getLastD 0), h.1⟩
    else 0⟩

/-- Value of an array at a multi-index, once broadcast. -/
def bcAt (a : Arr K) (i : List ℕ) : K := a.get (bcIdxRev a.shape.reverse i.reverse).reverse

/-- The dictionary of one of the equations: must be a dictionary, with no key that is not a
declared source. -/
def eqDict (S : SDEs T K Id σ) (A : Option (List (Id × Arr K))) : Py (List (Id × Arr K)) :=
  match A with
  | none => .error .typeError
  | some A =>
    if ∃ k ∈ A.map Prod.fst, k ∉ S.sources.map Prod.fst then .error .keyError else .ok A

/-- The system of equations stated by an `SDEs` subclass. `sde` is given the arrays of values of
each equation; equation `i` is stated by the `i`-th dictionary returned, whose entries are the
coefficients (zero if there is none), broadcast to all components and paths; noise is dispatched as
documented. -/
def system (S : SDEs T K Id σ) : Equation T (Cell S.L → K) Id σ where
  ids := (S.sources.map Prod.fst).toFinset
  noise id t dt s := match S.sources.lookup id with
    | none => .ok (0, s)
    | some z => do
      let (v, s) ← z t dt s
      pure (fun x => component S.L (S.packed v) x.1.1 x.1.2.1 x.1.2.2, s)
  coef t x := do
    match ← S.sde t ((List.range S.L.q).map (eqArr S.L x)) with
    | none => .error .typeError
    | some As =>
      if As.length ≠ S.L.q then .error .valueError
      else
        let As ← mapPy (eqDict S) As
        if ∃ A ∈ As, ∃ p ∈ A, ¬ BcOk p.2.shape (S.L.vshape ++ [S.L.paths]) then .error .valueError
        else pure fun id y =>
          match As[y.1.1]? with
          | none => 0
          | some A =>
            match A.lookup id with
            | none => 0
            | some a => bcAt a (y.1.2.1 ++ [y.1.2.2])

/-- Initial condition: one value for all equations, or one value for each. -/
def systemInit (S : SDEs T K Id σ) : Cell S.L → K := fun y =>
  if S.x0.shape = [] then bcAt S.x0 (y.1.2.1 ++ [y.1.2.2])
  else bcAt ⟨S.x0.shape.tail, fun i => S.x0.get (y.1.1 :: i)⟩ (y.1.2.1 ++ [y.1.2.2])

/-- Initial conditions that fit the system. -/
def InitOk (S : SDEs T K Id σ) : Prop :=
  S.x0.shape = [] ∨ ∃ s, S.x0.shape = S.L.q :: s ∧ BcOk s (S.L.vshape ++ [S.L.paths])

/-- The dictionaries involved are well formed, and so is the layout. -/
structure SDEsOk (S : SDEs T K Id σ) : Prop where
  layout : 1 ≤ S.L.q ∧ (S.L.vshape = [] → S.L.addaxis = true)
  sources : DictOk S.sources
  sde : ∀ t xs As, S.sde t xs = .ok (some As) → ∀ A, some A ∈ As → DictOk A

end Spec

end Sdepy
