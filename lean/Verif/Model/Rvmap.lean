import Verif.Model.Rv

/-!
# Model of `rvmap` (`/repo/sdepy/infrastructure.py`, lines 1799-1861)
-/

namespace Sdepy

/-- A distribution: given a shape and the state of the random generator, its `rvs` method returns an array
of variates (of type `A`) and the new state, or raises. -/
structure Distr (σ A : Type) where
  rvs : List ℕ → σ → Py (A × σ)

/-- A function with its parameter names, called as `f(y)`, or `f(t, y)` if a time is given. -/
structure PyFun (T A : Type) where
  params : List String
  call : Option T → A → Py A

variable {σ T A : Type}

/-- Variates of `y` mapped by `f`: the classes `new_yt_class`, `new_y_class`. -/
def mapped (f : PyFun T A) (t : Option T) (y : Distr σ A) : Distr σ A where
  rvs size st :=
    match y.rvs size st with
    | .error e => .error e
    | .ok (v, st) =>
      match f.call t v with
      | .error e => .error e
      | .ok w => .ok (w, st)

/-- `rvmap(f, y)` (`infrastructure.py` 1799-1861). -/
def rvmap (f : PyFun T A) (y : MaybeTimed T (Distr σ A)) : Py (MaybeTimed T (Distr σ A)) :=
  match f.params with
  | [] => .error .indexError
  | p :: _ =>
    let timed := p = "t" ∨ p = "s"
    match y with
    | .timed y => .ok (.timed fun t =>
        match y t with
        | .error e => .error e
        | .ok yt => .ok (mapped f (if timed then some t else none) yt))
    | .plain y =>
      if timed then .ok (.timed fun t => .ok (mapped f (some t) y))
      else .ok (.plain (mapped f none y))

end Sdepy
