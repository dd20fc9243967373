import Verif.Model.Sources

/-!
# Model of the data type of Poisson increments, in compound Poisson sources
(`/repo/sdepy/infrastructure.py`, lines 1566-1634, 1881-2040 and 2047-2130)

Simplifications: data types are `None`, integer or floating point, whatever their size; values are exact.
-/

namespace Sdepy

/-- The argument `dtype`, or `ptype`. -/
inductive DType where
  | none | int | float
  deriving DecidableEq

/-- The type of an array created by `numpy.empty(shape, dtype=dtype)`: `None` stands for `float`
(`infrastructure.py` 1623). -/
def DType.isInt : DType → Bool
  | .int => true
  | .none => false
  | .float => false

/-- A source of Poisson increments: its `paths`, `vshape` and `dtype`; the values of its increments, that are whole numbers
whatever the type of the array that holds them. -/
structure PoissonObj (T σ : Type) where
  paths : ℕ
  vshape : List ℕ
  dtype : DType
  call : Arr T → Arr T → σ → Py (Arr ℤ × σ)

/-- The classes of sources of Poisson increments without memory. -/
inductive PoissonClass where
  | poisson | even
  deriving DecidableEq

/-- The default of `dtype`: `int` for `poisson_source` (`infrastructure.py` 1602), `None` for
`even_poisson_source` (2057-2058), passed on to `poisson_source` (2063-2064). -/
def PoissonClass.defaultDType : PoissonClass → DType
  | .poisson => .int
  | .even => .none

section
variable {T σ : Type} [Field T] [LinearOrder T]

/-- Instances of `poisson_source` and `even_poisson_source` (`infrastructure.py` 1602-1615, 2057-2091); `dtype` may be
omitted. -/
def PoissonClass.new (c : PoissonClass) (draw : (List ℕ → T) → List ℕ → σ → (List ℕ → ℤ) × σ)
    (lam : RawParam T) (dtype : Option DType) (paths : ℕ) (vshape : List ℕ) : Py (PoissonObj T σ) :=
  match c with
  | .poisson =>
    match poissonNew paths vshape lam with
    | .error e => .error e
    | .ok P => .ok ⟨paths, vshape, dtype.getD PoissonClass.poisson.defaultDType, poissonCall P draw⟩
  | .even =>
    match antithetics (fun k => poissonNew k vshape lam) PoissonSrc.paths (fun P => poissonCall P draw)
        (fun z => z) paths with
    | .error e => .error e
    | .ok (p, call) => .ok ⟨p, vshape, dtype.getD PoissonClass.even.defaultDType, call⟩

end

/-- `dn` as given by the user: `None`, a class, or an instance; the latter is callable and has `paths` and `vshape`. -/
inductive DnArg (T σ : Type) where
  | none
  | cls (c : PoissonClass)
  | obj (S : PoissonObj T σ)

/-- What `_source_setup` is given. -/
def DnArg.raw {T σ : Type} : DnArg T σ → RawSource PoissonClass (PoissonObj T σ)
  | .none => .none
  | .cls c => .cls c
  | .obj S => .obj S true (some S.paths) (some S.vshape)

/-- Attributes of a `cpoisson_source`: as `CPoissonSrc`, with the type of increments of `dn`. -/
structure CPoissonObj (T Y σ : Type) where
  paths : ℕ
  vshape : List ℕ
  dn : PoissonObj T σ
  y : T → Py (Rvs Y σ)

section
variable {T Y σ : Type} [Field T] [LinearOrder T] [CommRing Y]

/-- `cpoisson_source.__init__` (`infrastructure.py` 1986-2001). -/
def cpoissonNew (draw : (List ℕ → T) → List ℕ → σ → (List ℕ → ℤ) × σ) (paths : ℕ) (vshape : List ℕ)
    (dn : DnArg T σ) (ptype : DType) (lam : RawParam T) (y : T → Py (Rvs Y σ)) : Py (CPoissonObj T Y σ) :=
  match sourceSetup dn.raw .poisson (fun c p v => c.new draw lam (some ptype) p v) paths vshape with
  | .error e => .error e
  | .ok dn => .ok ⟨paths, vshape, dn, y⟩

/-- `range(1, nmax + 1)` (`infrastructure.py` 2032), as the number of iterations: it raises `TypeError` if `nmax` is not an
integer, but the element of an array of floats (2028-2029: `sign_dt[i]*dn[i]` has the type of `dn`). -/
def rangeLen (isInt : Bool) (nmax : ℤ) : Py ℕ :=
  match isInt with
  | false => .error .typeError
  | true => .ok nmax.toNat

/-- Body of the loop over times (`infrastructure.py` 2027-2038), as `cpoissonBody`, for increments of either type. -/
def cpoissonBodyT (isInt : Bool) (rv : T → Py (Rvs Y σ)) (shape : List ℕ) (t dt : List ℕ → T)
    (dn : List ℕ → Arr ℤ) (i : List ℕ) (s : σ) : Py ((Arr Y × List (YSample Y)) × σ) :=
  let dnp : Arr ℤ := ⟨(dn i).shape, fun j => sgn (dt i) * (dn i).get j⟩
  match arrMax dnp with
  | .error e => .error e
  | .ok nmax =>
    match rv (t i + dt i / 2) with
    | .error e => .error e
    | .ok rvs =>
      match rangeLen isInt nmax with
      | .error e => .error e
      | .ok n => jumpLoop rvs (sgn (dt i)) dnp n 1 ⟨shape, fun _ => 0⟩ [] s

/-- `cpoisson_source.__call__` (`infrastructure.py` 2017-2040), as `cpoissonCall`, for increments of either type. -/
def CPoissonObj.call (S : CPoissonObj T Y σ) (t dt : Arr T) (s : σ) :
    Py ((Arr Y × Arr ℤ × List (YSample Y)) × σ) :=
  match broadcast2 t dt with
  | .error e => .error e
  | .ok (t, dt) =>
    match S.dn.call t dt s with
    | .error e => .error e
    | .ok (dn, s) =>
      let tl := dt.shape.length
      if dn.shape.take tl ≠ dt.shape then .error .indexError
      else
        match loopIdx (cpoissonBodyT S.dn.dtype.isInt S.y (S.vshape ++ [S.paths]) t.get dt.get
            fun i => ⟨dn.shape.drop tl, fun j => dn.get (i ++ j)⟩) (ndindex dt.shape) s with
        | .error e => .error e
        | .ok (r, s) =>
          .ok ((assemble dt.shape (S.vshape ++ [S.paths]) 0 (r.map fun p => (p.1, p.2.1)),
            dn, r.flatMap fun p => p.2.2), s)

end

end Sdepy
