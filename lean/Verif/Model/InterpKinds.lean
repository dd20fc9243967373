import Verif.Model.Process

/-!
# Model of interpolation kinds (`/repo/sdepy/infrastructure.py`, lines 364-372, 421, 544-647, 3174-3195)

`process.interp` and `montecarlo.pdf`, `montecarlo.cdf` pass the interpolation kind to
`scipy.interpolate.interp1d`. Modelled here are all the kinds it accepts, names and spline orders. What
`interp1d` does is a modelling assumption: positions are found by `numpy.searchsorted`, on sorted points;
splines of order 0 and 1 are piecewise constant and piecewise linear; splines of higher order are an
arbitrary function `spl`, of the order, of points and of values at points. Values are exact.
-/

namespace Sdepy

/-- Argument `kind` of `interp1d`: a string, or an integer, that is the order of a spline. -/
inductive KindArg where
  | name (s : String)
  | order (n : ℕ)
  deriving DecidableEq

/-- Kinds of interpolation of `interp1d`. -/
inductive KindOp where
  | linear
  | nearest
  | nearestUp
  | previous
  | next
  | spline (n : ℕ)
  deriving DecidableEq

/-- How `interp1d` reads its argument `kind`. -/
def KindArg.parse : KindArg → Py KindOp
  | .order n => .ok (.spline n)
  | .name s =>
    if s = "linear" then .ok .linear
    else if s = "nearest" then .ok .nearest
    else if s = "nearest-up" then .ok .nearestUp
    else if s = "previous" then .ok .previous
    else if s = "next" then .ok .next
    else if s = "zero" then .ok (.spline 0)
    else if s = "slinear" then .ok (.spline 1)
    else if s = "quadratic" then .ok (.spline 2)
    else if s = "cubic" then .ok (.spline 3)
    else .error .notImplementedError

/-- Number of points needed. -/
def KindOp.needs : KindOp → ℕ
  | .spline n => n + 1
  | _ => 1

section
variable {K : Type} [Field K] [LinearOrder K]

/-- Value of kind 'previous' (and of a spline of order 0), at points in range: `numpy.searchsorted` counts the
points not above `x`. -/
def interpPrevious (xx pp : List K) (x : K) : K :=
  pp.getD ((xx.takeWhile fun a => a ≤ x).length - 1) 0

/-- Value of kind 'next', at points in range: `numpy.searchsorted` counts the points below `x`. -/
def interpNext (xx pp : List K) (x : K) : K :=
  pp.getD (min (xx.takeWhile fun a => a < x).length (xx.length - 1)) 0

/-- Value of kind 'nearest', at points in range: half way between two points, the left one is taken. -/
def interpNear (xx pp : List K) (x : K) : K :=
  pp.getD (min ((midpoints xx).takeWhile fun b => b < x).length (xx.length - 1)) 0

/-- Value of kind 'nearest-up', at points in range: half way between two points, the right one is taken. -/
def interpNearUp (xx pp : List K) (x : K) : K :=
  pp.getD (min ((midpoints xx).takeWhile fun b => b ≤ x).length (xx.length - 1)) 0

/-- Value at a point in range, for each kind. -/
def KindOp.eval (spl : ℕ → List K → List K → K → K) (xx pp : List K) (x : K) : KindOp → K
  | .linear => interpSeg xx pp x
  | .nearest => interpNear xx pp x
  | .nearestUp => interpNearUp xx pp x
  | .previous => interpPrevious xx pp x
  | .next => interpNext xx pp x
  | .spline 0 => interpPrevious xx pp x
  | .spline 1 => interpSeg xx pp x
  | .spline n => spl n xx pp x

/-- Creation of an instance of `interp1d`, on `n` points: it raises if the kind is not known, or points are too
few. -/
def KindArg.check (kind : KindArg) (n : ℕ) : Py KindOp :=
  match kind.parse with
  | .error e => .error e
  | .ok op => if n < op.needs then .error .valueError else .ok op

/-- Evaluation of an instance of `interp1d` at `x`: outside of the range of points, `fill_value=(lo, hi)` is
returned. -/
def KindOp.fill (spl : ℕ → List K → List K → K → K) (op : KindOp) (xx pp : List K) (lo hi x : K) : K :=
  if x < xx.headD 0 then lo else if xx.getLastD 0 < x then hi else op.eval spl xx pp x

/-- A process, with its instance attribute `interp_kind` if it was set (lines 364-372, 421). -/
structure KProc (K : Type) where
  p : Proc K K
  interpKind : Option KindArg

/-- The attribute `interp_kind`: that of the instance, or that of the class (line 421). -/
def KProc.attr (q : KProc K) : KindArg := q.interpKind.getD (.name "linear")

/-- `interp(kind=kind)` raises, or returns a function (lines 593-613): `interp1d` is called once, on all
components. -/
def KProc.interp (spl : ℕ → List K → List K → K → K) (cast : K → K) (q : KProc K) (kind : Option KindArg) :
    Py (Arr K → Arr K) :=
  let kind := match kind with
    | none => q.attr
    | some k => k
  if q.p.t.length = 1 then
    .ok fun s => ⟨s.shape ++ q.p.x.shape.tail, fun i => q.p.x.get (0 :: i.drop s.shape.length)⟩
  else
    match kind.check q.p.t.length with
    | .error e => .error e
    | .ok op =>
      .ok fun s => ⟨s.shape ++ q.p.x.shape.tail, fun i =>
        let r := i.drop s.shape.length
        cast (op.fill spl q.p.t (q.p.column r) (q.p.x.get (0 :: r)) (q.p.x.get ((q.p.t.length - 1) :: r))
          (s.get (i.take s.shape.length)))⟩

/-- `p(s, kind=kind)` (lines 615-630). -/
def KProc.call (spl : ℕ → List K → List K → K → K) (cast : K → K) (q : KProc K) (kind : Option KindArg)
    (s : Arr K) : Py (Arr K) :=
  match q.interp spl cast kind with
  | .error e => .error e
  | .ok f => .ok (f s)

/-- `p(s, ds, kind=kind)` (lines 615-633). -/
def KProc.callDs (spl : ℕ → List K → List K → K → K) (cast : K → K) (q : KProc K) (kind : Option KindArg)
    (s ds : Arr K) : Py (Arr K) :=
  match q.interp spl cast kind with
  | .error e => .error e
  | .ok f =>
    match Arr.binop (· + ·) s ds with
    | .error e => .error e
    | .ok u => Arr.binop (· - ·) (f u) (f s)

/-- `p.rebase(t, kind=kind)` (lines 635-647): the process returned has no attribute `interp_kind` of its own. -/
def KProc.rebase (spl : ℕ → List K → List K → K → K) (cast : K → K) (q : KProc K) (kind : Option KindArg)
    (t : Arr K) : Py (KProc K) :=
  let t : Arr K := if t.shape = [] then ⟨[1], fun _ => t.get []⟩ else t
  match q.call spl cast kind t with
  | .error e => .error e
  | .ok x =>
    match asTimeline t with
    | .error e => .error e
    | .ok l =>
      match Proc.make l x with
      | .error e => .error e
      | .ok z => .ok ⟨z, none⟩

/-- `piecewise(t, x=x, mode=mode)` sets the attribute to 'nearest' (line 1280). -/
def piecewiseK (p : Proc K K) (mode : String) : Py (KProc K) :=
  match piecewise p mode with
  | .error e => .error e
  | .ok q => .ok ⟨q, some (.name "nearest")⟩

/-- The 'interp' method of `montecarlo.cdf`, with argument `kind` (lines 3175-3181, 3192-3195). -/
def interpCdfKind (spl : ℕ → List K → List K → K → K) (kind : KindArg) (ncounts bins : List K) : Py (K → K) :=
  match kind.check bins.length with
  | .error e => .error e
  | .ok op => .ok (op.fill spl bins (0 :: cumsumFrom 0 (List.zipWith (· * ·) (diffs bins) ncounts)) 0 1)

/-- The 'interp' method of `montecarlo.pdf`, with argument `kind` (lines 3182-3195). -/
def interpPdfKind (spl : ℕ → List K → List K → K → K) (kind : KindArg) (ncounts bins : List K) : Py (K → K) :=
  match kind.check (bins.length + 1) with
  | .error e => .error e
  | .ok op => .ok (op.fill spl (bins.headD 0 :: midpoints bins ++ [bins.getLastD 0]) (0 :: ncounts ++ [0]) 0 0)

end

end Sdepy
