import Verif.NpIndex
import Verif.Model.McPdf
import Mathlib.Analysis.SpecialFunctions.Exp

/-!
# Model of the `process` class (`/repo/sdepy/infrastructure.py`, lines 272-1281)

Values and times are exact numbers. Data types are not modelled, but for their effects on values: a function
`cast` stands for the conversion of computed values to the data type of the process (the identity for
floating point processes, in exact arithmetic). Arguments `out`, `dtype` are not modelled.
-/

namespace Sdepy

/-- A process: its timeline, and its values as an array. -/
structure Proc (T K : Type) where
  t : List T
  x : Arr K

section create
variable {T K : Type}

/-- A one dimensional array as a list. -/
def Arr.toList1 (a : Arr T) : List T := (List.range (a.shape.headD 0)).map fun k : ℕ => a.get [k]

/-- The timeline as a vector (lines 425-430). -/
def asTimeline (t : Arr T) : Py (List T) :=
  if t.shape.length > 1 ∨ t.shape.prod = 0 then .error .valueError
  else if t.shape = [] then .ok [t.get []]
  else .ok t.toList1

/-- The last steps of instantiation, given a vector as a timeline (lines 425-427, 449-456). -/
def Proc.make (t : List T) (x : Arr K) : Py (Proc T K) :=
  if t.length = 0 then .error .valueError
  else if x.shape.take 1 ≠ [t.length] then .error .valueError
  else .ok ⟨t, x⟩

/-- `process(t, x=x, v=v, c=c)` (`process.__new__`, `infrastructure.py` 423-456), with `dtype=None`. The
function `toFloat` is the conversion to the default data type of `np.empty`, done in line 444. -/
def Proc.new (toFloat : K → K) (t : Arr T) (x v c : Option (Arr K)) : Py (Proc T K) :=
  match asTimeline t with
  | .error e => .error e
  | .ok t =>
    match x, v, c with
    | some x, none, none => Proc.make t x
    | none, some v, none => Proc.make t ⟨v.shape ++ [1], fun i => v.get i.dropLast⟩
    | none, none, some c =>
      if t.length = 1 then Proc.make t ⟨1 :: c.shape ++ [1], fun i => c.get i.tail.dropLast⟩
      else Proc.make t ⟨t.length :: c.shape ++ [1], fun i => toFloat (c.get i.tail.dropLast)⟩
    | _, _, _ => .error .valueError

/-- `p.paths` (`infrastructure.py` 719-724). -/
def Proc.paths (p : Proc T K) : ℕ := p.x.shape.getLastD 0

/-- `p.vshape` (`infrastructure.py` 727-729): `shape[1:-1]`. -/
def Proc.vshape (p : Proc T K) : List ℕ := p.x.shape.dropLast.tail

end create

section ufunc
variable {T K : Type} [DecidableEq T]

/-- `p._is_compatible(q)` (`infrastructure.py` 458-471). -/
def Proc.isCompatible (p q : Proc T K) : Prop :=
  (p.t = q.t ∨ p.t.length = 1 ∨ q.t.length = 1) ∧
    p.x.shape.tail.length = q.x.shape.tail.length ∧
    ∀ n ∈ List.zip p.x.shape.tail q.x.shape.tail, n.1 = n.2 ∨ n.1 = 1 ∨ n.2 = 1

instance (p q : Proc T K) : Decidable (p.isCompatible q) := by
  unfold Proc.isCompatible; infer_instance

/-- An operand of a ufunc. -/
inductive Opd (T K : Type) where
  | proc (p : Proc T K)
  | arr (a : Arr K)

def Opd.x : Opd T K → Arr K
  | .proc p => p.x
  | .arr a => a

/-- The processes among the operands. -/
def Opd.procs : List (Opd T K) → List (Proc T K)
  | [] => []
  | .proc p :: l => p :: Opd.procs l
  | .arr _ :: l => Opd.procs l

/-- The shape to which NumPy broadcasts all operands. -/
def bcShapes : List (List ℕ) → Option (List ℕ)
  | [] => some []
  | s :: l =>
    match bcShapes l with
    | none => none
    | some t => bcShape s t

/-- The timeline of the result (`process.__array_wrap__`, lines 530-536). -/
def wrapTimeline : List (Proc T K) → List T
  | [] => []
  | p :: ps =>
    match ps.find? fun a => 1 < a.t.length with
    | some a => a.t
    | none => p.t

/-- A ufunc (with any number of inputs, one output) on operands among which there are processes: NumPy
broadcasts their shapes, then calls `__array_prepare__` of the operand with the highest priority, i.e. the
first process, then computes values, then calls `__array_wrap__` of the same
(`infrastructure.py` 489-538; NumPy before version 2). -/
def ufunc (f : List K → K) (ops : List (Opd T K)) : Py (Proc T K) :=
  match bcShapes (ops.map fun o => o.x.shape), Opd.procs ops with
  | none, _ => .error .valueError
  | _, [] => .error .typeError
  | some sh, p :: ps =>
    if ∀ a ∈ p :: ps, a.isCompatible p then
      Proc.make (wrapTimeline (p :: ps)) ⟨sh, fun i => f (ops.map fun o => o.x.bget i)⟩
    else .error .valueError

end ufunc

section index
variable {T K : Type}

/-- `t[key]` for a timeline, and for `None` if the index is empty. -/
def listIndex (t : List T) (ix : NpIx) : Py (List T) :=
  match t with
  | [] => .error .indexError
  | a :: _ =>
    match (⟨[t.length], fun i => t.getD (i.headD 0) a⟩ : Arr T).npIndex [ix] with
    | .error e => .error e
    | .ok r => .ok r.toList1

/-- An integer index is treated as a slice (lines 690-694). -/
def intToSlice : NpIx → NpIx
  | .int i => if i = -1 then .slice (some i) none none else .slice (some i) (some (i + 1)) none
  | ix => ix

/-- `p['t', ix]` (`infrastructure.py` 688-696). -/
def Proc.getT (p : Proc T K) (ix : NpIx) : Py (Proc T K) :=
  match listIndex p.t (intToSlice ix) with
  | .error e => .error e
  | .ok t =>
    match p.x.npIndex [intToSlice ix] with
    | .error e => .error e
    | .ok x => Proc.make t x

/-- `x[..., ix]`. -/
def Arr.indexLast (a : Arr K) (ix : NpIx) : Py (Arr K) :=
  a.npIndex (List.replicate (a.shape.length - 1) NpIx.all ++ [ix])

/-- `p['p', ix]` (`infrastructure.py` 688-699). -/
def Proc.getP (p : Proc T K) (ix : NpIx) : Py (Proc T K) :=
  match p.x.indexLast (intToSlice ix) with
  | .error e => .error e
  | .ok x => Proc.make p.t x

/-- `p['v', ix1, ..., ixk]` (`infrastructure.py` 684-686). -/
def Proc.getV (p : Proc T K) (ix : List NpIx) : Py (Proc T K) :=
  match p.x.npIndex (NpIx.all :: ix ++ [NpIx.all]) with
  | .error e => .error e
  | .ok x => Proc.make p.t x

/-- `p.shapeas(vshape)` (`infrastructure.py` 769-799); with `k = p.ndim - 2`, `h = len(vshape)`. -/
def Proc.shapeas (p : Proc T K) (vshape : List ℕ) : Py (Proc T K) :=
  let s := p.x.shape
  let h := vshape.length
  if s.length < h + 2 then
    match p.x.reshape (s.take 1 ++ List.replicate (h + 2 - s.length) 1 ++ s.drop 1) with
    | .error e => .error e
    | .ok x => Proc.make p.t x
  else
    let d := s.length - 2 - h
    if 0 < d ∧ ¬ ∀ n ∈ (s.drop 1).take d, n = 1 then .error .valueError
    else
      match p.x.reshape (s.take 1 ++ s.drop (d + 1)) with
      | .error e => .error e
      | .ok x => Proc.make p.t x

end index

section summary
variable {T K L : Type}

/-- `pmin`, `pmax` (`infrastructure.py` 833-849): `f` is the function applied. -/
def Proc.pred1 (f : List K → L) (p : Proc T K) : Py (Proc T L) :=
  match p.x.reduce1 f [p.x.shape.length - 1] true with
  | .error e => .error e
  | .ok x => Proc.make p.t x

/-- `psum`, `pmean`, `pvar`, `pstd` (`infrastructure.py` 851-889). -/
def Proc.pred (f : List K → L) (p : Proc T K) : Py (Proc T L) :=
  Proc.make p.t (p.x.reduce f [p.x.shape.length - 1] true)

/-- The axes of values: `tuple(range(1, len(self.vshape) + 1))`. -/
def Proc.vaxes (p : Proc T K) : List ℕ := (List.range (p.vshape.length)).map (· + 1)

/-- `vmin`, `vmax` (`infrastructure.py` 894-914). -/
def Proc.vred1 (f : List K → L) (p : Proc T K) : Py (Proc T L) :=
  match p.x.reduce1 f p.vaxes false with
  | .error e => .error e
  | .ok x => Proc.make p.t x

/-- `vsum`, `vmean`, `vvar`, `vstd` (`infrastructure.py` 916-958). -/
def Proc.vred (f : List K → L) (p : Proc T K) : Py (Proc T L) :=
  Proc.make p.t (p.x.reduce f p.vaxes false)

/-- `tmin`, `tmax` (`infrastructure.py` 963-978). -/
def Proc.tred1 (f : List K → L) (p : Proc T K) : Py (Proc T L) :=
  match p.x.reduce1 f [0] true with
  | .error e => .error e
  | .ok x => Proc.make (p.t.take 1) x

/-- `tsum`, `tmean`, `tvar`, `tstd` (`infrastructure.py` 980-1027). -/
def Proc.tred (f : List K → L) (p : Proc T K) : Py (Proc T L) :=
  Proc.make (p.t.take 1) (p.x.reduce f [0] true)

/-- `a.cumsum(axis=0)`. -/
def Arr.cumsum0 [Zero K] [Add K] (a : Arr K) : Arr K :=
  ⟨a.shape, fun i => (((List.range (i.headD 0 + 1)).map fun k : ℕ => a.get (k :: i.tail))).foldl (· + ·) 0⟩

/-- `p.tcumsum()` (`infrastructure.py` 997-1005). -/
def Proc.tcumsum [Zero K] [Add K] (p : Proc T K) : Py (Proc T K) := Proc.make p.t p.x.cumsum0

/-- Functions applied by summaries: `min`, `max` of a non-empty list. -/
def npMin [LinearOrder K] [Zero K] : List K → K
  | [] => 0
  | a :: l => l.foldl min a

def npMax [LinearOrder K] [Zero K] : List K → K
  | [] => 0
  | a :: l => l.foldl max a

/-- `sum`, `mean`, `var` with argument `ddof` (NumPy divides by `max(n - ddof, 0)`). -/
def npSum [Zero K] [Add K] (l : List K) : K := l.foldl (· + ·) 0

def npMean [Field K] (l : List K) : K := npSum l / l.length

def npVar [Field K] (ddof : ℕ) (l : List K) : K :=
  npSum (l.map fun a => (a - npMean l) ^ 2) / ((l.length - ddof : ℕ) : K)

noncomputable def npStd (ddof : ℕ) (l : List ℝ) : ℝ := Real.sqrt (npVar ddof l)

/-- `mean` of integers with an integer `dtype`: the quotient is truncated, since it is stored in an array of
integers. This is the case of `pmean` and `tmean`, which pass the data type of the process
(lines 868-871, 1013-1016). -/
def npMeanInt (l : List ℤ) : ℤ := (npSum l).tdiv l.length

end summary

section time
variable {K : Type} [Field K] [LinearOrder K]

/-- Values along time of one component. -/
def Proc.column {T L : Type} (p : Proc T L) (r : List ℕ) : List L :=
  (List.range p.t.length).map fun k : ℕ => p.x.get (k :: r)

/-- Interpolation kinds that are modelled. -/
inductive Kind where
  | linear
  | nearest
  deriving DecidableEq

/-- `scipy.interpolate.interp1d(xx, pp, kind='nearest', ...)`: half way between two points, the left one is
taken. -/
def interpNearest (xx pp : List K) (lo hi : K) (x : K) : K :=
  if x < xx.headD 0 then lo
  else if xx.getLastD 0 < x then hi
  else pp.getD (min ((midpoints xx).takeWhile fun b => b < x).length (xx.length - 1)) 0

/-- Value at time `s` of the component `r` (`process.interp`, lines 585-613). -/
def Proc.at (cast : K → K) (kind : Kind) (p : Proc K K) (s : K) (r : List ℕ) : K :=
  if p.t.length = 1 then p.x.get (0 :: r)
  else
    let lo := p.x.get (0 :: r)
    let hi := p.x.get ((p.t.length - 1) :: r)
    match kind with
    | .linear => cast (interp1d p.t (p.column r) lo hi s)
    | .nearest => cast (interpNearest p.t (p.column r) lo hi s)

/-- `p(s)` (`process.__call__`, `infrastructure.py` 615-633). -/
def Proc.call (cast : K → K) (kind : Kind) (p : Proc K K) (s : Arr K) : Arr K :=
  ⟨s.shape ++ p.x.shape.tail,
    fun i => p.at cast kind (s.get (i.take s.shape.length)) (i.drop s.shape.length)⟩

/-- Operations on two arrays, with broadcasting. -/
def Arr.binop {α β γ : Type} (f : α → β → γ) (a : Arr α) (b : Arr β) : Py (Arr γ) :=
  match broadcast2 a b with
  | .error e => .error e
  | .ok (a, b) => .ok ⟨a.shape, fun i => f (a.get i) (b.get i)⟩

/-- `p(s, ds)`. -/
def Proc.callDs (cast : K → K) (kind : Kind) (p : Proc K K) (s ds : Arr K) : Py (Arr K) :=
  match Arr.binop (· + ·) s ds with
  | .error e => .error e
  | .ok u => Arr.binop (· - ·) (p.call cast kind u) (p.call cast kind s)

/-- `p.rebase(t)` (`infrastructure.py` 635-647). -/
def Proc.rebase (cast : K → K) (kind : Kind) (p : Proc K K) (t : Arr K) : Py (Proc K K) :=
  let t : Arr K := if t.shape = [] then ⟨[1], fun _ => t.get []⟩ else t
  match asTimeline t with
  | .error e => .error e
  | .ok l => Proc.make l (p.call cast kind t)

/-- `p.tdiff(dt_exp, fwd)` (`infrastructure.py` 1032-1080); `pw` is the power `dt**dt_exp`. -/
def Proc.tdiff {E : Type} [Zero E] [DecidableEq E] (pw : K → E → K) (dtExp : E) (fwd : Bool)
    (p : Proc K K) : Py (Proc K K) :=
  let t := if fwd then p.t.dropLast else p.t.tail
  let dt : ℕ → K := fun k => (diffs p.t).getD k 0
  Proc.make t ⟨(p.x.shape.headD 0 - 1) :: p.x.shape.tail, fun i =>
    let k := i.headD 0
    let d := p.x.get ((k + 1) :: i.tail) - p.x.get (k :: i.tail)
    if dtExp = 0 then d else d / pw (dt k) dtExp⟩

/-- `p.tder()` (`infrastructure.py` 1082-1099). -/
def Proc.tder (p : Proc K K) : Py (Proc K K) := p.tdiff (fun d (k : ℕ) => d ^ k) 1 true

/-- `p.tint()` (`infrastructure.py` 1101-1120); `cast` converts values stored in line 1118. -/
def Proc.tint (cast : K → K) (p : Proc K K) : Py (Proc K K) :=
  let dt : ℕ → K := fun k => (diffs p.t).getD k 0
  let y : Arr K := ⟨p.x.shape, fun i =>
    match i.headD 0 with
    | 0 => 0
    | k + 1 => cast (p.x.get (k :: i.tail) * dt k)⟩
  Proc.make p.t y.cumsum0

/-- Arguments of `cdf`, `chf` (`infrastructure.py` 1151-1163, 1193-1203): times and process values, and
points. With one argument only, that is the points. -/
def Proc.cdfArgs (cast : K → K) (p : Proc K K) (t x : Option (Arr K)) : Py (List ℕ × Arr K × Arr K) :=
  match t, x with
  | none, none => .error .typeError
  | some x, none => .ok ([p.t.length], p.x, x)
  | none, some x => .ok ([p.t.length], p.x, x)
  | some t, some x => .ok (t.shape, p.call cast .linear t, x)

/-- Points and values reshaped, so that they broadcast (lines 1165-1166, 1205-1206). -/
def Proc.cdfShapes (ts : List ℕ) (y x : Arr K) : Py (Arr K × Arr K) :=
  match x.reshape (List.replicate ts.length 1 ++ x.shape ++ List.replicate (y.shape.length - ts.length) 1),
      y.reshape (ts ++ List.replicate x.shape.length 1 ++ y.shape.drop ts.length) with
  | .ok xx, .ok yy => .ok (xx, yy)
  | .error e, _ => .error e
  | _, .error e => .error e

/-- `p.cdf(t, x)` (`infrastructure.py` 1169-1209). -/
def Proc.cdf (cast : K → K) (p : Proc K K) (t x : Option (Arr K)) : Py (Arr K) :=
  match p.cdfArgs cast t x with
  | .error e => .error e
  | .ok (ts, y, x) =>
    match Proc.cdfShapes ts y x with
    | .error e => .error e
    | .ok (xx, yy) =>
      match Arr.binop (fun y x : K => if y ≤ x then (1 : K) else 0) yy xx with
      | .error e => .error e
      | .ok b => .ok ⟨(b.reduce npSum [b.shape.length - 1] false).shape,
          fun i => (b.reduce npSum [b.shape.length - 1] false).get i / p.paths⟩

/-- `piecewise(t, x=x, mode=mode)` (`infrastructure.py` 1216-1281), given the process created by the
first step, with `v` or `x` as values. -/
def piecewise (p : Proc K K) (mode : String) : Py (Proc K K) :=
  let n := p.t.length
  let s2 := p.t.flatMap fun a => [a, a]
  if mode = "mid" then Proc.make p.t p.x
  else if mode = "forward" then
    Proc.make s2 ⟨(2 * n) :: p.x.shape.tail, fun i =>
      let k := i.headD 0
      if k = 0 then p.x.get (0 :: i.tail)
      else if k % 2 = 1 then p.x.get (k / 2 :: i.tail) else p.x.get ((k / 2 - 1) :: i.tail)⟩
  else if mode = "backward" then
    Proc.make s2 ⟨(2 * n) :: p.x.shape.tail, fun i =>
      let k := i.headD 0
      if k = 2 * n - 1 then p.x.get ((n - 1) :: i.tail)
      else if k % 2 = 0 then p.x.get (k / 2 :: i.tail) else p.x.get ((k / 2 + 1) :: i.tail)⟩
  else .error .valueError

end time

/-- `p.chf(t, u)` (`infrastructure.py` 1125-1167), for real values. -/
noncomputable def Proc.chf (cast : ℝ → ℝ) (p : Proc ℝ ℝ) (t u : Option (Arr ℝ)) : Py (Arr ℂ) :=
  match p.cdfArgs cast t u with
  | .error e => .error e
  | .ok (ts, y, u) =>
    match Proc.cdfShapes ts y u with
    | .error e => .error e
    | .ok (uu, yy) =>
      match Arr.binop (fun u y : ℝ => Complex.exp (Complex.I * u * y)) uu yy with
      | .error e => .error e
      | .ok b => .ok (b.reduce npMean [b.shape.length - 1] false)

end Sdepy
