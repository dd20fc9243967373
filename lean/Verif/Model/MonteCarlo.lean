import Verif.NpMore
import Mathlib.Algebra.Order.Field.Basic
import Mathlib.Algebra.BigOperators.Group.List.Basic
import Mathlib.Analysis.SpecialFunctions.Pow.Real
import Mathlib.Analysis.SpecialFunctions.Sqrt

/-!
# Model of `montecarlo`: cumulating samples (`/repo/sdepy/infrastructure.py`, lines 2822-3021)

Values are exact, in an ordered field `K`; the parameters `dtype` and `ctype` are not modelled.
Not-a-number, which statistics become if an empty sample is met (`0/0`), is modelled by a flag of the
stored moments. `numpy.histogram` is modelled on finite values; the rules by which it chooses bins if
given a string are an arbitrary function `auto`.
-/

namespace Sdepy

section np
variable {K : Type}

/-- `numpy.moveaxis(a, axis, -1)`. `AxisError` is a `ValueError`. -/
def Arr.moveLast (a : Arr K) (axis : ℤ) : Py (Arr K) :=
  if -(a.shape.length : ℤ) ≤ axis ∧ axis < a.shape.length then
    let ax := (if 0 ≤ axis then axis else axis + a.shape.length).toNat
    .ok ⟨a.shape.eraseIdx ax ++ [a.shape.getD ax 0],
      fun i => a.get (i.dropLast.insertIdx ax (i.getLastD 0))⟩
  else .error .valueError

/-- Drop leading ones in excess of `n` dimensions. -/
def stripOnes (n : ℕ) : List ℕ → List ℕ
  | [] => []
  | a :: s => if a = 1 ∧ n < s.length + 1 then stripOnes n s else a :: s

/-- The values that `dest[...] = a` assigns to an array of the given shape: `a` is broadcast, leading
axes of size one in excess being ignored. -/
def Arr.assignTo (a : Arr K) (dest : List ℕ) : Py (Arr K) :=
  let s := stripOnes dest.length a.shape
  Arr.broadcastTo ⟨s, fun i => a.get (List.replicate (a.shape.length - s.length) 0 ++ i)⟩ dest

/-- `a[i]` flattened, `i` being a tuple of non negative integers. -/
def Arr.sub (a : Arr K) (i : List ℕ) : Py (List K) :=
  if i.length ≤ a.shape.length ∧ InRange (a.shape.take i.length) i then
    .ok ((ndindex (a.shape.drop i.length)).map fun j => a.get (i ++ j))
  else .error .indexError

/-- `a[..., np.newaxis]`. -/
def Arr.newaxisLast (a : Arr K) : Arr K := ⟨a.shape ++ [1], fun i => a.get i.dropLast⟩

variable [Field K]

/-- `a.mean(axis=-1)`. -/
def Arr.meanLast (a : Arr K) : Arr K :=
  ⟨a.shape.dropLast, fun c =>
    ((List.range (a.shape.getLastD 0)).map fun k => a.get (c ++ [k])).sum / (a.shape.getLastD 0)⟩

variable [LinearOrder K]

/-- The argument `bins` of `numpy.histogram`: a number of bins, a method, edges, or something else that
is not accepted. -/
inductive HArg (K : Type) where
  | int (n : ℤ)
  | str (s : String)
  | edges (l : List K)
  | bad

/-- Range of a sample, used if none is given. -/
def sampleRange : List K → K × K
  | [] => (0, 1)
  | x :: xs => (xs.foldl min x, xs.foldl max x)

/-- Edges of `n` bins of equal width (`numpy.histogram_bin_edges`). -/
def uniformEdges (n : ℤ) (range : Option (K × K)) (x : List K) : Py (List K) :=
  if n < 1 then .error .valueError
  else
    let r := range.getD (sampleRange x)
    if r.2 < r.1 then .error .valueError
    else
      let r := if r.1 = r.2 then (r.1 - 1 / 2, r.2 + 1 / 2) else r
      .ok ((List.range (n.toNat + 1)).map fun k : ℕ => r.1 + (k : K) * (r.2 - r.1) / n)

/-- Counts of a sample, given edges: differences of the number of values below each edge, or not above
the last one (`numpy.histogram`). -/
def countsOf (edges : List K) (x : List K) : List ℤ :=
  let cum := edges.dropLast.map (fun e => ((x.countP (· < e) : ℕ) : ℤ)) ++
    (edges.getLast?.toList.map fun e => ((x.countP (· ≤ e) : ℕ) : ℤ))
  List.zipWith (fun a b => b - a) cum cum.tail

/-- `numpy.histogram(x, bins, range)`: counts and edges. -/
def npHist (auto : String → Option (K × K) → List K → Py (List K)) (arg : HArg K)
    (range : Option (K × K)) (x : List K) : Py (List ℤ × List K) :=
  match (match arg with
    | .int n => uniformEdges n range x
    | .str s => auto s range x
    | .edges l =>
      if l.Pairwise (· ≤ ·) then if l = [] then .error .indexError else .ok l else .error .valueError
    | .bad => .error .typeError : Py (List K)) with
  | .error e => .error e
  | .ok l => .ok (countsOf l x, l)

end np

section mc
variable {K : Type}

/-- The attribute `_bins`: as given by the user (`None`, an integer, a string, a numeric array), or as
stored after a sample has been processed: an array of objects, initially `None`. -/
inductive Bins (K : Type) where
  | none
  | int (n : ℤ)
  | str (s : String)
  | array (a : Arr K)
  | objs (a : Arr (Option (List K)))

/-- The attributes `_moments` (centered on `_center`), `_mean`, `_center`, all of the same shape.
`nan` marks that all statistics are not-a-number. -/
structure Moments (K : Type) where
  vshape : List ℕ
  mom : List (Arr K)
  mean : Arr K
  center : Arr K
  nan : Bool

/-- State of a `montecarlo` instance; `counts` and `outside` are `_counts`, `_paths_outside`. -/
structure MC (K : Type) where
  paths : ℕ
  bins : Bins K
  range : Option (K × K)
  use : String
  stats : Option (Moments K)
  counts : List ℕ → List ℤ
  outside : List ℕ → ℤ

/-- `montecarlo(bins=..., range=..., use=...)` (`infrastructure.py` 2824-2840): an empty instance. -/
def MC.new (bins : Bins K) (range : Option (K × K)) (use : String) : MC K :=
  ⟨0, bins, range, use, none, fun _ => [], fun _ => 0⟩

variable [Field K]

/-- Lines 2890-2917 of `update`: the sample, with the axis of paths as last axis, and antithetic values
combined if required. -/
def mcPrepare (use : String) (sample : Arr K) (axis : ℤ) : Py (Arr K) :=
  let sample := if sample.shape = [] then ⟨[1], fun _ => sample.get []⟩ else sample
  match sample.moveLast axis with
  | .error e => .error e
  | .ok sample =>
    let n := sample.shape.getLastD 0
    if use ≠ "all" ∧ use ≠ "even" ∧ use ≠ "odd" then .error .valueError
    else if use = "all" then .ok sample
    else if n % 2 ≠ 0 then .error .valueError
    else
      let sign : K := if use = "even" then 1 else -1
      .ok ⟨sample.shape.dropLast ++ [n / 2], fun i =>
        (sample.get i + sign * sample.get (i.dropLast ++ [n / 2 + i.getLastD 0])) / 2⟩

/-- `old[...] = (N*old + M*new)/(N + M)` (lines 2952-2953, 2956). -/
def cumulate (N M : ℕ) (old new : Arr K) : Py (Arr K) :=
  match broadcast2 old new with
  | .error e => .error e
  | .ok (a, b) =>
    Arr.assignTo ⟨a.shape, fun i => (N * a.get i + M * b.get i) / ((N + M : ℕ) : K)⟩ old.shape

/-- Lines 2950-2953: all moments. They have the same shape, so that only the first assignment may
fail. -/
def cumulateAll (N M : ℕ) : List (Arr K × Arr K) → Py (List (Arr K))
  | [] => .ok []
  | (old, new) :: l =>
    match cumulate N M old new with
    | .error e => .error e
    | .ok a =>
      match cumulateAll N M l with
      | .error e => .error e
      | .ok as => .ok (a :: as)

/-- `_update_moments` (`infrastructure.py` 2924-2959), `max_moment` being 4; `N` is the number of
paths already stored. An instance that has stored no sample has no attribute `_center`. -/
def updateMoments (N : ℕ) (stats : Option (Moments K)) (sample : Arr K) : Py (Moments K) :=
  let st : Option (Moments K) :=
    if N = 0 then
      let vshape := sample.shape.dropLast
      some ⟨vshape, List.replicate 4 ⟨vshape, fun _ => 0⟩, ⟨vshape, fun _ => 0⟩, sample.meanLast, false⟩
    else stats
  match st with
  | none => .error .attributeError
  | some st =>
    let M := sample.shape.getLastD 0
    match broadcast2 sample st.center.newaxisLast with
    | .error e => .error e
    | .ok (a, b) =>
      match Arr.assignTo ⟨a.shape, fun i => a.get i - b.get i⟩ sample.shape with
      | .error e => .error e
      | .ok s0 =>
        let s := (List.range 4).map fun k => Arr.meanLast ⟨sample.shape, fun i => s0.get i ^ (k + 1)⟩
        match cumulateAll N M (st.mom.zip s) with
        | .error e => .error e
        | .ok mom =>
          match cumulate N M st.mean sample.meanLast with
          | .error e => .error e
          | .ok mean => .ok { st with mom := mom, mean := mean, nan := st.nan || M = 0 }

variable [LinearOrder K]

/-- What `_update_histogram` changes. -/
structure Hist (K : Type) where
  bins : List ℕ → Option (List K)
  counts : List ℕ → List ℤ
  outside : List ℕ → ℤ

/-- Loop over components for the first sample (lines 3000-3005); `n` is `N + M`. What has been changed
before an exception stays changed. -/
def histFirst (auto : String → Option (K × K) → List K → Py (List K)) (sample : Arr K)
    (arg : List ℕ → HArg K) (range : Option (K × K)) (n : ℕ) :
    List (List ℕ) → Hist K → Hist K × Py Unit
  | [], h => (h, .ok ())
  | i :: is, h =>
    match sample.sub i with
    | .error e => (h, .error e)
    | .ok x =>
      match npHist auto (arg i) range x with
      | .error e => (h, .error e)
      | .ok (c, b) =>
        histFirst auto sample arg range n is
          ⟨Function.update h.bins i (some b), Function.update h.counts i c,
            Function.update h.outside i (n - c.sum)⟩

/-- Loop over components for subsequent samples (lines 3011-3014); `m` is the size of the sample. -/
def histNext (auto : String → Option (K × K) → List K → Py (List K)) (sample : Arr K) (m : ℕ) :
    List (List ℕ) → Hist K → Hist K × Py Unit
  | [], h => (h, .ok ())
  | i :: is, h =>
    match sample.sub i with
    | .error e => (h, .error e)
    | .ok x =>
      match npHist auto (match h.bins i with | none => .bad | some l => .edges l) none x with
      | .error e => (h, .error e)
      | .ok (c, _) =>
        histNext auto sample m is
          ⟨h.bins, Function.update h.counts i (List.zipWith (· + ·) (h.counts i) c),
            Function.update h.outside i (h.outside i + (m - c.sum))⟩

/-- Final check of `_update_histogram` (lines 3017-3021). -/
def histCheck (vshape : List ℕ) (n : ℕ) (h : Hist K) : Py Unit :=
  if ∀ i ∈ ndindex vshape, (h.counts i).sum + h.outside i = n then .ok () else .error .runtimeError

/-- The first sample (lines 2972-3005): bins as given by the user, or as left by a former failed
attempt, are checked against the shape of data points; `_bins` has been overwritten by then. An array of
objects the rows of which are taken for edges is not accepted by `numpy.histogram`. -/
def histStart (auto : String → Option (K × K) → List K → Py (List K)) (bins : Bins K)
    (range : Option (K × K)) (vshape : List ℕ) (sample : Arr K) (n : ℕ) : Hist K × Py Unit :=
  let empty : Hist K := ⟨fun _ => none, fun _ => [], fun _ => 0⟩
  match bins with
  | .none => (empty, .ok ())
  | .int k => histFirst auto sample (fun _ => .int k) range n (ndindex vshape) empty
  | .str s => histFirst auto sample (fun _ => .str s) range n (ndindex vshape) empty
  | .array a =>
    if a.shape.dropLast = vshape then
      if a.shape = [] then (empty, .error .typeError)
      else
        let row := fun i => (List.range (a.shape.getLastD 0)).map fun k => a.get (i ++ [k])
        histFirst auto sample (fun i => .edges (row i)) none n (ndindex vshape)
          { empty with bins := fun i => some (row i) }
    else (empty, .error .valueError)
  | .objs a =>
    if a.shape = vshape then
      histFirst auto sample (fun i => match a.get i with | none => .bad | some l => .edges l) none n
        (ndindex vshape) { empty with bins := a.get }
    else if a.shape.dropLast = vshape then
      histFirst auto sample (fun _ => .bad) none n (ndindex vshape) empty
    else (empty, .error .valueError)

/-- The two branches of `_update_histogram` (lines 2972-3014). -/
def histStep (auto : String → Option (K × K) → List K → Py (List K)) (mc : MC K)
    (st : Moments K) (sample : Arr K) : Hist K × Py Unit :=
  let M := sample.shape.getLastD 0
  if mc.paths = 0 then histStart auto mc.bins mc.range st.vshape sample (mc.paths + M)
  else
    histNext auto sample M (ndindex st.vshape)
      ⟨match mc.bins with | .objs a => a.get | _ => fun _ => none, mc.counts, mc.outside⟩

/-- `_update_histogram` (`infrastructure.py` 2961-3021). -/
def updateHistogram (auto : String → Option (K × K) → List K → Py (List K)) (mc : MC K)
    (st : Moments K) (sample : Arr K) : MC K × Py Unit :=
  match mc.bins with
  | .none => (mc, .ok ())
  | _ =>
    let r := histStep auto mc st sample
    ({ mc with bins := .objs ⟨st.vshape, r.1.bins⟩, counts := r.1.counts, outside := r.1.outside },
      match r.2 with
      | .error e => .error e
      | .ok () => histCheck st.vshape (mc.paths + sample.shape.getLastD 0) r.1)

/-- `update(sample, axis)` (`infrastructure.py` 2869-2922): the state it leaves, whether or not it
raises. -/
def MC.update (auto : String → Option (K × K) → List K → Py (List K)) (mc : MC K) (sample : Arr K)
    (axis : ℤ) : MC K × Py Unit :=
  match mcPrepare mc.use sample axis with
  | .error e => (mc, .error e)
  | .ok x =>
    match updateMoments mc.paths mc.stats x with
    | .error e => (mc, .error e)
    | .ok st =>
      match updateHistogram auto { mc with stats := some st } st x with
      | (mc', .error e) => (mc', .error e)
      | (mc', .ok ()) => ({ mc' with paths := mc'.paths + x.shape.getLastD 0 }, .ok ())

end mc

section stats
variable {K : Type} [Field K]

/-- `histogram()` (`infrastructure.py` 3090-3115), for an instance that has not been obtained by
indexing: `_counts` is then an array of objects, of the shape of data points (if it has no item, it is
returned as it is). -/
def MC.histogram (mc : MC K) : Py (List ℤ × List K) :=
  match mc.bins with
  | .objs a =>
    if mc.paths = 0 then .error .valueError
    else
      match ndindex a.shape with
      | [] => .ok ([], [])
      | [c] => .ok (mc.counts c, (a.get c).getD [])
      | _ => .error .indexError
  | _ => .error .valueError

/-- `outpaths` (`infrastructure.py` 3134-3140), for a single valued instance that has not been obtained
by indexing: an array, of shape `vshape`. -/
def MC.outpaths (mc : MC K) : Py (Arr ℤ) :=
  match mc.histogram with
  | .error e => .error e
  | .ok _ => .ok ⟨match mc.bins with | .objs a => a.shape | _ => [], mc.outside⟩

/-- The `k`-th item of `_moments`, at a component. -/
def Moments.at (st : Moments K) (k : ℕ) (c : List ℕ) : K :=
  match st.mom[k]? with
  | none => 0
  | some a => a.get c

/-- `mean()` (`infrastructure.py` 3043-3045); `none` as a value is not-a-number. For an empty instance
`None` is returned. -/
def MC.mean (mc : MC K) : Option (Arr (Option K)) :=
  mc.stats.map fun st => ⟨st.vshape, fun c => if st.nan then none else some (st.mean.get c)⟩

/-- `var()` (`infrastructure.py` 3047-3050). -/
def MC.var (mc : MC K) : Py (Arr (Option K)) :=
  match mc.stats with
  | none => .error .typeError
  | some st => .ok ⟨st.vshape, fun c =>
      if st.nan then none
      else some (if mc.paths < 2 then 0 else st.at 1 c - st.at 0 c * st.at 0 c)⟩

/-- `std()` (`infrastructure.py` 3052-3054). -/
noncomputable def MC.std (mc : MC ℝ) : Py (Arr (Option ℝ)) :=
  match mc.var with
  | .error e => .error e
  | .ok v => .ok ⟨v.shape, fun c => (v.get c).map Real.sqrt⟩

/-- `skew()` (`infrastructure.py` 3056-3060); division by zero gives not-a-number, the numerator being
zero as well. -/
noncomputable def MC.skew (mc : MC ℝ) : Py (Arr (Option ℝ)) :=
  match mc.stats with
  | none => .error .typeError
  | some st => .ok ⟨st.vshape, fun c =>
      let m1 := st.at 0 c
      let m2 := st.at 1 c
      let m3 := st.at 2 c
      if st.nan then none
      else if mc.paths < 2 then some 0
      else if m2 - m1 * m1 = 0 then none
      else some ((m3 - 3 * m1 * m2 + 2 * m1 ^ 3) / (m2 - m1 * m1) ^ (1.5 : ℝ))⟩

/-- `kurtosis()` (`infrastructure.py` 3062-3067): the conditional expression has lower precedence than
the sum, so that `-3.0` is added only if there are less than two paths. -/
def MC.kurtosis [DecidableEq K] (mc : MC K) : Py (Arr (Option K)) :=
  match mc.stats with
  | none => .error .typeError
  | some st => .ok ⟨st.vshape, fun c =>
      let m1 := st.at 0 c
      let m2 := st.at 1 c
      let m3 := st.at 2 c
      let m4 := st.at 3 c
      if st.nan then none
      else if mc.paths < 2 then some (-3 + 0 * m1)
      else if m2 - m1 * m1 = 0 then none
      else some ((m4 - 4 * m1 * m3 + 6 * m1 * m1 * m2 - 3 * m1 ^ 4) / (m2 - m1 * m1) ^ 2)⟩

/-- `stderr()` (`infrastructure.py` 3069-3076); with less than two paths, not-a-number. -/
noncomputable def MC.stderr (mc : MC ℝ) : Py (Arr (Option ℝ)) :=
  if mc.paths < 2 then .ok (.scalar none)
  else
    match mc.var with
    | .error e => .error e
    | .ok v => .ok ⟨v.shape, fun c => (v.get c).map fun v => Real.sqrt (v / ((mc.paths : ℝ) - 1))⟩

end stats

end Sdepy
