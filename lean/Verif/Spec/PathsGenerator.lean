import Verif.Model.PathsGenerator

/-!
# What users expect of a step by step integration

Written without reference to the loop of the model: only the interface of the callbacks
(`PGen`) is used.
-/

namespace Sdepy.Spec

variable {T W O σ : Type}

/-- `a` comes strictly before `b` in the direction of integration. -/
def Before [LT T] (rev : Bool) (a b : T) : Prop := if rev then b < a else a < b

/-- The direct reading of a (multi)step scheme: go through the steps in order, compute the
new value from the last ones, and output it if the time point was requested. Returns the
outputs in order. `n` is the number of outputs already made. -/
def scheme [DecidableEq T] (step : List (T × W) → T → σ → Py (W × σ))
    (store : ℕ → T → W → σ → Py (O × σ)) (out : List T) :
    List (T × W) → ℕ → List T → σ → Py (List O × σ)
  | _, _, [], s => .ok ([], s)
  | win, n, t :: ts, s => do
    let (x, s) ← step win t s
    let (os, s) ← (if t ∈ out then do
        let (o, s) ← store n t x s
        pure ([o], s)
      else pure ([], s) : Py (List O × σ))
    let (os', s) ← scheme step store out (win.tail ++ [(t, x)]) (n + os.length) ts s
    pure (os ++ os', s)

/-- Outputs of the time points that are given at the start. -/
def outputs [DecidableEq T] (store : ℕ → T → W → σ → Py (O × σ)) (out : List T) :
    ℕ → List (T × W) → σ → Py (List O × σ)
  | _, [], s => .ok ([], s)
  | n, (t, x) :: ps, s => do
    let (os, s) ← (if t ∈ out then do
        let (o, s) ← store n t x s
        pure ([o], s)
      else pure ([], s) : Py (List O × σ))
    let (os', s) ← outputs store out (n + os.length) ps s
    pure (os ++ os', s)

/-- A whole pass in one direction, along `steps`, with outputs requested at `out`. -/
def pass [DecidableEq T] (depth : ℕ) (begin : List T → σ → Py ((ℕ → W) × σ))
    (step : List (T × W) → T → σ → Py (W × σ))
    (store : ℕ → T → W → σ → Py (O × σ)) (fin : σ → Py σ) (steps out : List T) (s : σ) :
    Py (List O × σ) := do
  let sw := steps.take (depth - 1)
  let (xw, s) ← begin sw s
  let win := sw.mapIdx fun k t => (t, xw k)
  let (os, s) ← outputs store out 0 win s
  let (os', s) ← scheme step store out win os.length (steps.drop (depth - 1)) s
  let s ← fin s
  pure (os ++ os', s)

/-- A subclass that uses the target step as it is (no step size adaptation). -/
def NonAdaptive (g : PGen T W O σ) (step : Bool → List (T × W) → T → σ → Py (W × σ)) : Prop :=
  ∀ rev win t s, g.next rev win t s = (do
    let (x, s) ← step rev win t s
    pure ((t, x), s))

/-- Events observable from the callbacks of a subclass. -/
inductive Event (T W O : Type) where
  /-- `begin` was called with these time points and set these values -/
  | begun (win : List (T × W))
  /-- `next` was called on this window and target, and moved to `p` -/
  | stepped (win : List (T × W)) (target : T) (p : T × W)
  /-- `store` was called for slot `i`, at this time and value, and wrote `o` -/
  | stored (i : ℕ) (t : T) (x : W) (o : O)

/-- A subclass, instrumented so as to record what happens in its state. -/
def logged (g : PGen T W O σ) : PGen T W O (σ × List (Event T W O)) where
  depth := g.depth
  begin rev sw s := do
    let (xw, s') ← g.begin rev sw s.1
    pure (xw, s', s.2 ++ [.begun (sw.mapIdx fun k t => (t, xw k))])
  next rev win t s := do
    let (p, s') ← g.next rev win t s.1
    pure (p, s', s.2 ++ [.stepped win t p])
  store i t x s := do
    let (o, s') ← g.store i t x s.1
    pure (o, s', s.2 ++ [.stored i t x o])
  fin s := do
    let s' ← g.fin s.1
    pure (s', s.2)

/-- Points visited according to a record of events. -/
def visited : List (Event T W O) → List (T × W)
  | [] => []
  | .begun win :: es => win ++ visited es
  | .stepped _ _ p :: es => p :: visited es
  | .stored .. :: es => visited es

/-- Output slots, times and values according to a record of events. -/
def storedEvents : List (Event T W O) → List (ℕ × T × O)
  | [] => []
  | .begun _ :: es => storedEvents es
  | .stepped .. :: es => storedEvents es
  | .stored i t _ o :: es => (i, t, o) :: storedEvents es

/-- The last `n` elements of a list. -/
def lastN {α : Type} (n : ℕ) (l : List α) : List α := l.drop (l.length - n)

/-- What must hold when event `e` occurs after the events `pre`, in a pass of subclass `g`
along `steps`, with outputs requested at `tt`. -/
def EventOk [LT T] [LE T] (g : PGen T W O σ) (rev : Bool) (steps tt : List T)
    (pre : List (Event T W O)) : Event T W O → Prop
  | .begun win =>
      pre = [] ∧ win.map Prod.fst = steps.take (g.depth - 1) ∧
      ∃ s s' xw, g.begin rev (steps.take (g.depth - 1)) s = .ok (xw, s') ∧
        win = (steps.take (g.depth - 1)).mapIdx fun k t => (t, xw k)
  | .stepped win target p =>
      -- `next` is served the last points and a point of the grid as target ...
      win = lastN (g.depth - 1) (visited pre) ∧ target ∈ steps ∧
      (∃ s s', g.next rev win target s = .ok (p, s')) ∧
      -- ... and moves strictly ahead, not beyond the target
      (∃ last, (visited pre).getLast? = some last ∧ Before rev last.1 p.1) ∧
      (if rev then target ≤ p.1 else p.1 ≤ target)
  | .stored i t x o =>
      -- output slots are filled in order, with a value visited at exactly the requested time
      i = (storedEvents pre).length ∧ tt[i]? = some t ∧ (t, x) ∈ visited pre ∧
      ∃ s s', g.store i t x s = .ok (o, s')

/-- Every event occurs under the conditions stated by `EventOk`. -/
def TraceOk [LT T] [LE T] (g : PGen T W O σ) (rev : Bool) (steps tt : List T)
    (es : List (Event T W O)) : Prop :=
  ∀ pre e post, es = pre ++ e :: post → EventOk g rev steps tt pre e

/-- Outputs `os` at times `ts`, numbered from 0. -/
def enumOut (ts : List T) (os : List O) : List (ℕ × T × O) :=
  (ts.zip os).mapIdx fun i p => (i, p.1, p.2)

/-- What is needed of the arithmetic of times: the sign of a difference is right, also if it is rounded, as it is for
floating point numbers with gradual underflow (IEEE 754). -/
class SignOk (T : Type) [LinearOrder T] [Zero T] [One T] [Neg T] [Sub T] [Mul T] : Prop where
  fwd : ∀ a b : T, (a - b) * 1 < 0 ↔ a < b
  bwd : ∀ a b : T, (a - b) * (-1) < 0 ↔ b < a

/-- Time points requested by the user besides the timeline; for a number of points, those that `numpy.linspace`
returns (in exact arithmetic: `C03_linspace`). -/
def Requested [Linspace T] (steps : Steps T) (tt : List T) (t : T) : Prop :=
  match steps with
  | .none => False
  | .iter l => t ∈ l
  | .int n => ∃ a b, tt.head? = some a ∧ tt.getLast? = some b ∧
      t ∈ Linspace.linspace a b n.toNat

/-- `grid` is the timeline merged with the requested steps that fall between its first and
last point: strictly increasing, and with exactly those points. -/
def IsGrid [Linspace T] [LinearOrder T] (steps : Steps T) (tt grid : List T) : Prop :=
  grid.Pairwise (· < ·) ∧
  ∀ t, t ∈ grid ↔ t ∈ tt ∨
    (Requested steps tt t ∧ (∃ a ∈ tt, a ≤ t) ∧ (∃ b ∈ tt, t ≤ b))

/-- `i0` designates position `i` of a timeline of `n` points. -/
def Designates (n : ℕ) (i0 : ℤ) (i : ℕ) : Prop :=
  i < n ∧ (i0 = i ∨ i0 = (i : ℤ) - n)

/-- A timeline that can be integrated along: one-dimensional, strictly increasing. -/
def ValidTimeline [LT T] (tl : TArr T) : Prop :=
  tl.shape = [tl.data.length] ∧ tl.data.Pairwise (· < ·)

/-- A forward pass is needed: integration starts from the first point (`i0 = 0`), or does not
start from the last one. -/
def Forw (n : ℕ) (i0 : ℤ) : Prop := i0 = 0 ∨ ¬ (i0 = -1 ∨ i0 = (n : ℤ) - 1)

instance (n : ℕ) (i0 : ℤ) : Decidable (Forw n i0) := by unfold Forw; infer_instance

/-- The whole computation on a grid: backwards from `t0` through the grid points below it,
then forwards through those above it. Returns one output for each timeline point. -/
def twoWay [LinearOrder T] (g : PGen T W O σ)
    (step : Bool → List (T × W) → T → σ → Py (W × σ))
    (backward forward : Bool) (grid tt : List T) (t0 : T) (s : σ) : Py (List O × σ) := do
  let (ob, s) ← (if backward then
      pass g.depth (g.begin true) (step true) g.store g.fin
        (grid.filter (· ≤ t0)).reverse (tt.filter (· ≤ t0)).reverse s
    else pure ([], s) : Py (List O × σ))
  let (of, s) ← (if forward then
      pass g.depth (g.begin false) (step false) g.store g.fin
        (grid.filter (t0 ≤ ·)) (tt.filter (t0 ≤ ·)) s
    else pure ([], s) : Py (List O × σ))
  -- the forward pass, if any, gives the value at t0
  pure ((if forward then ob.reverse.dropLast else ob.reverse) ++ of, s)

/-- Callbacks that never raise. -/
structure NeverRaises (g : PGen T W O σ) : Prop where
  begin : ∀ rev sw s, ∃ r, g.begin rev sw s = .ok r
  next : ∀ rev win target s, ∃ r, g.next rev win target s = .ok r
  store : ∀ i t x s, ∃ r, g.store i t x s = .ok r
  fin : ∀ s, ∃ s', g.fin s = .ok s'

/-- `next` is able to leave the permitted interval `(last, target]`. -/
def CanOverstep [LT T] [LE T] (g : PGen T W O σ) : Prop :=
  ∃ rev win last target s p s', win.getLast? = some last ∧ Before rev last.1 target ∧
    g.next rev win target s = .ok (p, s') ∧
    ¬ (if rev then target ≤ p.1 ∧ p.1 < last.1 else last.1 < p.1 ∧ p.1 ≤ target)

/-- A subclass that checks its own moves: `next` raises `AssertionError` if the new time is not in
the permitted interval `(last, target]`, `last` being the time of the last point. -/
def guarded [LT T] [LE T] [DecidableLT T] [DecidableLE T] (g : PGen T W O σ) : PGen T W O σ where
  depth := g.depth
  begin := g.begin
  next rev win target s :=
    match g.next rev win target s with
    | .error e => .error e
    | .ok (p, s) =>
      match win.getLast? with
      | none => .ok (p, s)
      | some last =>
        if (if rev then target ≤ p.1 ∧ p.1 < last.1 else last.1 < p.1 ∧ p.1 ≤ target) then .ok (p, s)
        else .error .assertionError
  store := g.store
  fin := g.fin

/-- There are enough points of the grid for the depth of the scheme, on each side of `timeline[i0]`
where integration is run. It is always so for depth 2. -/
def EnoughPoints [Linspace T] [LinearOrder T] (depth : ℕ) (steps : Steps T) (i0 : ℤ) (tt : List T) :
    Prop :=
  ∀ (i : ℕ) (t0 : T) (grid : List T), Designates tt.length i0 i → tt[i]? = some t0 →
    IsGrid steps tt grid →
    (i0 ≠ 0 → depth - 1 ≤ (grid.filter (· ≤ t0)).length) ∧
    (Forw tt.length i0 → depth - 1 ≤ (grid.filter (t0 ≤ ·)).length)

/-- The points computed by a (multi)step scheme along given time points. -/
def traj (step : List (T × W) → T → σ → Py (W × σ)) :
    List (T × W) → List T → σ → Py (List (T × W) × σ)
  | _, [], s => .ok ([], s)
  | win, t :: ts, s => do
    let (x, s) ← step win t s
    let (ps, s) ← traj step (win.tail ++ [(t, x)]) ts s
    pure ((t, x) :: ps, s)

/-- The points computed in a whole pass in one direction. No mention of outputs. -/
def trajectory (depth : ℕ) (begin : List T → σ → Py ((ℕ → W) × σ))
    (step : List (T × W) → T → σ → Py (W × σ)) (fin : σ → Py σ) (steps : List T) (s : σ) :
    Py (List (T × W) × σ) := do
  let sw := steps.take (depth - 1)
  let (xw, s) ← begin sw s
  let win := sw.mapIdx fun k t => (t, xw k)
  let (ps, s) ← traj step win (steps.drop (depth - 1)) s
  let s ← fin s
  pure (win ++ ps, s)

/-- A subclass whose `store` only computes an output, without side effects. -/
def PureStore (g : PGen T W O σ) (out : T → W → O) : Prop :=
  ∀ i t x s, g.store i t x s = .ok (out t x, s)

/-- All the points computed by a call: those of the backward pass, if any, excluding the
starting point if a forward pass follows, and those of the forward pass. -/
def twoWayTrajectory [LinearOrder T] (g : PGen T W O σ)
    (step : Bool → List (T × W) → T → σ → Py (W × σ))
    (backward forward : Bool) (grid : List T) (t0 : T) (s : σ) : Py (List (T × W) × σ) := do
  let (pb, s) ← (if backward then
      trajectory g.depth (g.begin true) (step true) g.fin (grid.filter (· ≤ t0)).reverse s
    else pure ([], s) : Py (List (T × W) × σ))
  let (pf, s) ← (if forward then
      trajectory g.depth (g.begin false) (step false) g.fin (grid.filter (t0 ≤ ·)) s
    else pure ([], s) : Py (List (T × W) × σ))
  pure ((if forward then pb.reverse.dropLast else pb.reverse) ++ pf, s)

end Sdepy.Spec
