import Verif.NpIndex

/-!
# Model of processes as objects in memory (`/repo/sdepy/infrastructure.py`, lines 423-538, 653-829)

`Verif.Model.Process` models a process as a pair of a timeline and an array of values. Here its parts are references
to memory: a process refers to an array of times and to an array of values, which other arrays and processes may
share, and holds the cached increments of its timeline as a further reference. A program is a list of statements;
a statement that raises an exception leaves the memory as it was, and the program goes on.

NumPy arrays are views of buffers, as in its reference: basic indexing, `reshape` and `view` refer to the buffer of
the array they apply to, `copy` and computations allocate a new buffer. Simplifications: times and values are of a
single type of numbers; of the statements that write to an array only those that write to a single item are modelled
(other assignments are sequences of these); basic indexing is modelled as a selection of positions, see `Stmt`;
transposition is not modelled.
-/

namespace Sdepy

/-- A NumPy array, as a reference to memory: the buffer, the shape and the address of each item. -/
structure View where
  buf : ℕ
  shape : List ℕ
  addr : List ℕ → ℕ

/-- A process, as an object: its attribute `t` (`none` for `None`), its values, and its attribute `_dt`
(`none` if it is not set). -/
structure PObj where
  t : Option View
  x : View
  dt : Option View

/-- The state of a program: the contents of all buffers, of which those below `next` are allocated, and the arrays
and processes created so far, in order of creation. -/
structure World (K : Type) where
  mem : ℕ → ℕ → K
  next : ℕ
  arrs : List View
  procs : List PObj

/-- Statements. Arrays and processes are numbered in order of creation; those created by a statement come last. -/
inductive Stmt (K : Type) where
  /-- an array is created, with its own buffer -/
  | array (shape : List ℕ) (val : List ℕ → K)
  /-- `a[i] = v` -/
  | setItem (a : ℕ) (i : List ℕ) (v : K)
  /-- `process(t=t, x=x)` -/
  | process (t x : ℕ)
  /-- `p[i] = v` (inherited from `numpy.ndarray`) -/
  | setValue (p : ℕ) (i : List ℕ) (v : K)
  /-- `p.t = a` -/
  | bindT (p a : ℕ)
  /-- `p.t` -/
  | t (p : ℕ)
  /-- `p.x` -/
  | x (p : ℕ)
  /-- `p.tx` -/
  | tx (p : ℕ)
  /-- `p.dt` -/
  | dt (p : ℕ)
  /-- `p.dtx` -/
  | dtx (p : ℕ)
  | pcopy (p : ℕ)
  | xcopy (p : ℕ)
  | tcopy (p : ℕ)
  /-- `p['t', key]` where `key` is a slice that selects the `n` positions given by `f` -/
  | times (p n : ℕ) (f : ℕ → ℕ)
  /-- `p['v', key]`, `p['p', key]`, where `key` is made of integers and slices, and `p.shapeas(shape)`: a selection
  of shape `shape` among the values at each time, given by `f` -/
  | select (p : ℕ) (shape : List ℕ) (f : List ℕ → List ℕ)
  /-- a method of `numpy.ndarray` that returns a view, of type `process`, with the given shape (as `reshape`) -/
  | template (p : ℕ) (shape : List ℕ) (f : List ℕ → List ℕ)
  /-- a method of `numpy.ndarray` that returns new values, of type `process` (as `copy`, `astype`, `flatten`) -/
  | templateCopy (p : ℕ) (shape : List ℕ) (f : List ℕ → List ℕ)
  /-- a ufunc with a single process among its operands, the others being numbers (as `2*p`, `exp(p)`) -/
  | ufunc (p : ℕ) (g : K → K)

section
variable {K : Type}

def World.empty [Zero K] : World K := ⟨fun _ _ => 0, 0, [], []⟩

/-- The items of an array, at present. -/
def World.read (w : World K) (v : View) : Arr K := ⟨v.shape, fun i => w.mem v.buf (v.addr i)⟩

/-- The array that refers to the next buffer to be allocated, with items in row-major order. -/
def World.freshView (w : World K) (shape : List ℕ) : View := ⟨w.next, shape, ravel shape⟩

/-- Allocate a buffer, with the given items. -/
def World.alloc (w : World K) (a : Arr K) : World K :=
  { w with mem := Function.update w.mem w.next fun k => a.get (unravel a.shape k), next := w.next + 1 }

/-- Write one item. -/
def World.write (w : World K) (v : View) (i : List ℕ) (k : K) : World K :=
  { w with mem := Function.update w.mem v.buf (Function.update (w.mem v.buf) (v.addr i) k) }

def World.pushArr (w : World K) (v : View) : World K := { w with arrs := w.arrs ++ [v] }

def World.pushProc (w : World K) (o : PObj) : World K := { w with procs := w.procs ++ [o] }

def World.setProc (w : World K) (p : ℕ) (o : PObj) : World K := { w with procs := w.procs.set p o }

/-- A name that is not bound: not a case of interest (python raises `NameError`). -/
def World.arr (w : World K) (a : ℕ) : Py View :=
  match w.arrs[a]? with
  | none => .error .keyError
  | some v => .ok v

def World.proc (w : World K) (p : ℕ) : Py PObj :=
  match w.procs[p]? with
  | none => .error .keyError
  | some o => .ok o

/-- A timeline given as a scalar is turned into a vector (lines 429-430). -/
def View.vector (t : View) : View := if t.shape = [] then { t with shape := [1], addr := fun _ => t.addr [] } else t

/-- `process(t=t, x=x)` (`process.__new__`, `infrastructure.py` 423-456): no copy is made. -/
def newProc (t x : View) : Py PObj :=
  if t.shape.length > 1 ∨ t.shape.prod = 0 then .error .valueError
  else if t.vector.shape ≠ x.shape.take 1 then .error .valueError
  else .ok ⟨some t.vector, x, none⟩

/-- The attribute `t` of an array of type `process` made by NumPy from a process with attribute `t`
(`process.__array_finalize__`, new from template, `infrastructure.py` 477-482). -/
def finalize (t : Option View) (shape : List ℕ) : Py (Option View) :=
  match t with
  | none => .error .attributeError
  | some t => if t.shape ≠ shape.take 1 then .ok none else .ok (some t)

/-- Broadcastable shape of a vector, given the shape of the process (lines 737, 765). -/
def View.column (t : View) (shape : List ℕ) : View :=
  { t with shape := t.shape ++ shape.tail.map fun _ => 1, addr := fun i => t.addr (i.take t.shape.length) }

/-- `np.diff(t)` -/
def diffArr [Sub K] (t : Arr K) : Arr K :=
  ⟨[t.shape.headD 0 - 1], fun i => t.get [i.headD 0 + 1] - t.get [i.headD 0]⟩

/-- `p.dt` (`infrastructure.py` 740-751): the state, once increments are cached, and the cached increments. -/
def World.dtOf [Sub K] (w : World K) (p : ℕ) (o : PObj) : Py (World K × View) :=
  match o.dt with
  | some d => .ok (w, d)
  | none =>
    match o.t with
    | none => .error .valueError
    | some t =>
      let d := diffArr (w.read t)
      .ok ((w.alloc d).setProc p { o with dt := some (w.freshView d.shape) }, w.freshView d.shape)

/-- The items of an array selected by `f`. -/
def View.sel (v : View) (shape : List ℕ) (f : List ℕ → List ℕ) : View := ⟨v.buf, shape, fun i => v.addr (f i)⟩

/-- `cls(t, x=x)`, as done by methods of a process with attribute `t` (lines 690, 701, 799, 819, 827). Simplified:
if `t` is `None`, and there is a single time point, python makes a process the timeline of which is
`array([None])`; here an exception is raised in this case too. -/
def World.pushNew (w : World K) (t : Option View) (x : View) : Py (World K) :=
  match t with
  | none => .error .valueError
  | some t =>
    match newProc t x with
    | .error e => .error e
    | .ok o => .ok (w.pushProc o)

/-- Execution of a statement. -/
def World.step [Sub K] (w : World K) : Stmt K → Py (World K)
  | .array shape val => .ok ((w.alloc ⟨shape, val⟩).pushArr (w.freshView shape))
  | .setItem a i k =>
    match w.arr a with
    | .error e => .error e
    | .ok v => if InRange v.shape i then .ok (w.write v i k) else .error .indexError
  | .process t x =>
    match w.arr t with
    | .error e => .error e
    | .ok t =>
      match w.arr x with
      | .error e => .error e
      | .ok x => w.pushNew (some t) x
  | .setValue p i k =>
    match w.proc p with
    | .error e => .error e
    | .ok o => if InRange o.x.shape i then .ok (w.write o.x i k) else .error .indexError
  | .bindT p a =>
    match w.proc p with
    | .error e => .error e
    | .ok o =>
      match w.arr a with
      | .error e => .error e
      | .ok v => -- simplified: python accepts arrays with any number of axes, though they are not timelines
        if v.shape.length = 1 then .ok (w.setProc p { o with t := some v }) else .error .valueError
  | .t p => -- an attribute of type `numpy.ndarray`; `None` is not an array
    match w.proc p with
    | .error e => .error e
    | .ok o =>
      match o.t with
      | none => .error .attributeError
      | some t => .ok (w.pushArr t)
  | .x p => -- `process.x` (`infrastructure.py` 713-715)
    match w.proc p with
    | .error e => .error e
    | .ok o => .ok (w.pushArr o.x)
  | .tx p => -- `process.tx` (`infrastructure.py` 731-737)
    match w.proc p with
    | .error e => .error e
    | .ok o =>
      match o.t with
      | none => .error .attributeError
      | some t => .ok (w.pushArr (t.column o.x.shape))
  | .dt p =>
    match w.proc p with
    | .error e => .error e
    | .ok o =>
      match w.dtOf p o with
      | .error e => .error e
      | .ok (w, d) => .ok (w.pushArr d)
  | .dtx p => -- `process.dtx` (`infrastructure.py` 754-765)
    match w.proc p with
    | .error e => .error e
    | .ok o =>
      match w.dtOf p o with
      | .error e => .error e
      | .ok (w, d) => .ok (w.pushArr (d.column o.x.shape))
  | .pcopy p => -- `process.pcopy` (`infrastructure.py` 804-811)
    match w.proc p with
    | .error e => .error e
    | .ok o =>
      match o.t with
      | none => .error .attributeError
      | some t =>
        let w' := w.alloc (w.read t)
        (w'.alloc (w.read o.x)).pushNew (some (w.freshView t.shape)) (w'.freshView o.x.shape)
  | .xcopy p => -- `process.xcopy` (`infrastructure.py` 813-820)
    match w.proc p with
    | .error e => .error e
    | .ok o => (w.alloc (w.read o.x)).pushNew o.t (w.freshView o.x.shape)
  | .tcopy p => -- `process.tcopy` (`infrastructure.py` 822-828)
    match w.proc p with
    | .error e => .error e
    | .ok o =>
      match o.t with
      | none => .error .attributeError
      | some t => (w.alloc (w.read t)).pushNew (some (w.freshView t.shape)) o.x
  | .times p n f => -- `p['t', key]` (`infrastructure.py` 698-699)
    match w.proc p with
    | .error e => .error e
    | .ok o =>
      match o.t with
      | none => .error .typeError
      | some t =>
        if ∀ k < n, f k < t.shape.headD 0 ∧ f k < o.x.shape.headD 0 then
          w.pushNew (some (t.sel [n] fun i => [f (i.headD 0)]))
            (o.x.sel (n :: o.x.shape.tail) fun i => f (i.headD 0) :: i.tail)
        else .error .indexError
  | .select p shape f => -- `p['v', key]`, `p['p', key]` (`infrastructure.py` 690, 701), `p.shapeas` (799)
    match w.proc p with
    | .error e => .error e
    | .ok o => w.pushNew o.t (o.x.sel (o.x.shape.take 1 ++ shape) fun i => i.take 1 ++ f i.tail)
  | .template p shape f =>
    match w.proc p with
    | .error e => .error e
    | .ok o =>
      match finalize o.t shape with
      | .error e => .error e
      | .ok t => .ok (w.pushProc ⟨t, o.x.sel shape f, none⟩)
  | .templateCopy p shape f =>
    match w.proc p with
    | .error e => .error e
    | .ok o =>
      match finalize o.t shape with
      | .error e => .error e
      | .ok t => .ok ((w.alloc (w.read (o.x.sel shape f))).pushProc ⟨t, w.freshView shape, none⟩)
  | .ufunc p g => -- `__array_prepare__`, `__array_wrap__` (`infrastructure.py` 489-538)
    match w.proc p with
    | .error e => .error e
    | .ok o =>
      let a := w.read o.x
      (w.alloc ⟨a.shape, fun i => g (a.get i)⟩).pushNew o.t (w.freshView a.shape)

/-- Execution of a statement, in a program that goes on after exceptions. -/
def World.exec [Sub K] (w : World K) (s : Stmt K) : World K :=
  match w.step s with
  | .ok w' => w'
  | .error _ => w

/-- Execution of a program. -/
def World.run [Sub K] (w : World K) (prog : List (Stmt K)) : World K := prog.foldl World.exec w

end

end Sdepy
