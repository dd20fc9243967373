import Mathlib.Algebra.Order.Field.Basic
import Mathlib.Algebra.Order.Field.Rat
import Mathlib.Data.List.Sort
import Mathlib.Data.List.Dedup
import Verif.Py

/-!
# Model of `paths_generator` (`/repo/sdepy/integration.py`, lines 40-584)

Times are of any linearly ordered type with the operations that the code makes use of, subject to no laws here:
exact numbers, or floating point ones with rounded operations (NaN excluded).

Simplifications:

* The working arrays `sw`, `xw` (K slots each) are one list of pairs `(s, x)`, holding the
  K-1 meaningful slots (lines 419-424: "sw[0:K-1], xw[0:K-1] refer to the last stored K-1
  steps; sw[-1], xw[-1] are undefined"). `np.roll(., -1)` (lines 465-466) followed by
  overwriting the last slot drops the oldest pair and appends the new one.
* Callbacks act on an arbitrary state `σ` (random generators, diagnostics, ...). `next` gets
  the window and the target and returns the new `sw[-1]`, `xw[-1]`: as the class
  documentation requires, it does not write the other slots. `store` returns what it
  writes into `xx[i]`.
* The `while` loop takes a fuel argument; `PyErr.noFuel` marks exhaustion.
* `getinfo` is on.
-/

namespace Sdepy

/-- Methods that a subclass of `paths_generator` provides
(`integration.py` 220-338: `begin`, `next`, `store`, `end`; `depth`: 187).
`Bool` arguments are `itervars['reverse']`. -/
structure PGen (T W O σ : Type) where
  depth : ℕ
  /-- `begin`: given `sw[0:K-1]`, sets `xw[k]` for `k < K-1` -/
  begin : Bool → List T → σ → Py ((ℕ → W) × σ)
  /-- `next`: given the window and the target, returns the new `sw[-1]`, `xw[-1]` -/
  next : Bool → List (T × W) → T → σ → Py ((T × W) × σ)
  /-- `store(i, k)`: given `i`, `sw[k]` and `xw[k]`, returns the value written to `xx[i]` -/
  store : ℕ → T → W → σ → Py (O × σ)
  /-- `end` -/
  fin : σ → Py σ

/-- What a pass accumulates: the output slots (`none` is the initial NaN), the state of the
callbacks, `info['computed_steps']`, `info['stored_steps']`. -/
structure PAcc (O σ : Type) where
  xx : List (Option O)
  s : σ
  computed : ℕ
  stored : ℕ

/-- `numpy.linspace(a, b, n)`, for `n ≥ 0`, in the arithmetic that NumPy carries out for times of type `T`
(for floating point times, results are rounded). -/
class Linspace (T : Type) where
  linspace : T → T → ℕ → List T

/-- `numpy.linspace` in exact arithmetic. -/
instance {T : Type} [Field T] : Linspace T where
  linspace a b n := (List.range n).map fun i : ℕ => a + (i : T) * ((b - a) / ((n : T) - 1))

section
variable {T W O σ : Type} [Zero T] [One T] [Neg T] [Sub T] [Mul T] [LinearOrder T] [Linspace T]

/-- `_store_if_reached` (`integration.py` 377-390). Returns `xx`, the state and the
increment of `i`. -/
def storeIfReached (g : PGen T W O σ) (rev : Bool) (tt : List T)
    (i : ℕ) (p : T × W) (xx : List (Option O)) (s : σ) :
    Py (List (Option O) × ℕ × σ) :=
  match tt[i]? with
  | none => .error .indexError
  | some ti =>
    if (ti - p.1) * (if rev then -1 else 1) < 0 then .error .runtimeError
    else if ti = p.1 then
      match g.store i p.1 p.2 s with
      | .error e => .error e
      | .ok (o, s') => .ok (xx.set i (some o), 1, s')
    else .ok (xx, 0, s)

/-- Storing of the initial window (`integration.py` 411-414). -/
def storeWindow (g : PGen T W O σ) (rev : Bool) (tt : List T) :
    List (T × W) → ℕ → List (Option O) → σ → Py (List (Option O) × ℕ × σ)
  | [], i, xx, s => .ok (xx, i, s)
  | p :: ps, i, xx, s =>
    match storeIfReached g rev tt i p xx s with
    | .error e => .error e
    | .ok (xx', di, s') => storeWindow g rev tt ps (i + di) xx' s'

/-- `order_ok` (`integration.py` 444-445), with `last = sw[-2]`, `s = sw[-1]`. -/
def orderOk (rev : Bool) (last s target : T) : Prop :=
  if rev then target ≤ s ∧ s < last else last < s ∧ s ≤ target

instance (rev : Bool) (a b c : T) : Decidable (orderOk rev a b c) := by
  unfold orderOk; infer_instance

/-- `if current_s == target_s: target_s = next(st)` (`integration.py` 427-428). Returns the
target and what is left of the steps iterator. -/
def selectTarget (current target : T) (st : List T) : Py (T × List T) :=
  if current = target then
    match st with
    | [] => .error .stopIteration
    | t :: st' => .ok (t, st')
  else .ok (target, st)

/-- Main loop (`integration.py` 416-468). `st` is what is left of the steps iterator. -/
def mainLoop (g : PGen T W O σ) (rev : Bool) (tt : List T) :
    ℕ → List (T × W) → (st : List T) → (target current : T) → (i : ℕ) → PAcc O σ →
    Py (PAcc O σ)
  | 0, _, _, _, _, i, a => if i < tt.length then .error .noFuel else .ok a
  | fuel + 1, win, st, target, current, i, a =>
    if i < tt.length then
      match selectTarget current target st with
      | .error e => .error e
      | .ok (target, st) =>
        match g.next rev win target a.s with
        | .error e => .error e
        | .ok (p, s) =>
          match win.getLast? with
          | none => .error .indexError
          | some last =>
            if ¬ orderOk rev last.1 p.1 target then .error .runtimeError
            else
              match storeIfReached g rev tt i p a.xx s with
              | .error e => .error e
              | .ok (xx, di, s) =>
                mainLoop g rev tt fuel (win.tail ++ [p]) st target p.1 (i + di)
                  ⟨xx, s, a.computed + 1, a.stored + di⟩
    else .ok a

/-- `_generate_paths` (`integration.py` 392-474). `sw[k] = next(st)` for `k < K-1`
(403-405) leaks `StopIteration` if there are not enough steps. -/
def generatePaths (g : PGen T W O σ) (fuel : ℕ) (steps tt : List T) (rev : Bool)
    (a : PAcc O σ) : Py (PAcc O σ) :=
  if steps.length < g.depth - 1 then .error .stopIteration
  else
    let sw := steps.take (g.depth - 1)
    let st := steps.drop (g.depth - 1)
    match g.begin rev sw a.s with
    | .error e => .error e
    | .ok (xw, s) =>
      let win := sw.mapIdx fun k t => (t, xw k)
      match storeWindow g rev tt win 0 a.xx s with
      | .error e => .error e
      | .ok (xx, i, s) =>
        match win.getLast? with
        | none => .error .indexError
        | some last =>
          match mainLoop g rev tt fuel win st last.1 last.1 i { a with xx := xx, s := s } with
          | .error e => .error e
          | .ok a =>
            match g.fin a.s with
            | .error e => .error e
            | .ok s => .ok { a with s := s }

/-- `numpy.unique` of a one-dimensional array: sorted, without repetitions. -/
def npUnique (l : List T) : List T := (l.insertionSort (· ≤ ·)).dedup

/-- `numpy.linspace(a, b, n)`; a negative `n` is a `ValueError`. -/
def npLinspace (a b : T) (n : ℤ) : Py (List T) :=
  if n < 0 then .error .valueError
  else .ok (Linspace.linspace a b n.toNat)

/-- The `steps` parameter (`integration.py` 61-73). -/
inductive Steps (T : Type) where
  | none
  | int (n : ℤ)
  | iter (l : List T)

/-- `pace` (`integration.py` 189-218), on a non-empty timeline. -/
def pace (steps : Steps T) (tt : List T) : Py (List T) :=
  if tt.length = 1 then .ok tt
  else match steps with
    | .none => .ok []
    | .int n =>
      match tt.head?, tt.getLast? with
      | some a, some b => npLinspace a b n
      | _, _ => .error .indexError
    | .iter l => .ok l

/-- Python indexing position `i` in a sequence of length `n`, if in range. -/
def pyIndex (n : ℕ) (i : ℤ) : Option ℕ :=
  if 0 ≤ i ∧ i < n then some i.toNat
  else if -(n : ℤ) ≤ i ∧ i < 0 then some (i + n).toNat
  else none

/-- An array passed as timeline: its shape and its entries in order. -/
structure TArr (T : Type) where
  shape : List ℕ
  data : List T

/-- Integration steps (`integration.py` 534-545), given a valid non-empty timeline. -/
def stepsTT (steps : Steps T) (tt : List T) : Py (List T) :=
  match tt.head?, tt.getLast? with
  | some tmin, some tmax =>
    match pace steps tt with
    | .error e => .error e
    | .ok target =>
      .ok (npUnique ((target.filter fun t => tmin ≤ t ∧ t ≤ tmax) ++ tt))
  | _, _ => .error .indexError

/-- Result of `__call__` before `exit`: output slots, final state and `info` items. -/
structure CallResult (T O σ : Type) where
  xx : List (Option O)
  s : σ
  t0 : T
  tmin : T
  tmax : T
  computed : ℕ
  stored : ℕ

/-- Backward pass (`integration.py` 569-571): `steps_tt[j0::-1]`, `tt[i0::-1]`, writing
through the view `xx[i0::-1]`, here a reversed copy that is put back. `i` is the position
designated by `i0`. -/
def backPass (g : PGen T W O σ) (fuel : ℕ) (st tt : List T) (i0 : ℤ) (i j0 : ℕ)
    (a : PAcc O σ) : Py (PAcc O σ) :=
  if i0 ≠ 0 then
    match generatePaths g fuel (st.take (j0 + 1)).reverse (tt.take (i + 1)).reverse true
        { a with xx := (a.xx.take (i + 1)).reverse } with
    | .error e => .error e
    | .ok b => .ok { b with xx := b.xx.reverse ++ a.xx.drop (i + 1) }
  else .ok a

/-- Forward pass (`integration.py` 572-576): `steps_tt[j0:]`, `tt[i0:]`, `xx[i0:]`. -/
def forwPass (g : PGen T W O σ) (fuel : ℕ) (st tt : List T) (i0 : ℤ) (i j0 : ℕ)
    (a : PAcc O σ) : Py (PAcc O σ) :=
  if i0 = 0 ∨ ¬ (i0 = -1 ∨ i0 = (tt.length : ℤ) - 1) then
    match generatePaths g fuel (st.drop j0) (tt.drop i) false
        { a with xx := a.xx.drop i } with
    | .error e => .error e
    | .ok b => .ok { b with xx := a.xx.take i ++ b.xx }
  else .ok a

/-- `__call__` up to `exit` (`integration.py` 476-584). -/
def callPG (g : PGen T W O σ) (fuel : ℕ) (steps : Steps T) (i0 : ℤ) (timeline : TArr T)
    (s : σ) : Py (CallResult T O σ) :=
  if g.depth < 2 then .error .valueError
  else if timeline.shape ≠ [timeline.data.length] then .error .valueError
  else
    let tt := timeline.data
    if tt ≠ npUnique tt then .error .valueError
    else
      match pyIndex tt.length i0 with
      | none => .error .indexError
      | some i =>
        match stepsTT steps tt with
        | .error e => .error e
        | .ok st =>
          if st.length < g.depth - 1 then .error .valueError
          else
            match tt[i]?, tt.head?, tt.getLast? with
            | some t0, some tmin, some tmax =>
              let j0 := st.idxOf t0
              match backPass g fuel st tt i0 i j0 ⟨List.replicate tt.length none, s, 0, 0⟩ with
              | .error e => .error e
              | .ok a =>
                match forwPass g fuel st tt i0 i j0 a with
                | .error e => .error e
                | .ok a => .ok ⟨a.xx, a.s, t0, tmin, tmax, a.computed, a.stored⟩
            | _, _, _ => .error .indexError

end

end Sdepy
