import Verif.NpMore
import Mathlib.Tactic.Ring
import Mathlib.Algebra.BigOperators.Group.List.Basic

/-!
# NumPy arrays: reshaping, reductions, indexing

As `Verif.Np`, this file models NumPy, not sdepy.
-/

namespace Sdepy

/-! ### `reshape` -/

/-- Position of a multi-index in row-major order. -/
def ravel : List ℕ → List ℕ → ℕ
  | _ :: s, i :: is => i * s.prod + ravel s is
  | _, _ => 0

/-- Multi-index of a position in row-major order. -/
def unravel : List ℕ → ℕ → List ℕ
  | [], _ => []
  | _ :: s, k => k / s.prod :: unravel s (k % s.prod)

/-- `a.reshape(shape)`. -/
def Arr.reshape {α : Type} (a : Arr α) (shape : List ℕ) : Py (Arr α) :=
  if a.shape.prod = shape.prod then .ok ⟨shape, fun i => a.get (unravel a.shape (ravel shape i))⟩
  else .error .valueError

theorem ravel_lt {s i : List ℕ} (h : InRange s i) : ravel s i < s.prod := by
  induction h with
  | nil => simp [ravel]
  | @cons j n js s h1 h2 ih =>
    simp only [ravel, List.prod_cons]
    calc j * s.prod + ravel s js < j * s.prod + s.prod := by omega
      _ = (j + 1) * s.prod := by ring
      _ ≤ n * s.prod := Nat.mul_le_mul_right _ h1

theorem unravel_ravel {s i : List ℕ} (h : InRange s i) : unravel s (ravel s i) = i := by
  induction h with
  | nil => rfl
  | @cons j n js s h1 h2 ih =>
    have hl := ravel_lt h2
    have hpos : 0 < s.prod := by omega
    simp only [ravel, unravel]
    rw [Nat.mul_comm, Nat.mul_add_div hpos, Nat.div_eq_of_lt hl, Nat.mul_add_mod, Nat.mod_eq_of_lt hl, ih]
    simp

theorem prod_ones (s t : List ℕ) (k : ℕ) : (s ++ List.replicate k 1 ++ t).prod = (s ++ t).prod := by
  simp

/-- Axes of size one do not change positions. -/
theorem ravel_ones {s i : List ℕ} (t j : List ℕ) (k : ℕ) (h : i.length = s.length) :
    ravel (s ++ List.replicate k 1 ++ t) (i ++ List.replicate k 0 ++ j) = ravel (s ++ t) (i ++ j) := by
  induction s generalizing i with
  | nil =>
    cases i with
    | cons _ _ => simp at h
    | nil =>
      simp only [List.nil_append]
      induction k with
      | zero => rfl
      | succ k ih => simpa [List.replicate_succ, ravel] using ih
  | cons a s ih =>
    cases i with
    | nil => simp at h
    | cons b i =>
      have := ih (i := i) (by simpa using h)
      simp only [List.cons_append, ravel, prod_ones, this]

/-- Adding axes of size one by `reshape`. -/
theorem reshape_add {α : Type} (a : Arr α) (s t : List ℕ) (k : ℕ) (ha : a.shape = s ++ t) :
    ∃ b, a.reshape (s ++ List.replicate k 1 ++ t) = .ok b ∧ b.shape = s ++ List.replicate k 1 ++ t ∧
      ∀ i j, InRange s i → InRange t j → b.get (i ++ List.replicate k 0 ++ j) = a.get (i ++ j) := by
  refine ⟨_, by rw [Arr.reshape, if_pos (by rw [ha, prod_ones])], rfl, fun i j hi hj => ?_⟩
  show a.get _ = _
  rw [ravel_ones t j k hi.length, ha, unravel_ravel ((inRange_append hi.length).2 ⟨hi, hj⟩)]

theorem inRange_ones (k : ℕ) : InRange (List.replicate k 1) (List.replicate k 0) := by
  induction k with
  | zero => exact .nil
  | succ k ih => exact .cons (by omega) ih

/-- Removing axes of size one by `reshape`. -/
theorem reshape_drop {α : Type} (a : Arr α) (s t : List ℕ) (k : ℕ)
    (ha : a.shape = s ++ List.replicate k 1 ++ t) :
    ∃ b, a.reshape (s ++ t) = .ok b ∧ b.shape = s ++ t ∧
      ∀ i j, InRange s i → InRange t j → b.get (i ++ j) = a.get (i ++ List.replicate k 0 ++ j) := by
  refine ⟨_, by rw [Arr.reshape, if_pos (by rw [ha, prod_ones])], rfl, fun i j hi hj => ?_⟩
  show a.get _ = _
  rw [← ravel_ones t j k hi.length, ha, unravel_ravel]
  rw [List.append_assoc, List.append_assoc, inRange_append hi.length,
    inRange_append (by simp)]
  exact ⟨hi, inRange_ones k, hj⟩

/-! ### Reductions along axes -/

/-- Items of a list at positions where the mask has the given value. -/
def selAxes (b : Bool) : List Bool → List ℕ → List ℕ
  | m :: ms, n :: ns => if m = b then n :: selAxes b ms ns else selAxes b ms ns
  | _, _ => []

/-- Interleave the indices of reduced axes (`r`) with the others (`k`). -/
def mergeAxes : List Bool → List ℕ → List ℕ → List ℕ
  | [], _, _ => []
  | true :: m, k, r => r.headD 0 :: mergeAxes m k r.tail
  | false :: m, k, r => k.headD 0 :: mergeAxes m k.tail r

/-- Size one along reduced axes. -/
def keptShape : List Bool → List ℕ → List ℕ
  | m :: ms, n :: ns => (if m then 1 else n) :: keptShape ms ns
  | _, _ => []

/-- The axes listed in `axes`, as a mask. -/
def axesMask (ndim : ℕ) (axes : List ℕ) : List Bool := (List.range ndim).map fun k => decide (k ∈ axes)

/-- A function of all values along some axes: `sum`, `mean`, etc., with arguments `axis`, `keepdims`. -/
def Arr.reduce {α β : Type} (a : Arr α) (f : List α → β) (axes : List ℕ) (keepdims : Bool) : Arr β :=
  let m := axesMask a.shape.length axes
  ⟨if keepdims then keptShape m a.shape else selAxes false m a.shape,
    fun i => f ((ndindex (selAxes true m a.shape)).map fun r =>
      a.get (mergeAxes m (if keepdims then selAxes false m i else i) r))⟩

/-- A reduction without identity (`min`, `max`): it fails if there are no values along the axes, for a
result that has values. -/
def Arr.reduce1 {α β : Type} (a : Arr α) (f : List α → β) (axes : List ℕ) (keepdims : Bool) : Py (Arr β) :=
  let r := a.reduce f axes keepdims
  if a.shape.prod = 0 ∧ r.shape.prod ≠ 0 then .error .valueError else .ok r

/-! ### Indexing -/

/-- An item of an index: an integer, a slice, a list of integers. -/
inductive NpIx where
  | int (i : ℤ)
  | slice (start stop step : Option ℤ)
  | list (l : List ℤ)
  deriving DecidableEq

/-- `:` -/
def NpIx.all : NpIx := .slice none none none

/-- A position along an axis of size `n`, negative ones counting from the end. -/
def npPos (n : ℕ) (i : ℤ) : Option ℕ :=
  if 0 ≤ i ∧ i < n then some i.toNat
  else if i < 0 ∧ 0 ≤ i + n then some (i + n).toNat
  else none

/-- A slice bound: negative ones count from the end, then clipped between `lo` and `hi`. -/
def clipBound (n : ℕ) (lo hi i : ℤ) : ℤ := max lo (min hi (if i < 0 then i + n else i))

/-- Positions selected by a slice along an axis of size `n` (`slice.indices`); `none` if the step is 0. -/
def sliceSel (n : ℕ) (start stop step : Option ℤ) : Option (List ℕ) :=
  let d := step.getD 1
  if d = 0 then none
  else if 0 < d then
    let a := (start.map (clipBound n 0 n)).getD 0
    let b := (stop.map (clipBound n 0 n)).getD n
    some ((List.range n).filter fun k : ℕ => a ≤ k ∧ (k : ℤ) < b ∧ (k - a) % d = 0)
  else
    let a := (start.map (clipBound n (-1) (n - 1))).getD (n - 1)
    let b := (stop.map (clipBound n (-1) (n - 1))).getD (-1)
    some (((List.range n).filter fun k : ℕ => (k : ℤ) ≤ a ∧ b < k ∧ (a - k) % (-d) = 0).reverse)

/-- What an item of an index selects along its axis: a position, positions giving an axis of the result,
positions to be paired with those of other lists. -/
inductive Sel where
  | fix (k : ℕ)
  | many (l : List ℕ)
  | adv (l : List ℕ)
  deriving DecidableEq

/-- Resolve one item of an index. -/
def NpIx.sel (n : ℕ) : NpIx → Py Sel
  | .int i => match npPos n i with
    | none => .error .indexError
    | some k => .ok (.fix k)
  | .slice a b d => match sliceSel n a b d with
    | none => .error .valueError
    | some l => .ok (.many l)
  | .list l => match l.mapM (npPos n) with
    | none => .error .indexError
    | some l => .ok (.adv l)

/-- Resolve an index, axes without an item being selected in full. -/
def resolveIx : List ℕ → List NpIx → Py (List Sel)
  | [], [] => .ok []
  | [], _ :: _ => .error .indexError
  | n :: s, [] =>
    match resolveIx s [] with
    | .error e => .error e
    | .ok r => .ok (.many (List.range n) :: r)
  | n :: s, i :: is =>
    match i.sel n with
    | .error e => .error e
    | .ok a =>
      match resolveIx s is with
      | .error e => .error e
      | .ok r => .ok (a :: r)

def Sel.isAdv : Sel → Bool
  | .adv _ => true
  | _ => false

def Sel.isMany : Sel → Bool
  | .many _ => true
  | _ => false

/-- With lists in an index, integers count as lists of one item. -/
def Sel.promote : Sel → Sel
  | .fix k => .adv [k]
  | s => s

/-- Sizes of the axes of the result due to slices. -/
def manyDims : List Sel → List ℕ
  | [] => []
  | .many l :: s => l.length :: manyDims s
  | _ :: s => manyDims s

/-- Lengths of lists, to be paired, are broadcast together. -/
def advSize : List Sel → Option ℕ
  | [] => some 1
  | .adv l :: s =>
    match advSize s with
    | none => none
    | some n => if l.length = n ∨ n = 1 then some l.length else if l.length = 1 then some n else none
  | _ :: s => advSize s

/-- Position in the indexed array: `a` is the index along the axis of paired lists, `i` along slices. -/
def pick : List Sel → ℕ → List ℕ → List ℕ
  | [], _, _ => []
  | .fix k :: s, a, i => k :: pick s a i
  | .adv l :: s, a, i => l.getD (if l.length = 1 then 0 else a) 0 :: pick s a i
  | .many l :: s, a, i => l.getD (i.headD 0) 0 :: pick s a i.tail

/-- Lists are next to each other, not separated by slices. -/
def advTogether (s : List Sel) : Bool :=
  ((s.dropWhile Sel.isMany).dropWhile Sel.isAdv).all Sel.isMany

/-- `a[index]`, for an index made of integers, slices and lists. Without lists, each slice gives an axis of
the result. With lists, these (and integers) give one more axis, at their place if they are next to each
other, or otherwise as the first one. -/
def Arr.npIndex {α : Type} (a : Arr α) (ix : List NpIx) : Py (Arr α) :=
  match resolveIx a.shape ix with
  | .error e => .error e
  | .ok s =>
    if s.any Sel.isAdv then
      let s := s.map Sel.promote
      match advSize s with
      | none => .error .indexError
      | some n =>
        let q := if advTogether s then (s.takeWhile Sel.isMany).length else 0
        .ok ⟨(manyDims s).insertIdx q n, fun o => a.get (pick s (o.getD q 0) (o.eraseIdx q))⟩
    else .ok ⟨manyDims s, fun o => a.get (pick s 0 o)⟩

end Sdepy
