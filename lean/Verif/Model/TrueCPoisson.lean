import Verif.Model.Sources
import Verif.Model.TrueWiener

/-!
# Model of `true_cpoisson_source` (`/repo/sdepy/infrastructure.py`, lines 2558-2711)

The state on which the source depends is the memory of the underlying source `dn`, which in turn holds
the state of the random generator: both sources draw from the same generator (lines 2607-2612), or
from a pair of them, if `σ` is a product. `dtype` is not modelled: values are exact. `getsize` and
`size` are in `Verif.Model.SourceSize`.
-/

namespace Sdepy

/-- The indices of an array. -/
abbrev Pos (shape : List ℕ) := {c : List ℕ // InRange shape c}

instance (shape : List ℕ) : Fintype (Pos shape) :=
  Fintype.subtype (ndindex shape).toFinset (by simp [mem_ndindex])

/-- An array, from its values. -/
def ofPos {α : Type} {shape : List ℕ} (d : α) (f : Pos shape → α) : Arr α :=
  ⟨shape, fun c => if h : InRange shape c then f ⟨c, h⟩ else d⟩

section
variable {Y : Type} [CommRing Y] [DecidableEq Y]

/-- Indices of an array of integers at which it equals `i` (`dn_value == i`), in order. -/
def cellsAt (d : Arr ℤ) (i : ℕ) : List (List ℕ) := trueCells d.shape fun c => d.get c = i

/-- First loop of `_decode_y` (`infrastructure.py` 2631-2634). An array of shape `d.shape + (w,)` is
given by index and by position along the last axis. The assignment `yy[index, :i] = y` broadcasts
`y`, or fails. -/
def decodeLoop (d : Arr ℤ) (w : ℕ) : List (YSample Y) → (List ℕ → ℕ → Y) → Py (List ℕ → ℕ → Y)
  | [], yy => .ok yy
  | y :: ys, yy =>
    let cells := cellsAt d y.j
    match (Arr.mk [y.n, y.j] fun i => y.val (i.headD 0) (i.getLastD 0)).broadcastTo
        [cells.length, min y.j w] with
    | .error e => .error e
    | .ok b => decodeLoop d w ys fun c k =>
        if c ∈ cells ∧ k < min y.j w then b.get [cells.idxOf c, k] else yy c k

/-- `_decode_y(dn_value, y_value)` (`infrastructure.py` 2627-2639): the array, and the size of its
last axis. `numpy.zeros` fails if the size is negative. -/
def decodeY (d : Arr ℤ) (ys : List (YSample Y)) : Py (ℕ × (List ℕ → ℕ → Y)) :=
  match arrMax d with
  | .error e => .error e
  | .ok nmax =>
    if nmax < 0 then .error .valueError
    else
      match decodeLoop d nmax.toNat ys fun _ _ => 0 with
      | .error e => .error e
      | .ok yy =>
        if ys.map (·.j) = (List.range' 1 nmax.toNat).filter fun i => cellsAt d i ≠ [] then
          .ok (nmax.toNat, yy)
        else .error .assertionError

/-- Loop of `_encode_y` (`infrastructure.py` 2646-2651), from `i` on for `n` iterations. -/
def encodeLoop (d : Arr ℤ) (w : ℕ) (yy : List ℕ → ℕ → Y) : ℕ → ℕ → Py (List (YSample Y))
  | 0, _ => .ok []
  | n + 1, i =>
    let cells := cellsAt d i
    if cells = [] then encodeLoop d w yy n (i + 1)
    else if ∃ c ∈ cells, ∃ k ∈ List.range w, i ≤ k ∧ yy c k ≠ 0 then .error .assertionError
    else
      match encodeLoop d w yy n (i + 1) with
      | .error e => .error e
      | .ok ys => .ok (⟨cells.length, min i w, fun r k => yy (cells.getD r []) k⟩ :: ys)

/-- `_encode_y(dn_value, yy)` (`infrastructure.py` 2641-2652), for `yy` with a last axis of size
`w`. -/
def encodeY (d : Arr ℤ) (w : ℕ) (yy : List ℕ → ℕ → Y) : Py (List (YSample Y)) :=
  match arrMax d with
  | .error e => .error e
  | .ok nmax =>
    match arrMax ⟨d.shape, fun c => (((List.range w).countP fun k => yy c k ≠ 0 : ℕ) : ℤ)⟩ with
    | .error e => .error e
    | .ok cmax =>
      if nmax ≠ cmax then .error .assertionError
      else encodeLoop d w yy nmax.toNat 1

/-- The loop that splits `yy1` into `yy1_updated` and `yy_new` (`infrastructure.py` 2685-2688), on the
values of `i` in a list; `e` is `dn_s_t1`, `w` is `nmax`. For `w < i` the slice `:nmax-i` counts from
the end, and gives `2 * w - i` items, against none in `yy1[index, i:]`. -/
def splitLoop (e : Arr ℤ) (w : ℕ) (yy1 : List ℕ → ℕ → Y) :
    List ℕ → (List ℕ → ℕ → Y) → (List ℕ → ℕ → Y) → Py ((List ℕ → ℕ → Y) × (List ℕ → ℕ → Y))
  | [], upd, new => .ok (upd, new)
  | i :: is, upd, new =>
    if w < i ∧ i < 2 * w then .error .valueError
    else splitLoop e w yy1 is
      (fun c k => if c ∈ cellsAt e i ∧ i ≤ k then 0 else upd c k)
      (fun c k => if c ∈ cellsAt e i ∧ k < w - i then yy1 c (i + k) else new c k)

/-- From `_decode_y` to the end of `new_inside` (`infrastructure.py` 2680-2699), given the values of
`dn`: `y1_updated`, `y_new` and `dj`. -/
def splitY (d d1 d2 : Arr ℤ) (ys : List (YSample Y)) :
    Py (List (YSample Y) × List (YSample Y) × (List ℕ → Y)) :=
  match arrMax d with
  | .error e => .error e
  | .ok nmax =>
    match decodeY d ys with
    | .error e => .error e
    | .ok (w, yy1) =>
      match arrMax d1 with
      | .error e => .error e
      | .ok imax =>
        match splitLoop d1 nmax.toNat yy1 (List.range (imax + 1).toNat) yy1 fun _ _ => 0 with
        | .error e => .error e
        | .ok (upd, new) =>
          match encodeY d1 w upd with
          | .error e => .error e
          | .ok ys1 =>
            match encodeY d2 w new with
            | .error e => .error e
            | .ok ys2 => .ok (ys1, ys2, fun c => ((List.range w).map (upd c)).sum)

end

section
variable {T Y Zn σ : Type} [Field T] [LinearOrder T] [CommRing Y] [DecidableEq Y]

/-- A call `dn(t, dt)` to a Poisson source with memory, at arrays of times (`infrastructure.py`
2254-2264). -/
def dnCall {shape : List ℕ} (N : TrueSrc T Zn (Pos shape → ℤ) σ) (t dt : Arr T) (m : Mem T Zn σ) :
    Py (Arr ℤ × Mem T Zn σ) :=
  match N.call ((ndindex t.shape).map t.get) (some ((ndindex t.shape).map dt.get)) m with
  | .error e => .error e
  | .ok (vs, m) =>
    .ok (assemble t.shape shape 0 ((ndindex t.shape).zip (vs.map (ofPos 0))), m)

/-- A distribution, drawing from the generator in the state of `dn`. -/
def rvsMem (rvs : Rvs Y σ) : Rvs Y (Mem T Zn σ) := fun n j m =>
  match rvs n j m.s with
  | .error e => .error e
  | .ok (y, s) => .ok (y, { m with s := s })

/-- The attribute `_dj` (`infrastructure.py` 2610-2612). -/
def djSrc (paths : ℕ) (vshape : List ℕ) (N : TrueSrc T Zn (Pos (vshape ++ [paths]) → ℤ) σ)
    (y : T → Py (Rvs Y σ)) : CPoissonSrc T Y (Mem T Zn σ) where
  paths := paths
  vshape := vshape
  dn := dnCall N
  y t := (y t).map rvsMem

/-- A stored value: `[j, y_value]` (`infrastructure.py` 2617-2625). -/
abbrev JumpZ (Y : Type) (shape : List ℕ) := (Pos shape → Y) × Option (List (YSample Y))

/-- `true_cpoisson_source.new_outside` (`infrastructure.py` 2654-2662). -/
def jumpOutside (paths : ℕ) (vshape : List ℕ) (N : TrueSrc T Zn (Pos (vshape ++ [paths]) → ℤ) σ)
    (y : T → Py (Rvs Y σ)) (z : JumpZ Y (vshape ++ [paths])) (t s : T) (m : Mem T Zn σ) :
    Py ((JumpZ Y (vshape ++ [paths]) × JumpZ Y (vshape ++ [paths])) × Mem T Zn σ) :=
  match cpoissonCall (djSrc paths vshape N y) (.scalar t) (.scalar (s - t)) m with
  | .error e => .error e
  | .ok ((dj, _, ynew), m) =>
    if t < s then .ok (((z.1, some ynew), (fun c => z.1 c + dj.get c.1, none)), m)
    else .ok ((z, (fun c => z.1 c + dj.get c.1, some ynew)), m)

/-- `true_cpoisson_source.new_inside` (`infrastructure.py` 2664-2699). -/
def jumpInside {shape : List ℕ} (N : TrueSrc T Zn (Pos shape → ℤ) σ)
    (z1 z2 : JumpZ Y shape) (t1 t2 s : T) (m : Mem T Zn σ) :
    Py ((JumpZ Y shape × Option (JumpZ Y shape)) × Mem T Zn σ) :=
  if ∀ c, z1.1 c = z2.1 c then .ok ((z1, none), m)
  else
    match N.get1 t1 m with
    | .error e => .error e
    | .ok (n1, m) =>
      match N.get1 s m with
      | .error e => .error e
      | .ok (ns, m) =>
        match N.get1 t2 m with
        | .error e => .error e
        | .ok (n2, m) =>
          match z1.2 with
          | none => .error .typeError
          | some ys =>
            match splitY (ofPos 0 (n2 - n1)) (ofPos 0 (ns - n1)) (ofPos 0 (n2 - ns)) ys with
            | .error e => .error e
            | .ok (ys1, ys2, dj) =>
              .ok (((z1.1, some ys1), some (fun c => z1.1 c + dj c.1, some ys2)), m)

/-- `true_cpoisson_source` (`infrastructure.py` 2558-2711). -/
def trueCPoisson (rtol : T) (paths : ℕ) (vshape : List ℕ)
    (N : TrueSrc T Zn (Pos (vshape ++ [paths]) → ℤ) σ) (y : T → Py (Rvs Y σ)) :
    TrueSrc T (JumpZ Y (vshape ++ [paths])) (Pos (vshape ++ [paths]) → Y) (Mem T Zn σ) where
  rtol := rtol
  outside := jumpOutside paths vshape N y
  inside := jumpInside N
  getvalue z := z.1

end

end Sdepy
