import Verif.Model.Params
import Mathlib.Analysis.SpecialFunctions.Sqrt

/-!
# Model of the stochasticity sources without memory
(`/repo/sdepy/infrastructure.py`, lines 1388-2089)

Simplifications: `dtype` is not modelled (values are exact real numbers, Poisson increments are
integers); the deprecated fallback of `_y_rvs` (`infrastructure.py` 2002-2013) is part of the
oracle for variates.
-/

namespace Sdepy

/-- What sources ask of a random generator, as functions of its state.
`normal size`: `rng.normal(0., 1., size)`. `mvn M cov size`: `rng.multivariate_normal(numpy.zeros(M),
cov, size)`, given by index in `size` and by component. -/
structure Rng (σ : Type) where
  normal : List ℕ → σ → (List ℕ → ℝ) × σ
  mvn : ℕ → Arr ℝ → List ℕ → σ → (List ℕ → ℕ → ℝ) × σ

/-- Swap the first two items. -/
def swapRev : List ℕ → List ℕ
  | a :: b :: l => b :: a :: l
  | l => l

/-- `a.swapaxes(-1, -2)` -/
def Arr.swapaxes {α : Type} (a : Arr α) : Arr α :=
  ⟨(swapRev a.shape.reverse).reverse, fun i => a.get (swapRev i.reverse).reverse⟩

/-- Attributes of a `wiener_source`. -/
structure WienerSrc where
  paths : ℕ
  vshape : List ℕ
  corr : Param ℝ

/-- `wiener_source.__init__` (`infrastructure.py` 1481-1501). -/
noncomputable def wienerNew (paths : ℕ) (vshape : List ℕ) (corr rho : RawParam ℝ) : Py WienerSrc :=
  match getCorrMatrix corr rho with
  | .error e => .error e
  | .ok .none => .ok ⟨paths, vshape, .none⟩
  | .ok c =>
    match vshape.getLast? with
    | none => .error .valueError
    | some m =>
      match c.shape with
      | none => .ok ⟨paths, vshape, c⟩
      | some s =>
        if s.take 2 ≠ [m, m] ∨ (s.length = 3 ∧ s.getLast? ≠ some 1) then .error .valueError
        else .ok ⟨paths, vshape, c⟩

/-- Removal of the trailing axis of a correlation matrix (`infrastructure.py` 1523-1528,
1538-1543). -/
def covOf (c : Arr ℝ) : Py (Arr ℝ) :=
  match c.shape with
  | [a, b, m] => if m ≠ 1 then .error .valueError else .ok ⟨[a, b], fun i => c.get (i ++ [0])⟩
  | _ => .ok c

section
variable {σ : Type}

/-- A call to `multivariate_normal`: NumPy raises `ValueError` if `cov` does not match `mean`. -/
def Rng.mvnZ (rng : Rng σ) (M : ℕ) (cov : Arr ℝ) (size : List ℕ) (s : σ) : Py (Arr ℝ × σ) :=
  if cov.shape = [M, M] then
    let r := rng.mvn M cov size s
    .ok (⟨size ++ [M], fun i => r.1 i.dropLast (i.getLastD 0)⟩, r.2)
  else .error .valueError

/-- Body of the loop over times (`infrastructure.py` 1534-1546). -/
noncomputable def wienerBody (rng : Rng σ) (f : ℝ → Py (Arr ℝ)) (M : ℕ) (size : List ℕ)
    (t dt : List ℕ → ℝ) (i : List ℕ) (s : σ) : Py (Arr ℝ × σ) :=
  match f (t i + dt i / 2) with
  | .error e => .error e
  | .ok c =>
    match covOf c with
    | .error e => .error e
    | .ok cov => rng.mvnZ M cov size s

/-- An array `dz` filled by assigning `dz[i]` for each `i` in the leading axes `tshape`. -/
def assemble {α : Type} (tshape rest : List ℕ) (d : α) (r : List (List ℕ × Arr α)) : Arr α :=
  ⟨tshape ++ rest, fun i =>
    match r.lookup (i.take tshape.length) with
    | some a => a.get (i.drop tshape.length)
    | none => d⟩

/-- Standard variates (`infrastructure.py` 1505-1553), for times `t`, `dt` of shape `tshape`. -/
noncomputable def wienerStd (W : WienerSrc) (rng : Rng σ) (tshape : List ℕ) (t dt : List ℕ → ℝ)
    (s : σ) : Py (Arr ℝ × σ) :=
  match W.corr with
  | .none =>
    let r := rng.normal (tshape ++ W.vshape ++ [W.paths]) s
    .ok (⟨tshape ++ W.vshape ++ [W.paths], r.1⟩, r.2)
  | .arr c =>
    match W.vshape.getLast? with
    | none => .error .indexError
    | some M =>
      match covOf c with
      | .error e => .error e
      | .ok cov =>
        match rng.mvnZ M cov (tshape ++ W.vshape.dropLast ++ [W.paths]) s with
        | .error e => .error e
        | .ok (dz, s) =>
          if dz.swapaxes.shape ≠ tshape ++ W.vshape ++ [W.paths] then .error .runtimeError
          else .ok (dz.swapaxes, s)
  | .fn _ f =>
    match W.vshape.getLast? with
    | none => .error .indexError
    | some M =>
      match loopIdx (wienerBody rng f M (W.vshape.dropLast ++ [W.paths]) t dt) (ndindex tshape) s with
      | .error e => .error e
      | .ok (r, s) =>
        let dz := assemble tshape (W.vshape.dropLast ++ [W.paths, M]) 0 r
        if dz.swapaxes.shape ≠ tshape ++ W.vshape ++ [W.paths] then .error .runtimeError
        else .ok (dz.swapaxes, s)

/-- `wiener_source.__call__` (`infrastructure.py` 1503-1560). -/
noncomputable def wienerCall (W : WienerSrc) (rng : Rng σ) (t dt : Arr ℝ) (s : σ) :
    Py (Arr ℝ × σ) :=
  match broadcast2 t dt with
  | .error e => .error e
  | .ok (t, dt) =>
    match wienerStd W rng dt.shape t.get dt.get s with
    | .error e => .error e
    | .ok (dz, s) =>
      .ok (⟨dz.shape, fun i => dz.get i * Real.sqrt |dt.get (i.take dt.shape.length)|⟩, s)

end

/-! ### Poisson -/

section
variable {T σ : Type} [Field T] [LinearOrder T]

/-- `numpy.sign(dt).astype(int)` -/
def sgn (x : T) : ℤ := if 0 < x then 1 else if x < 0 then -1 else 0

/-- Attributes of a `poisson_source`. -/
structure PoissonSrc (T : Type) where
  paths : ℕ
  vshape : List ℕ
  lam : Param T

/-- `poisson_source.__init__` (`infrastructure.py` 1602-1615). -/
def poissonNew (paths : ℕ) (vshape : List ℕ) (lam : RawParam T) : Py (PoissonSrc T) :=
  match lam.setup.shape with
  | none => .ok ⟨paths, vshape, lam.setup⟩
  | some s =>
    if BcOk s (vshape ++ [paths]) then .ok ⟨paths, vshape, lam.setup⟩ else .error .valueError

/-- `rng.poisson(lam, size)`: NumPy raises `ValueError` if `lam` cannot be broadcast to `size`, or is
negative anywhere. The oracle `draw` gets `lam` broadcast to `size`. -/
def poissonDraw (draw : (List ℕ → T) → List ℕ → σ → (List ℕ → ℤ) × σ) (lam : Arr T)
    (size : List ℕ) (s : σ) : Py (Arr ℤ × σ) :=
  match lam.broadcastTo size with
  | .error e => .error e
  | .ok l =>
    if ∃ i ∈ ndindex size, l.get i < 0 then .error .valueError
    else
      let r := draw l.get size s
      .ok (⟨size, r.1⟩, r.2)

/-- `lam(t) if callable(lam) else lam` (`infrastructure.py` 1630); operations on `None` raise. -/
def Param.at (lam : Param T) (t : T) : Py (Arr T) :=
  match lam with
  | .none => .error .typeError
  | .arr a => .ok a
  | .fn _ f => f t

/-- Body of the loop over times (`infrastructure.py` 1629-1632). -/
def poissonBody (draw : (List ℕ → T) → List ℕ → σ → (List ℕ → ℤ) × σ) (lam : Param T)
    (size : List ℕ) (t dt : List ℕ → T) (i : List ℕ) (s : σ) : Py (Arr ℤ × σ) :=
  match lam.at (t i + dt i / 2) with
  | .error e => .error e
  | .ok L =>
    match poissonDraw draw ⟨L.shape, fun j => |dt i| * L.get j⟩ size s with
    | .error e => .error e
    | .ok (n, s) => .ok (⟨size, fun j => sgn (dt i) * n.get j⟩, s)

/-- `poisson_source.__call__` (`infrastructure.py` 1617-1633). -/
def poissonCall (S : PoissonSrc T) (draw : (List ℕ → T) → List ℕ → σ → (List ℕ → ℤ) × σ)
    (t dt : Arr T) (s : σ) : Py (Arr ℤ × σ) :=
  match broadcast2 t dt with
  | .error e => .error e
  | .ok (t, dt) =>
    match loopIdx (poissonBody draw S.lam (S.vshape ++ [S.paths]) t.get dt.get)
        (ndindex dt.shape) s with
    | .error e => .error e
    | .ok (r, s) => .ok (assemble dt.shape (S.vshape ++ [S.paths]) 0 r, s)

end

/-! ### Compound Poisson -/

section
variable {T Y σ : Type} [Field T] [LinearOrder T] [CommRing Y]

/-- Random variates: `rvs(size=(n, j), random_state=rng)`, by row and column. -/
abbrev Rvs (Y σ : Type) := ℕ → ℕ → σ → Py ((ℕ → ℕ → Y) × σ)

/-- An entry of `y_value`: an array of shape `(n, j)`. -/
structure YSample (Y : Type) where
  n : ℕ
  j : ℕ
  val : ℕ → ℕ → Y

/-- Indices at which a boolean array is true, in order. -/
def trueCells (shape : List ℕ) (p : List ℕ → Bool) : List (List ℕ) := (ndindex shape).filter p

/-- `dz[mask] = v`, for a boolean `mask` of shape `mshape`, true on `cells`, and a vector `v` of size
`cells.length`: NumPy matches the axes of the mask with the leading axes of `dz`, and `v` is
broadcast. -/
def maskAssign (dz : Arr Y) (mshape : List ℕ) (cells : List (List ℕ)) (v : ℕ → Y) : Py (Arr Y) :=
  if dz.shape.take mshape.length ≠ mshape then .error .indexError
  else
    match (Arr.mk [cells.length] fun i => v (i.headD 0)).broadcastTo
        (cells.length :: dz.shape.drop mshape.length) with
    | .error e => .error e
    | .ok b =>
      .ok ⟨dz.shape, fun i =>
        if i.take mshape.length ∈ cells then
          b.get (cells.idxOf (i.take mshape.length) :: i.drop mshape.length)
        else dz.get i⟩

/-- The loop over the number `j` of jumps, from `j` on for `n` iterations (`infrastructure.py`
2031-2037). `sg` is `sign_dt[i]`, `dn` is `dn_positive_i`, `dz` is `dz[i]`. -/
def jumpLoop (rvs : Rvs Y σ) (sg : ℤ) (dn : Arr ℤ) :
    ℕ → ℕ → Arr Y → List (YSample Y) → σ → Py ((Arr Y × List (YSample Y)) × σ)
  | 0, _, dz, ys, s => .ok ((dz, ys), s)
  | n + 1, j, dz, ys, s =>
    let cells := trueCells dn.shape fun i => dn.get i = j
    if cells = [] then jumpLoop rvs sg dn n (j + 1) dz ys s
    else
      match rvs cells.length j s with
      | .error e => .error e
      | .ok (y, s) =>
        match maskAssign dz dn.shape cells
            (fun r => (sg : Y) * ((List.range j).map (y r)).sum) with
        | .error e => .error e
        | .ok dz => jumpLoop rvs sg dn n (j + 1) dz (ys ++ [⟨cells.length, j, y⟩]) s

/-- `max()` of an array; it raises if the array is empty. -/
def arrMax (a : Arr ℤ) : Py ℤ :=
  match (ndindex a.shape).map a.get with
  | [] => .error .valueError
  | x :: xs => .ok (xs.foldl max x)

/-- Body of the loop over times (`infrastructure.py` 2027-2037). `rv` is the distribution at given
time. -/
def cpoissonBody (rv : T → Py (Rvs Y σ)) (shape : List ℕ) (t dt : List ℕ → T)
    (dn : List ℕ → Arr ℤ) (i : List ℕ) (s : σ) : Py ((Arr Y × List (YSample Y)) × σ) :=
  let dnp : Arr ℤ := ⟨(dn i).shape, fun j => sgn (dt i) * (dn i).get j⟩
  match arrMax dnp with
  | .error e => .error e
  | .ok nmax =>
    match rv (t i + dt i / 2) with
    | .error e => .error e
    | .ok rvs => jumpLoop rvs (sgn (dt i)) dnp nmax.toNat 1 ⟨shape, fun _ => 0⟩ [] s

/-- Attributes of a `cpoisson_source`: `dn` is the underlying source, called at arrays of times; `y`
is the distribution at given time (constant, if `y` is not callable). -/
structure CPoissonSrc (T Y σ : Type) where
  paths : ℕ
  vshape : List ℕ
  dn : Arr T → Arr T → σ → Py (Arr ℤ × σ)
  y : T → Py (Rvs Y σ)

/-- `cpoisson_source.__call__` (`infrastructure.py` 2017-2040): the increments, `dn_value` and
`y_value`. The realisation of `dn` should have the shape of times as its leading axes, or indexing
fails. -/
def cpoissonCall (S : CPoissonSrc T Y σ) (t dt : Arr T) (s : σ) :
    Py ((Arr Y × Arr ℤ × List (YSample Y)) × σ) :=
  match broadcast2 t dt with
  | .error e => .error e
  | .ok (t, dt) =>
    match S.dn t dt s with
    | .error e => .error e
    | .ok (dn, s) =>
      let tl := dt.shape.length
      if dn.shape.take tl ≠ dt.shape then .error .indexError
      else
        match loopIdx (cpoissonBody S.y (S.vshape ++ [S.paths]) t.get dt.get
            fun i => ⟨dn.shape.drop tl, fun j => dn.get (i ++ j)⟩) (ndindex dt.shape) s with
        | .error e => .error e
        | .ok (r, s) =>
          .ok ((assemble dt.shape (S.vshape ++ [S.paths]) 0 (r.map fun p => (p.1, p.2.1)),
            dn, r.flatMap fun p => p.2.2), s)

end

/-! ### Antithetics -/

/-- `numpy.concatenate((a, b), axis=-1)`, for arrays of the same shape. -/
def concatLast {Y : Type} (a b : Arr Y) : Arr Y :=
  let k := a.shape.getLastD 0
  ⟨a.shape.dropLast ++ [k + b.shape.getLastD 0], fun i =>
    if i.getLastD 0 < k then a.get i else b.get (i.dropLast ++ [i.getLastD 0 - k])⟩

/-- `_antithetics(source_class, transform)` (`infrastructure.py` 2047-2089): `make` instantiates the
underlying source with half of the paths. Returns the number of paths reported, and the
realisations. -/
def antithetics {S T Y σ : Type} (make : ℕ → Py S) (pathsOf : S → ℕ)
    (call : S → Arr T → Arr T → σ → Py (Arr Y × σ)) (transform : Y → Y) (paths : ℕ) :
    Py (ℕ × (Arr T → Arr T → σ → Py (Arr Y × σ))) :=
  if paths % 2 ≠ 0 then .error .valueError
  else
    match make (paths / 2) with
    | .error e => .error e
    | .ok S => .ok (2 * pathsOf S, fun t dt s =>
        match call S t dt s with
        | .error e => .error e
        | .ok (dz, s) => .ok (concatLast dz ⟨dz.shape, fun i => transform (dz.get i)⟩, s))

end Sdepy
