import Verif.Model.Indexed
import Verif.Model.Process
import Mathlib.LinearAlgebra.Matrix.NonsingularInverse

/-!
# Model of `true_wiener_source` on arrays (`/repo/sdepy/infrastructure.py`, lines 2220-2233, 2301-2304, 2379-2499)

The same methods as in `Verif.Model.TrueWiener`, with values, correlations and their products as NumPy arrays,
of any shape, and with the initial value `z0`. Simplifications: `dtype` is not modelled, values are exact (so that
`numpy.linalg.inv` raises exactly if a matrix is singular), `rtol` is a number.
-/

namespace Sdepy

open Matrix

/-- A matrix in the last two axes of an array, at index `i` in the other ones. -/
def Arr.block (a : Arr ℝ) (n : ℕ) (i : List ℕ) : Matrix (Fin n) (Fin n) ℝ :=
  Matrix.of fun r c => a.get (i ++ [(r : ℕ), (c : ℕ)])

/-- `numpy.linalg.inv`: the inverses of the matrices in the last two axes. It raises `LinAlgError`, a subclass of
`ValueError`, if these are not square, or if any is singular. -/
noncomputable def npInv (a : Arr ℝ) : Py (Arr ℝ) :=
  match a.shape.reverse with
  | m :: n :: pre =>
    if n ≠ m then .error .valueError
    else if ∃ i ∈ ndindex pre.reverse, (a.block n i).det = 0 then .error .valueError
    else .ok ⟨a.shape, fun i =>
      if h : i.dropLast.getLastD 0 < n ∧ i.getLastD 0 < n then
        (a.block n i.dropLast.dropLast)⁻¹ ⟨_, h.1⟩ ⟨_, h.2⟩
      else 0⟩
  | _ => .error .valueError

/-- `a @ b`: product of the matrices in the last two axes, other axes are broadcast. Arrays of one dimension are
not modelled: they do not occur. -/
def npMatmul (a b : Arr ℝ) : Py (Arr ℝ) :=
  match a.shape.reverse, b.shape.reverse with
  | m :: n :: pa, k :: m' :: pb =>
    if m ≠ m' then .error .valueError
    else
      match bcShape pa.reverse pb.reverse with
      | none => .error .valueError
      | some p => .ok ⟨p ++ [n, k], fun i =>
          let q := i.dropLast.dropLast.reverse
          ∑ j ∈ Finset.range m,
            a.get ((bcIdxRev pa q).reverse ++ [i.dropLast.getLastD 0, j]) *
              b.get ((bcIdxRev pb q).reverse ++ [j, i.getLastD 0])⟩
  | _, _ => .error .valueError

/-- `true_wiener_source._mult` (`infrastructure.py` 2471-2473), `numpy.einsum('ij,...jk->...ik', x, y)`: `x` should have
two dimensions. Simplified: axes labelled `j` should have the same size, while `einsum` allows for size 1 too
(in `new_inside`, `multivariate_normal` raises the same exception afterwards). -/
def wienerMult (x y : Arr ℝ) : Py (Arr ℝ) :=
  match x.shape, y.shape.reverse with
  | [n, m], k :: m' :: pre =>
    if m ≠ m' then .error .valueError
    else .ok ⟨pre.reverse ++ [n, k], fun i =>
      ∑ j ∈ Finset.range m,
        x.get [i.dropLast.getLastD 0, j] * y.get (i.dropLast.dropLast ++ [j, i.getLastD 0])⟩
  | _, _ => .error .valueError

/-- `x * a`, for a number `a`. -/
def Arr.scale (x : Arr ℝ) (a : ℝ) : Arr ℝ := ⟨x.shape, fun i => x.get i * a⟩

/-- `corr(t) if callable(corr) else corr` (`infrastructure.py` 2468). -/
def Param.fixAt (corr : Param ℝ) (t : ℝ) : Py (Param ℝ) :=
  match corr with
  | .fn _ f =>
    match f t with
    | .error e => .error e
    | .ok c => .ok (.arr c)
  | corr => .ok corr

section
variable {σ : Type}

/-- `true_wiener_source.new_outside` (`infrastructure.py` 2460-2469). -/
noncomputable def arrOutside (t0 : ℝ) (W : WienerSrc) (rng : Rng σ) (w : Arr ℝ) (t s : ℝ) (st : σ) :
    Py ((Arr ℝ × Arr ℝ) × σ) := do
  pyAssert ((t0 ≤ t ∧ t < s) ∨ (s < t ∧ t ≤ t0))
  let corr ← W.corr.fixAt ((t + s) / 2)
  let (d, st) ← wienerCall ⟨W.paths, W.vshape, corr⟩ rng (.scalar t) (.scalar (s - t)) st
  let w' ← Arr.binop (· + ·) w d
  pure ((w, w'), st)

/-- `true_wiener_source.new_inside` (`infrastructure.py` 2484-2499), once `t1`, `t2` have been set in order of distance
from `t0`. -/
noncomputable def arrBridge (W : WienerSrc) (rng : Rng σ) (w1 w2 : Arr ℝ) (t1 t2 s : ℝ) (st : σ) :
    Py (Arr ℝ × σ) :=
  let a := s - t1
  let b := t2 - s
  match W.corr with
  | .fn _ f => do
    let cA ← f ((t1 + s) / 2)
    let cB ← f ((s + t2) / 2)
    let A := cA.scale a
    let B := cB.scale b
    let AB ← Arr.binop (· + ·) A B
    let V ← npInv AB
    let Z ← npMatmul B V
    let ZA ← npMatmul Z A
    let c := ZA.scale (SignType.sign a : ℝ)
    let x1 ← wienerMult Z w1
    let IZ ← Arr.binop (· - ·) (npEye (A.shape.headD 0)) Z
    let x2 ← wienerMult IZ w2
    let x ← Arr.binop (· + ·) x1 x2
    let (d, st) ← wienerCall ⟨W.paths, W.vshape, .arr c⟩ rng (.scalar 0) (.scalar 1) st
    let ws ← Arr.binop (· + ·) x d
    pure (ws, st)
  | corr => do
    let z := b / (a + b)
    let x ← Arr.binop (· + ·) (w1.scale z) (w2.scale (1 - z))
    let (d, st) ← wienerCall ⟨W.paths, W.vshape, corr⟩ rng (.scalar 0) (.scalar (z * a)) st
    let ws ← Arr.binop (· + ·) x d
    pure (ws, st)

/-- `true_wiener_source.new_inside` (`infrastructure.py` 2475-2499). -/
noncomputable def arrInside (t0 : ℝ) (W : WienerSrc) (rng : Rng σ) (w1 w2 : Arr ℝ) (t1 t2 s : ℝ) (st : σ) :
    Py ((Arr ℝ × Option (Arr ℝ)) × σ) := do
  let (v1, v2, u1, u2) := if t2 ≤ t0 then (w2, w1, t2, t1) else (w1, w2, t1, t2)
  pyAssert ((t0 ≤ u1 ∧ u1 < s ∧ s < u2) ∨ (u2 < s ∧ s < u1 ∧ u1 ≤ t0))
  let (ws, st) ← arrBridge W rng v1 v2 u1 u2 s st
  pure ((w1, some ws), st)

/-- `true_wiener_source` (`infrastructure.py` 2379-2499). -/
noncomputable def trueWienerArr (t0 rtol : ℝ) (W : WienerSrc) (rng : Rng σ) :
    TrueSrc ℝ (Arr ℝ) (Pos (W.vshape ++ [W.paths]) → ℝ) σ where
  rtol := rtol
  outside := arrOutside t0 W rng
  inside := arrInside t0 W rng
  getvalue w := fun c => w.get c

/-- `true_wiener_source.__init__` (`infrastructure.py` 2220-2233, 2301-2304, 2449-2458): the underlying
`wiener_source`, and the memory, that holds `z0` at `t0` (`numpy.full`). -/
noncomputable def trueWienerNew (paths : ℕ) (vshape : List ℕ) (corr rho : RawParam ℝ) (t0 : ℝ) (z0 : Arr ℝ)
    (s : σ) : Py (WienerSrc × Mem ℝ (Arr ℝ) σ) :=
  match z0.broadcastTo (vshape ++ [paths]) with
  | .error e => .error e
  | .ok z =>
    match wienerNew paths vshape corr rho with
    | .error e => .error e
    | .ok W => .ok (W, Mem.new t0 z s)

end

end Sdepy
