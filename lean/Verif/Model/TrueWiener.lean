import Verif.Model.TrueSource
import Mathlib.Data.Matrix.Basic
import Mathlib.LinearAlgebra.Matrix.NonsingularInverse
import Mathlib.Data.Real.Basic
import Mathlib.Data.Sign.Basic

/-!
# Model of `true_wiener_source` and `true_poisson_source`
(`/repo/sdepy/infrastructure.py`, lines 2379-2555)

Values are functions of cells. For the Wiener source a cell is a pair: position along the last axis
of `vshape` (of type `κ`), and position along the other axes of an array of shape
`vshape + (paths,)` (of type `ι`).
-/

namespace Sdepy

open Matrix

/-- Correlations of a Wiener source: `None`, a matrix, or a function of time (`infrastructure.py`
1478-1479, after `_get_corr_matrix`; the trailing axis of size 1 is not modelled). -/
inductive Corr (κ : Type) where
  | none
  | const (C : Matrix κ κ ℝ)
  | fn (C : ℝ → Matrix κ κ ℝ)

section
variable {ι κ σ : Type} [Fintype κ] [DecidableEq κ]

/-- A call to the underlying `wiener_source`, with its `corr` attribute set to a given matrix or
`None`. -/
abbrev DW (ι κ σ : Type) := Option (Matrix κ κ ℝ) → ℝ → ℝ → σ → Py ((ι → κ → ℝ) × σ)

/-- `dw.corr = corr(t) if callable(corr) else corr` -/
def Corr.at (C : Corr κ) (t : ℝ) : Option (Matrix κ κ ℝ) :=
  match C with
  | .none => Option.none
  | .const C => some C
  | .fn C => some (C t)

/-- `true_wiener_source.new_outside` (`infrastructure.py` 2460-2469). -/
noncomputable def wienerOutside (t0 : ℝ) (corr : Corr κ) (dw : DW ι κ σ) (w : ι → κ → ℝ) (t s : ℝ)
    (st : σ) : Py (((ι → κ → ℝ) × (ι → κ → ℝ)) × σ) :=
  match pyAssert ((t0 ≤ t ∧ t < s) ∨ (s < t ∧ t ≤ t0)) with
  | .error e => .error e
  | .ok _ =>
    match dw (corr.at ((t + s) / 2)) t (s - t) st with
    | .error e => .error e
    | .ok (d, st) => .ok ((w, w + d), st)

/-- `true_wiener_source.new_inside` (`infrastructure.py` 2475-2499), once `t1`, `t2` have been set in
order of distance from `t0`. `np.linalg.inv` raises an exception for singular matrices. -/
noncomputable def wienerBridge (corr : Corr κ) (dw : DW ι κ σ) (w1 w2 : ι → κ → ℝ)
    (t1 t2 s : ℝ) (st : σ) : Py ((ι → κ → ℝ) × σ) :=
  match corr with
  | .fn C =>
    let A := (s - t1) • C ((t1 + s) / 2)
    let B := (t2 - s) • C ((s + t2) / 2)
    if (A + B).det = 0 then .error .valueError
    else
      let Z := B * (A + B)⁻¹
      match dw (some ((SignType.sign (s - t1) : ℝ) • (Z * A))) 0 1 st with
      | .error e => .error e
      | .ok (d, st) => .ok (fun i => Z *ᵥ w1 i + (1 - Z) *ᵥ w2 i + d i, st)
  | corr =>
    let a := s - t1
    let b := t2 - s
    let z := b / (a + b)
    match dw (corr.at 0) 0 (z * a) st with
    | .error e => .error e
    | .ok (d, st) => .ok (fun i k => z * w1 i k + (1 - z) * w2 i k + d i k, st)

/-- `true_wiener_source.new_inside` (`infrastructure.py` 2475-2499). -/
noncomputable def wienerInside (t0 : ℝ) (corr : Corr κ) (dw : DW ι κ σ) (w1 w2 : ι → κ → ℝ)
    (t1 t2 s : ℝ) (st : σ) : Py (((ι → κ → ℝ) × Option (ι → κ → ℝ)) × σ) :=
  let w1' := if t2 ≤ t0 then w2 else w1
  let w2' := if t2 ≤ t0 then w1 else w2
  let t1' := if t2 ≤ t0 then t2 else t1
  let t2' := if t2 ≤ t0 then t1 else t2
  match pyAssert ((t0 ≤ t1' ∧ t1' < s ∧ s < t2') ∨ (t2' < s ∧ s < t1' ∧ t1' ≤ t0)) with
  | .error e => .error e
  | .ok _ =>
    match wienerBridge corr dw w1' w2' t1' t2' s st with
    | .error e => .error e
    | .ok (w, st) => .ok ((w1, some w), st)

/-- `true_wiener_source` (`infrastructure.py` 2379-2499). -/
noncomputable def trueWiener (t0 rtol : ℝ) (corr : Corr κ) (dw : DW ι κ σ) :
    TrueSrc ℝ (ι → κ → ℝ) (ι → κ → ℝ) σ where
  rtol := rtol
  outside := wienerOutside t0 corr dw
  inside := wienerInside t0 corr dw
  getvalue w := w

end

section
variable {T ι σ : Type} [Field T] [LinearOrder T] [Fintype ι]

/-- `true_poisson_source` (`infrastructure.py` 2502-2555). `dn` is a call to the underlying
`poisson_source`; `binomial n p` is `rng.binomial(n, p, n.shape)`, that raises an exception if any
of `n` is negative or if `p` is not in `[0, 1]` (NumPy reference). -/
def truePoisson (rtol : T) (dn : T → T → σ → Py ((ι → ℤ) × σ))
    (binomial : (ι → ℤ) → T → σ → (ι → ℤ) × σ) : TrueSrc T (ι → ℤ) (ι → ℤ) σ where
  rtol := rtol
  outside n t s st :=
    match dn t (s - t) st with
    | .error e => .error e
    | .ok (d, st) => .ok ((n, n + d), st)
  inside n1 n2 t1 t2 s st :=
    if ∀ i, n1 i = n2 i then .ok ((n1, none), st)
    else
      let p := (s - t1) / (t2 - t1)
      let n := n2 - n1
      if (∃ i, n i < 0) ∨ p < 0 ∨ 1 < p then .error .valueError
      else
        let r := binomial n p st
        .ok ((n1, some (n1 + r.1)), r.2)
  getvalue n := n

end

end Sdepy
