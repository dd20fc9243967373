import Verif.Model.Rv
import Verif.Model.ArrAnalytical
import Verif.Model.JumpSources

/-!
# Model of preset distributions of jumps with array parameters
(`/repo/sdepy/infrastructure.py`, lines 1640-1791, 2003-2037)

As in `Verif/Model/Rv.lean`, a variate is a function of the variates drawn from the distributions of
`scipy.stats` in their standard form; here parameters are arrays, or functions of time with values in arrays,
and `rvs(size)` yields an array. `scipy.stats` accepts a `size` to which parameters can be broadcast, and
raises `ValueError` otherwise. Simplified: `scipy.stats` does not draw anything if all scales are null; the comparison `a < 1`
of an array `a` that is empty is taken to raise, as it does since NumPy 2.2.
-/

namespace Sdepy

open Real

/-- A distribution with array parameters: `rvs size z` are its variates, `z` being the draws for each item of
an array of shape `size`. -/
structure RVA (Ω : Type) where
  rvs : List ℕ → (List ℕ → Ω) → Py (Arr ℝ)
  mean : Arr Num
  var : Arr Num
  std : Arr Num
  expMean : Py (Arr Num)

/-- `rv_generic._argcheck_rvs` of `scipy.stats`: can parameters of shape `p` yield variates of shape `size`.
Leading axes of size one are removed, the remaining ones should be those of `size`, or have size one. -/
def scipySizeOk (p size : List ℕ) : Prop := BcOk (p.dropWhile (· = 1)) size

instance (p size : List ℕ) : Decidable (scipySizeOk p size) := by unfold scipySizeOk; infer_instance

/-- Variates `f i (z i)` for items `i` of an array of shape `size`, with parameters of shape `p`. -/
def scipyRvs {Ω : Type} (p size : List ℕ) (z : List ℕ → Ω) (f : List ℕ → Ω → ℝ) : Py (Arr ℝ) :=
  if scipySizeOk p size then .ok ⟨size, fun i => f i (z i)⟩ else .error .valueError

/-- Some item of an array satisfies a condition (`numpy.any`). -/
def Arr.anyItem {α : Type} (a : Arr α) (P : α → Prop) : Prop := ∃ i ∈ ndindex a.shape, P (a.get i)

open Classical in
/-- A distribution of `scipy.stats`, mean `m` and variance `v` in standard form, with arrays `loc` and
`scale` of the same shape. -/
noncomputable def frozenA (m v : ℝ) (loc scale : Arr ℝ) (expMean : Py (Arr Num)) : RVA ℝ where
  rvs size z :=
    if scale.anyItem (· < 0) then .error .valueError
    else scipyRvs scale.shape size z fun i x => loc.bget i + scale.bget i * x
  mean := ⟨scale.shape, fun i => if scale.get i ≤ 0 then .nan else .fin (loc.get i + scale.get i * m)⟩
  var := ⟨scale.shape, fun i => if scale.get i ≤ 0 then .nan else .fin (scale.get i ^ 2 * v)⟩
  std := ⟨scale.shape, fun i => if scale.get i ≤ 0 then .nan else .fin (√(scale.get i ^ 2 * v))⟩
  expMean := expMean

/-- `_norm_rv` (`infrastructure.py` 1715-1720). -/
noncomputable def normRvA (a b : Arr ℝ) : Py (RVA ℝ) :=
  match bcAll ![a, b] with
  | .error e => .error e
  | .ok w => .ok (frozenA 0 1 (w 0) (w 1)
      (ewise (fun v => .fin (exp (v 0 + v 1 * v 1 / 2))) ![w 0, w 1]))

/-- `_uniform_rv` (`infrastructure.py` 1723-1728). -/
noncomputable def uniformRvA (a b : Arr ℝ) : Py (RVA ℝ) :=
  match bcAll ![a, b] with
  | .error e => .error e
  | .ok w =>
    match (w 1).zip (· - ·) (w 0) with
    | .error e => .error e
    | .ok scale => .ok (frozenA (1 / 2) (1 / 12) (w 0) scale
        (ewise (fun v => Num.div (exp (v 1) - exp (v 0)) (v 1 - v 0)) ![w 0, w 1]))

/-- `numpy.sign`. -/
noncomputable def npSign (x : ℝ) : ℝ := if 0 < x then 1 else if x < 0 then -1 else 0

open Classical in
/-- `_exp_rv` (`infrastructure.py` 1731-1754). -/
noncomputable def expRvA (a : Arr ℝ) : Py (RVA ℝ) :=
  if a.anyItem (· = 0) then .error .valueError
  else .ok {
    rvs := fun size z => zipPy (· * ·) (.ok (a.app npSign)) (scipyRvs a.shape size z fun i x => |a.bget i| * x)
    mean := a.app fun a => .fin (npSign a * |a|)
    var := a.app fun a => .fin (|a| ^ 2)
    std := a.app fun a => .fin (√(|a| ^ 2))
    expMean := .ok (a.app fun a => if a < 1 then .fin (1 / (1 - a)) else .inf) }

open Classical in
/-- `numpy.where`, for an item. -/
noncomputable def npWhere (c : Prop) (v : ℝ × ℝ) : ℝ := if c then v.1 else v.2

open Classical in
/-- `_double_exp_rv` (`infrastructure.py` 1757-1791); the draws are those of `rvs_plus`, `rvs_minus`,
`uniform`. The truth value of `a < 1` (line 1791) is an error, unless `a` has one item. -/
noncomputable def doubleExpRvA (a b pa : Arr ℝ) : Py (RVA (ℝ × ℝ × ℝ)) :=
  match bcAll ![a, b, pa, pa.app (1 - ·)] with
  | .error e => .error e
  | .ok w =>
    if (w 0).anyItem (· ≤ 0) ∨ (w 1).anyItem (· ≤ 0) ∨ (w 2).anyItem (1 < ·) ∨ (w 2).anyItem (· < 0) then
      .error .valueError
    else .ok {
      rvs := fun size z =>
        match scipyRvs (w 0).shape size z fun i x => (w 0).bget i * x.1 with
        | .error e => .error e
        | .ok plus =>
          match scipyRvs (w 1).shape size z fun i x => (w 1).bget i * x.2.1 with
          | .error e => .error e
          | .ok minus =>
            match scipyRvs [] size z fun _ x => x.2.2 with
            | .error e => .error e
            | .ok uniform =>
              zipPy npWhere (uniform.zip (· ≤ ·) (w 2))
                (plus.zip Prod.mk (minus.app (- ·)))
      mean := ⟨(w 0).shape, fun i => .fin ((w 2).get i * (w 0).get i - (w 3).get i * (w 1).get i)⟩
      var := ⟨(w 0).shape, fun i => .fin ((w 2).get i * (w 3).get i * ((w 0).get i + (w 1).get i) ^ 2 +
        ((w 2).get i * (w 0).get i ^ 2 + (w 3).get i * (w 1).get i ^ 2))⟩
      std := ⟨(w 0).shape, fun i => .fin (√((w 2).get i * (w 3).get i * ((w 0).get i + (w 1).get i) ^ 2 +
        ((w 2).get i * (w 0).get i ^ 2 + (w 3).get i * (w 1).get i ^ 2)))⟩
      expMean :=
        if (w 0).shape.prod = 1 then
          .ok ⟨(w 0).shape, fun i =>
            if (w 0).get i < 1 then
              .fin ((w 2).get i / (1 - (w 0).get i) + (w 3).get i / (1 + (w 1).get i))
            else .inf⟩
        else .error .valueError }

/-- `x(t) if callable(x) else x` (`infrastructure.py` 1647). -/
def MaybeTimed.at {T R : Type} (p : MaybeTimed T R) (t : T) : Py R :=
  match p with
  | .plain a => .ok a
  | .timed f => f t

/-- The value, if it does not depend on time. -/
def MaybeTimed.fixed? {T R : Type} : MaybeTimed T R → Option R
  | .plain a => some a
  | .timed _ => none

/-- `_make_rv_params_variable` (`infrastructure.py` 1640-1650), the parameters being given as a list. -/
def makeVariableA {T R : Type} (rv : List (Arr ℝ) → Py R) (ps : List (MaybeTimed T (Arr ℝ))) :
    Py (MaybeTimed T R) :=
  match ps.mapM MaybeTimed.fixed? with
  | none => .ok (.timed fun t =>
      match ps.mapM fun p => p.at t with
      | .error e => .error e
      | .ok vs => rv vs)
  | some vs =>
    match rv vs with
    | .error e => .error e
    | .ok r => .ok (.plain r)

/-- The item of a list of parameters. -/
def nthArr (l : List (Arr ℝ)) (i : ℕ) : Arr ℝ := l.getD i (.scalar 0)

/-- `norm_rv(a, b)` (`infrastructure.py` 1653-1664). -/
noncomputable def norm_rvA {T : Type} (a b : MaybeTimed T (Arr ℝ)) : Py (MaybeTimed T (RVA ℝ)) :=
  makeVariableA (fun l => normRvA (nthArr l 0) (nthArr l 1)) [a, b]

/-- `uniform_rv(a, b)` (`infrastructure.py` 1667-1677). -/
noncomputable def uniform_rvA {T : Type} (a b : MaybeTimed T (Arr ℝ)) : Py (MaybeTimed T (RVA ℝ)) :=
  makeVariableA (fun l => uniformRvA (nthArr l 0) (nthArr l 1)) [a, b]

/-- `exp_rv(a)` (`infrastructure.py` 1680-1693). -/
noncomputable def exp_rvA {T : Type} (a : MaybeTimed T (Arr ℝ)) : Py (MaybeTimed T (RVA ℝ)) :=
  makeVariableA (fun l => expRvA (nthArr l 0)) [a]

/-- `double_exp_rv(a, b, pa)` (`infrastructure.py` 1696-1712). -/
noncomputable def double_exp_rvA {T : Type} (a b pa : MaybeTimed T (Arr ℝ)) :
    Py (MaybeTimed T (RVA (ℝ × ℝ × ℝ))) :=
  makeVariableA (fun l => doubleExpRvA (nthArr l 0) (nthArr l 1) (nthArr l 2)) [a, b, pa]

/-! ### Sources of jumps -/

/-- `y.rvs(size=(n, j), random_state=rng)` as called by `cpoisson_source.__call__` (`infrastructure.py`
2034-2035); the sums of rows are assigned to a vector of cells, and raise if there are more axes. -/
noncomputable def rvsOfA {σ Ω : Type} (d : RVA Ω) (sample : ℕ → ℕ → σ → (ℕ → ℕ → Ω) × σ) : Rvs ℝ σ :=
  fun n j s =>
    match d.rvs [n, j] fun i => (sample n j s).1 (i.getD 0 0) (i.getD 1 0) with
    | .error e => .error e
    | .ok r =>
      match r.shape with
      | [_, _] => .ok (fun a b => if a < n ∧ b < j then r.get [a, b] else 0, (sample n j s).2)
      | _ => .error .typeError

/-- `y(t + dt/2) if callable(y) else y` (`infrastructure.py` 2030). -/
noncomputable def rvsAtA {σ Ω : Type} (y : MaybeTimed ℝ (RVA Ω)) (sample : ℕ → ℕ → σ → (ℕ → ℕ → Ω) × σ)
    (t : ℝ) : Py (Rvs ℝ σ) :=
  match y.at t with
  | .error e => .error e
  | .ok d => .ok (rvsOfA d sample)

/-- `SDE.source_dj` (`integration.py` 1383-1423) and `cpoisson_source.__init__` (`infrastructure.py`
1985-1999), with a distribution `y`. -/
noncomputable def sourceDjA {σ Ω : Type} (paths : ℕ) (wshape : List ℕ)
    (draw : (List ℕ → ℝ) → List ℕ → σ → (List ℕ → ℤ) × σ) (sample : ℕ → ℕ → σ → (ℕ → ℕ → Ω) × σ)
    (lam : RawParam ℝ) (y : MaybeTimed ℝ (RVA Ω)) : Py (CPoissonSrc ℝ ℝ σ) :=
  match poissonNew paths wshape lam with
  | .error e => .error e
  | .ok dn => .ok ⟨paths, wshape, poissonCall dn draw, rvsAtA y sample⟩

/-- `merton_jumpdiff_SDE.source_dj` (`integration.py` 2707-2710). -/
noncomputable def mertonSourceDjA {σ : Type} (paths : ℕ) (wshape : List ℕ)
    (draw : (List ℕ → ℝ) → List ℕ → σ → (List ℕ → ℤ) × σ) (sample : ℕ → ℕ → σ → (ℕ → ℕ → ℝ) × σ)
    (lam : RawParam ℝ) (a b : MaybeTimed ℝ (Arr ℝ)) : Py (CPoissonSrc ℝ ℝ σ) :=
  match norm_rvA a b with
  | .error e => .error e
  | .ok y => sourceDjA paths wshape draw sample lam y

/-- `kou_jumpdiff_SDE.source_dj` (`integration.py` 2743-2747). -/
noncomputable def kouSourceDjA {σ : Type} (paths : ℕ) (wshape : List ℕ)
    (draw : (List ℕ → ℝ) → List ℕ → σ → (List ℕ → ℤ) × σ)
    (sample : ℕ → ℕ → σ → (ℕ → ℕ → ℝ × ℝ × ℝ) × σ)
    (lam : RawParam ℝ) (a b pa : MaybeTimed ℝ (Arr ℝ)) : Py (CPoissonSrc ℝ ℝ σ) :=
  match double_exp_rvA a b pa with
  | .error e => .error e
  | .ok y => sourceDjA paths wshape draw sample lam y

end Sdepy
