import Verif.Py
import Mathlib.Analysis.SpecialFunctions.Exp
import Mathlib.Analysis.SpecialFunctions.Sqrt

/-!
# Model of preset distributions of jumps (`/repo/sdepy/infrastructure.py`, lines 1640-1791)

Parameters are numbers, or functions of time with values in numbers. A variate is a function of the
variates drawn from the basic distributions of `scipy.stats` in their standard form (`norm`, `uniform`,
`expon` with `loc=0`, `scale=1`); a distribution of `scipy.stats` with given `loc` and `scale` yields
`loc + scale*x`. Such distributions require a positive `scale`: with a negative one `rvs` raises
`ValueError`, with zero it returns `loc`; in both cases `mean`, `var`, `std` are not-a-number.
-/

namespace Sdepy

/-- A floating point number, exact if finite. -/
inductive Num where
  | fin (x : ℝ)
  | inf
  | nan

/-- Division of numbers (the sign of zeros and infinities is not tracked). -/
noncomputable def Num.div (x y : ℝ) : Num :=
  if y = 0 then (if x = 0 then .nan else .inf) else .fin (x / y)

/-- A distribution: its variates, given draws in `Ω`, and what it reports. -/
structure RV (Ω : Type) where
  rvs : Ω → Py ℝ
  mean : Num
  var : Num
  std : Num
  expMean : Num

open Real

/-- A distribution of `scipy.stats`, mean `m` and variance `v` in standard form, with the given `loc` and
`scale`. -/
noncomputable def frozen (m v loc scale : ℝ) (expMean : Num) : RV ℝ where
  rvs z := if scale < 0 then .error .valueError else .ok (loc + scale * z)
  mean := if scale ≤ 0 then .nan else .fin (loc + scale * m)
  var := if scale ≤ 0 then .nan else .fin (scale ^ 2 * v)
  std := if scale ≤ 0 then .nan else .fin (√(scale ^ 2 * v))
  expMean := expMean

/-- `_norm_rv` (`infrastructure.py` 1715-1720). -/
noncomputable def normRv (a b : ℝ) : Py (RV ℝ) :=
  .ok (frozen 0 1 a b (.fin (exp (a + b * b / 2))))

/-- `_uniform_rv` (`infrastructure.py` 1723-1728). -/
noncomputable def uniformRv (a b : ℝ) : Py (RV ℝ) :=
  .ok (frozen (1 / 2) (1 / 12) a (b - a) (Num.div (exp b - exp a) (b - a)))

/-- `_exp_rv` (`infrastructure.py` 1731-1754). -/
noncomputable def expRv (a : ℝ) : Py (RV ℝ) :=
  if a = 0 then .error .valueError
  else
    let s : ℝ := if 0 < a then 1 else if a < 0 then -1 else 0
    .ok {
      rvs := fun z => .ok (s * (|a| * z))
      mean := .fin (s * |a|)
      var := .fin (|a| ^ 2)
      std := .fin (√(|a| ^ 2))
      expMean := if a < 1 then .fin (1 / (1 - a)) else .inf }

/-- `_double_exp_rv` (`infrastructure.py` 1757-1791); the draws are those of `rvs_plus`, `rvs_minus`,
`uniform`. -/
noncomputable def doubleExpRv (a b pa : ℝ) : Py (RV (ℝ × ℝ × ℝ)) :=
  let pb := 1 - pa
  if a ≤ 0 ∨ b ≤ 0 ∨ 1 < pa ∨ pa < 0 then .error .valueError
  else .ok {
    rvs := fun z => .ok (if z.2.2 ≤ pa then a * z.1 else -(b * z.2.1))
    mean := .fin (pa * a - pb * b)
    var := .fin (pa * pb * (a + b) ^ 2 + (pa * a ^ 2 + pb * b ^ 2))
    std := .fin (√(pa * pb * (a + b) ^ 2 + (pa * a ^ 2 + pb * b ^ 2)))
    expMean := if a < 1 then .fin (pa / (1 - a) + pb / (1 + b)) else .inf }

/-- A parameter: a number or a function of time. -/
inductive RvParam (T : Type) where
  | const (x : ℝ)
  | func (f : T → ℝ)

def RvParam.callable {T : Type} : RvParam T → Bool
  | .const _ => false
  | .func _ => true

def RvParam.value {T : Type} (t : T) : RvParam T → ℝ
  | .const x => x
  | .func f => f t

/-- The value, if it is a number. -/
def RvParam.number {T : Type} : RvParam T → ℝ
  | .const x => x
  | .func _ => 0

/-- A distribution or a function of time with values in distributions. -/
inductive MaybeTimed (T R : Type) where
  | plain (r : R)
  | timed (f : T → Py R)

/-- `_make_rv_params_variable` (`infrastructure.py` 1640-1650), the parameters being given as a list. -/
def makeVariable {T R : Type} (rv : List ℝ → Py R) (ps : List (RvParam T)) : Py (MaybeTimed T R) :=
  if ps.any RvParam.callable then .ok (.timed fun t => rv (ps.map fun p => p.value t))
  else
    match rv (ps.map RvParam.number) with
    | .error e => .error e
    | .ok r => .ok (.plain r)

/-- `norm_rv(a, b)` (`infrastructure.py` 1653-1664). -/
noncomputable def norm_rv {T : Type} (a b : RvParam T) : Py (MaybeTimed T (RV ℝ)) :=
  makeVariable (fun l => normRv (l.getD 0 0) (l.getD 1 0)) [a, b]

/-- `uniform_rv(a, b)` (`infrastructure.py` 1667-1677). -/
noncomputable def uniform_rv {T : Type} (a b : RvParam T) : Py (MaybeTimed T (RV ℝ)) :=
  makeVariable (fun l => uniformRv (l.getD 0 0) (l.getD 1 0)) [a, b]

/-- `exp_rv(a)` (`infrastructure.py` 1680-1693). -/
noncomputable def exp_rv {T : Type} (a : RvParam T) : Py (MaybeTimed T (RV ℝ)) :=
  makeVariable (fun l => expRv (l.getD 0 0)) [a]

/-- `double_exp_rv(a, b, pa)` (`infrastructure.py` 1696-1712). -/
noncomputable def double_exp_rv {T : Type} (a b pa : RvParam T) : Py (MaybeTimed T (RV (ℝ × ℝ × ℝ))) :=
  makeVariable (fun l => doubleExpRv (l.getD 0 0) (l.getD 1 0) (l.getD 2 0)) [a, b, pa]

end Sdepy
