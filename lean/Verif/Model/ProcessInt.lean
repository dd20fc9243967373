import Verif.Model.Process
import Mathlib.Analysis.SpecialFunctions.Pow.Real

/-!
# Statistics and differences of processes of integers

Methods of processes pass the data type of the process to NumPy, or store results in an array of that type
(`infrastructure.py` 871-889, 1009-1027, 1076-1080). What this gives depends on the type.
-/

namespace Sdepy

/-- Kinds of data types of processes. -/
inductive ValKind where
  | int
  | float
  deriving DecidableEq

/-- The check made by NumPy functions that store results of kind `res` in an array `out`, with the default
`casting='same_kind'`: real numbers cannot be stored in an array of integers (`UFuncTypeError`, a
`TypeError`). -/
def castOut : (out res : ValKind) → Py Unit
  | .int, .float => .error .typeError
  | _, _ => .ok ()

/-- `var` of integers with an integer `dtype`, as passed in `pvar` (lines 871-879) and `tvar` (1009-1017): NumPy
truncates the mean, and then the quotient of the sum of squares, since both are stored in arrays of integers
(`casting='unsafe'`). -/
def npVarInt (ddof : ℕ) (l : List ℤ) : ℤ :=
  (npSum (l.map fun a => (a - npMeanInt l) ^ 2)).tdiv ((l.length - ddof : ℕ) : ℤ)

variable {T : Type}

/-- `p.pstd(ddof=ddof)` (lines 881-889) for a process of data type `d`: NumPy takes the square root of the variance
with `out` the array of variances, which has type `d`. -/
noncomputable def Proc.pstdOf (d : ValKind) (ddof : ℕ) (p : Proc T ℝ) : Py (Proc T ℝ) :=
  match castOut d .float with
  | .error e => .error e
  | .ok _ => p.pred (npStd ddof)

/-- `p.tstd(ddof=ddof)` (lines 1019-1027). -/
noncomputable def Proc.tstdOf (d : ValKind) (ddof : ℕ) (p : Proc T ℝ) : Py (Proc T ℝ) :=
  match castOut d .float with
  | .error e => .error e
  | .ok _ => p.tred (npStd ddof)

/-- `p.tdiff(dt_exp, fwd)` (lines 1076-1080): with `dt_exp` other than 0, increments are divided by
`self.dtx**dt_exp` in place, with `out=x` of the type of the process, and results of `np.divide` are real numbers. -/
def Proc.tdiffOf {K E : Type} [Field K] [LinearOrder K] [Zero E] [DecidableEq E] (d : ValKind) (pw : K → E → K)
    (dtExp : E) (fwd : Bool) (p : Proc K K) : Py (Proc K K) :=
  match (if dtExp = 0 then .ok () else castOut d .float : Py Unit) with
  | .error e => .error e
  | .ok _ => p.tdiff pw dtExp fwd

end Sdepy
