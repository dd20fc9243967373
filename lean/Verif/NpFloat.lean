import Mathlib.Analysis.SpecialFunctions.Log.Basic
import Mathlib.Analysis.SpecialFunctions.Pow.NNReal
import Mathlib.Analysis.SpecialFunctions.Exp

/-!
# Floating point numbers with infinities and NaN

NumPy evaluates `x/0`, `0/0`, `inf*0` without raising (it warns), and gives infinities and NaNs. `Fl` models
such results; simplified: finite numbers are real numbers and their arithmetic is exact, and zeros have no sign,
so that the quotient of a number by zero is infinite with the sign of that number.
-/

namespace Sdepy

/-- A NumPy float: NaN, an infinity (negative or not), or a number. -/
inductive Fl where
  | nan
  | inf (neg : Bool)
  | fin (x : ℝ)

namespace Fl

noncomputable instance (n : ℕ) : OfNat Fl n := ⟨fin n⟩

noncomputable instance : Coe ℝ Fl := ⟨fin⟩

/-- `-x`. -/
noncomputable def neg : Fl → Fl
  | nan => nan
  | inf s => inf (!s)
  | fin x => fin (-x)

/-- `x + y`. -/
noncomputable def add : Fl → Fl → Fl
  | nan, _ => nan
  | _, nan => nan
  | fin x, fin y => fin (x + y)
  | inf s, fin _ => inf s
  | fin _, inf s => inf s
  | inf s, inf r => if s = r then inf s else nan

open Classical in
/-- An infinity times a number. -/
noncomputable def infMul (s : Bool) (x : ℝ) : Fl :=
  if x = 0 then nan else inf (s ^^ decide (x < 0))

open Classical in
/-- `x * y`. -/
noncomputable def mul : Fl → Fl → Fl
  | nan, _ => nan
  | _, nan => nan
  | fin x, fin y => fin (x * y)
  | inf s, fin x => infMul s x
  | fin x, inf s => infMul s x
  | inf s, inf r => inf (s ^^ r)

open Classical in
/-- `x / y`. -/
noncomputable def div : Fl → Fl → Fl
  | nan, _ => nan
  | _, nan => nan
  | fin x, fin y => if y = 0 then (if x = 0 then nan else inf (decide (x < 0))) else fin (x / y)
  | inf s, fin y => inf (s ^^ decide (y < 0))
  | fin _, inf _ => fin 0
  | inf _, inf _ => nan

noncomputable instance : Neg Fl := ⟨neg⟩
noncomputable instance : Add Fl := ⟨add⟩
noncomputable instance : Sub Fl := ⟨fun x y => add x (neg y)⟩
noncomputable instance : Mul Fl := ⟨mul⟩
noncomputable instance : Div Fl := ⟨div⟩

/-- `x**n`, for a positive integer `n`. -/
noncomputable def npow (x : Fl) : ℕ → Fl
  | 0 => fin 1
  | n + 1 => mul (npow x n) x

noncomputable instance : HPow Fl ℕ Fl := ⟨npow⟩

/-- `numpy.exp`. -/
noncomputable def exp : Fl → Fl
  | nan => nan
  | inf s => if s then fin 0 else inf false
  | fin x => fin (Real.exp x)

open Classical in
/-- `numpy.log`. -/
noncomputable def log : Fl → Fl
  | nan => nan
  | inf s => if s then nan else inf false
  | fin x => if x < 0 then nan else if x = 0 then inf true else fin (Real.log x)

open Classical in
/-- `numpy.sqrt`. -/
noncomputable def sqrt : Fl → Fl
  | nan => nan
  | inf s => if s then nan else inf false
  | fin x => if x < 0 then nan else fin (√x)

open Classical in
/-- `x**y` for a nonnegative number or infinity `x` and a number `y` (NaN otherwise: not modelled). -/
noncomputable def rpow : Fl → ℝ → Fl
  | fin x, y =>
    if x < 0 then nan
    else if x = 0 then (if y < 0 then inf false else if y = 0 then fin 1 else fin 0)
    else fin (x ^ y)
  | inf false, y => if y < 0 then fin 0 else if y = 0 then fin 1 else inf false
  | _, _ => nan

@[simp] theorem ofNat_1 : (1 : Fl) = fin 1 := by
  show fin ((1 : ℕ) : ℝ) = _; norm_num
@[simp] theorem ofNat_2 : (2 : Fl) = fin 2 := by
  show fin ((2 : ℕ) : ℝ) = _; norm_num
@[simp] theorem ofNat_4 : (4 : Fl) = fin 4 := by
  show fin ((4 : ℕ) : ℝ) = _; norm_num
@[simp] theorem ofNat_5 : (5 : Fl) = fin 5 := by
  show fin ((5 : ℕ) : ℝ) = _; norm_num
@[simp] theorem ofNat_8 : (8 : Fl) = fin 8 := by
  show fin ((8 : ℕ) : ℝ) = _; norm_num
@[simp] theorem neg_fin (x : ℝ) : -(fin x) = fin (-x) := rfl
@[simp] theorem add_fin (x y : ℝ) : fin x + fin y = fin (x + y) := rfl
@[simp] theorem sub_fin (x y : ℝ) : fin x - fin y = fin (x - y) := by
  show fin (x + -y) = _; rw [sub_eq_add_neg]
@[simp] theorem mul_fin (x y : ℝ) : fin x * fin y = fin (x * y) := rfl
theorem div_fin (x : ℝ) {y : ℝ} (h : y ≠ 0) : fin x / fin y = fin (x / y) := by
  show (if y = 0 then _ else _) = _
  rw [if_neg h]
theorem div_zero (x : ℝ) : fin x / fin 0 = if x = 0 then nan else inf (decide (x < 0)) := by
  show (if (0 : ℝ) = 0 then _ else _) = _
  rw [if_pos rfl]
@[simp] theorem zero_div_zero : fin 0 / fin 0 = nan := by rw [div_zero, if_pos rfl]
@[simp] theorem pow_fin (x : ℝ) (n : ℕ) : fin x ^ n = fin (x ^ n) := by
  show npow (fin x) n = _
  induction n with
  | zero => simp [npow]
  | succ n ih => rw [npow, ih, pow_succ]; rfl
@[simp] theorem exp_fin (x : ℝ) : exp (fin x) = fin (Real.exp x) := rfl
theorem log_fin {x : ℝ} (h : 0 < x) : log (fin x) = fin (Real.log x) := by
  unfold log; simp only; rw [if_neg (not_lt.2 h.le), if_neg h.ne']
theorem sqrt_fin {x : ℝ} (h : 0 ≤ x) : sqrt (fin x) = fin (√x) := by
  unfold sqrt; simp only; rw [if_neg (not_lt.2 h)]
@[simp] theorem nan_add (x : Fl) : nan + x = nan := by cases x <;> rfl
@[simp] theorem add_nan (x : Fl) : x + nan = nan := by cases x <;> rfl
@[simp] theorem nan_sub (x : Fl) : nan - x = nan := by cases x <;> rfl
@[simp] theorem nan_mul (x : Fl) : nan * x = nan := by cases x <;> rfl
@[simp] theorem mul_nan (x : Fl) : x * nan = nan := by cases x <;> rfl
@[simp] theorem nan_div (x : Fl) : nan / x = nan := by cases x <;> rfl
@[simp] theorem sqrt_nan : sqrt nan = nan := rfl
@[simp] theorem inf_mul_zero (s : Bool) : inf s * fin 0 = nan := by
  show infMul s 0 = _
  simp [infMul]

/-- `x/0*0` is NaN. -/
theorem div_zero_mul_zero (x : ℝ) : fin x / fin 0 * fin 0 = nan := by
  rw [div_zero]
  by_cases h : x = 0
  · rw [if_pos h]; simp
  · rw [if_neg h]; simp

end Fl

end Sdepy
