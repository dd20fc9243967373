import Verif.Model.Process
import Verif.Model.ArrSDE
import Verif.Model.Analytical
import Verif.Model.CirPdf

/-!
# Analytical results with array parameters (`/repo/sdepy/analytical.py`)

`Verif.Model.Analytical` models one value of each function; here arguments are arrays. Most functions
broadcast their arguments together by `numpy.broadcast_arrays`, and go on with elementwise operations on
arrays that have, by then, the same shape: cells of the result are given by the formulae of
`Verif.Model.Analytical`. Arguments come in the order of `numpy.broadcast_arrays` in the code; the argument
`u` of characteristic functions is real. The assertion of `bsd1d2` (`analytical.py` 927) that no value is NaN
is not modelled: it holds for positive `x0` and `k`, and nonnegative `t`.
-/

namespace Sdepy

open Real

section
variable {n : ℕ} {α β : Type}

/-- `numpy.broadcast_arrays`. -/
def bcAll (a : Fin n → Arr α) : Py (Fin n → Arr α) :=
  match bcShapes (List.ofFn fun j => (a j).shape) with
  | none => .error .valueError
  | some S => .ok fun j => ⟨S, (a j).bget⟩

/-- Elementwise operations on arrays broadcast together. -/
def ewise (f : (Fin n → α) → β) (a : Fin n → Arr α) : Py (Arr β) :=
  match bcShapes (List.ofFn fun j => (a j).shape) with
  | none => .error .valueError
  | some S => .ok ⟨S, fun i => f fun j => (a j).bget i⟩

end

/-- Elementwise function of the result of a call. -/
def appPy {α β : Type} (f : α → β) : Py (Arr α) → Py (Arr β)
  | .error e => .error e
  | .ok a => .ok (a.app f)

/-- Elementwise function of the results of two calls. -/
def zipPy {α β γ : Type} (f : α → β → γ) (x : Py (Arr α)) (y : Py (Arr β)) : Py (Arr γ) :=
  match x with
  | .error e => .error e
  | .ok a =>
    match y with
    | .error e => .error e
    | .ok b => a.zip f b

/-- `f(x, loc=mean, scale=sqrt(var))`, where `f` is `scipy.stats.norm.pdf` or `scipy.stats.norm.cdf`,
after the calls that yield `mean` and `var` (`analytical.py` 302-304, 320-322, 455-457, 473-475). -/
noncomputable def ofMeanVar (f : ℝ → ℝ → ℝ → Option ℝ) (x : Arr ℝ) (mean var : Py (Arr ℝ)) :
    Py (Arr (Option ℝ)) :=
  match mean with
  | .error e => .error e
  | .ok mean =>
    match var with
    | .error e => .error e
    | .ok var => ewise (fun v => f (v 0) (v 1) (v 2)) ![x, mean, var.app Real.sqrt]

/-! ### Wiener and lognormal process -/

/-- `wiener_mean` (`analytical.py` 36-37). -/
noncomputable def wienerMeanA (t x0 mu sigma : Arr ℝ) : Py (Arr ℝ) :=
  ewise (fun v => wienerMean (v 1) (v 2) (v 3) (v 0)) ![t, x0, mu, sigma]

/-- `wiener_var` (`analytical.py` 53-54). -/
noncomputable def wienerVarA (t x0 mu sigma : Arr ℝ) : Py (Arr ℝ) :=
  ewise (fun v => wienerVar (v 1) (v 2) (v 3) (v 0)) ![t, x0, mu, sigma]

/-- `wiener_std` (`analytical.py` 70). -/
noncomputable def wienerStdA (t x0 mu sigma : Arr ℝ) : Py (Arr ℝ) :=
  appPy Real.sqrt (wienerVarA t x0 mu sigma)

/-- `wiener_pdf` (`analytical.py` 86-89). -/
noncomputable def wienerPdfA (t x x0 mu sigma : Arr ℝ) : Py (Arr (Option ℝ)) :=
  ewise (fun v => wienerPdf (v 2) (v 3) (v 4) (v 0) (v 1)) ![t, x, x0, mu, sigma]

/-- `wiener_cdf` (`analytical.py` 105-108). -/
noncomputable def wienerCdfA (t x x0 mu sigma : Arr ℝ) : Py (Arr (Option ℝ)) :=
  ewise (fun v => wienerCdf (v 2) (v 3) (v 4) (v 0) (v 1)) ![t, x, x0, mu, sigma]

/-- `wiener_chf` (`analytical.py` 124-125). -/
noncomputable def wienerChfA (t u x0 mu sigma : Arr ℝ) : Py (Arr ℂ) :=
  ewise (fun v => wienerChf (v 2) (v 3) (v 4) (v 0) (v 1)) ![t, u, x0, mu, sigma]

/-- `lognorm_mean` (`analytical.py` 144-145). -/
noncomputable def lognormMeanA (t x0 mu sigma : Arr ℝ) : Py (Arr ℝ) :=
  ewise (fun v => lognormMean (v 1) (v 2) (v 3) (v 0)) ![t, x0, mu, sigma]

/-- `lognorm_var` (`analytical.py` 160-161). -/
noncomputable def lognormVarA (t x0 mu sigma : Arr ℝ) : Py (Arr ℝ) :=
  ewise (fun v => lognormVar (v 1) (v 2) (v 3) (v 0)) ![t, x0, mu, sigma]

/-- `lognorm_std` (`analytical.py` 176). -/
noncomputable def lognormStdA (t x0 mu sigma : Arr ℝ) : Py (Arr ℝ) :=
  appPy Real.sqrt (lognormVarA t x0 mu sigma)

/-- `lognorm_pdf` (`analytical.py` 192-195). -/
noncomputable def lognormPdfA (t x x0 mu sigma : Arr ℝ) : Py (Arr (Option ℝ)) :=
  ewise (fun v => lognormPdf (v 2) (v 3) (v 4) (v 0) (v 1)) ![t, x, x0, mu, sigma]

/-- `lognorm_cdf` (`analytical.py` 211-214). -/
noncomputable def lognormCdfA (t x x0 mu sigma : Arr ℝ) : Py (Arr (Option ℝ)) :=
  ewise (fun v => lognormCdf (v 2) (v 3) (v 4) (v 0) (v 1)) ![t, x, x0, mu, sigma]

/-- `lognorm_log_chf` (`analytical.py` 230-232). -/
noncomputable def lognormLogChfA (t u x0 mu sigma : Arr ℝ) : Py (Arr ℂ) :=
  ewise (fun v => lognormLogChf (v 2) (v 3) (v 4) (v 0) (v 1)) ![t, u, x0, mu, sigma]

/-! ### Ornstein-Uhlenbeck process, and Hull-White process with one factor -/

/-- `oruh_mean` (`analytical.py` 252-253). -/
noncomputable def oruhMeanA (t x0 theta k sigma : Arr ℝ) : Py (Arr ℝ) :=
  ewise (fun v => oruhMean (v 1) (v 2) (v 3) (v 4) (v 0)) ![t, x0, theta, k, sigma]

/-- `oruh_var` (`analytical.py` 269-270). -/
noncomputable def oruhVarA (t x0 theta k sigma : Arr ℝ) : Py (Arr ℝ) :=
  ewise (fun v => oruhVar (v 1) (v 2) (v 3) (v 4) (v 0)) ![t, x0, theta, k, sigma]

/-- `oruh_std` (`analytical.py` 286). -/
noncomputable def oruhStdA (t x0 theta k sigma : Arr ℝ) : Py (Arr ℝ) :=
  appPy Real.sqrt (oruhVarA t x0 theta k sigma)

/-- `oruh_pdf` (`analytical.py` 302-304): `x` is broadcast by `scipy.stats.norm.pdf`. -/
noncomputable def oruhPdfA (t x x0 theta k sigma : Arr ℝ) : Py (Arr (Option ℝ)) :=
  ofMeanVar scipyNormPdf x (oruhMeanA t x0 theta k sigma) (oruhVarA t x0 theta k sigma)

/-- `oruh_cdf` (`analytical.py` 320-322). -/
noncomputable def oruhCdfA (t x x0 theta k sigma : Arr ℝ) : Py (Arr (Option ℝ)) :=
  ofMeanVar scipyNormCdf x (oruhMeanA t x0 theta k sigma) (oruhVarA t x0 theta k sigma)

/-! ### Hull-White process with two factors -/

/-- `a[..., k, :]` -/
def Arr.pick2 {α : Type} (a : Arr α) (k : ℕ) : Arr α :=
  ⟨a.shape.dropLast.dropLast ++ a.shape.getLast?.toList,
    fun i => a.get (i.dropLast ++ [k] ++ i.getLast?.toList)⟩

/-- `_hw2f_args_setup` (`analytical.py` 340-371), up to the last line: item `f p` of the result is the
value of the parameter `p` (`x0`, `theta`, `k`, `sigma`) for the factor `f`. Indexing an axis of size zero
raises before `check` is looked at. -/
def hw2fSetup (x0 theta k sigma : Arr ℝ) : Py (Fin 2 → Fin 4 → Arr ℝ) :=
  match bcAll ![x0, theta, k, sigma] with
  | .error e => .error e
  | .ok v =>
    match (v 0).shape.reverse with
    | [] => .ok fun _ p => v p
    | [n] =>
      if n = 0 then .error .indexError
      else if n = 1 ∨ n = 2 then
        .ok fun f p => .scalar ((v p).get [if f = 0 then 0 else n - 1])
      else .error .valueError
    | _ :: n :: _ =>
      if n = 0 then .error .indexError
      else if n = 1 ∨ n = 2 then .ok fun f p => (v p).pick2 (if f = 0 then 0 else n - 1)
      else .error .valueError

/-- The last line of `_hw2f_args_setup` (`analytical.py` 373), followed by elementwise operations;
`more` are the arguments in excess. -/
def hw2fEwise {m : ℕ} {β : Type} (f : (Fin (8 + m) → ℝ) → β) (x0 theta k sigma : Arr ℝ)
    (more : Fin m → Arr ℝ) : Py (Arr β) :=
  match hw2fSetup x0 theta k sigma with
  | .error e => .error e
  | .ok v => ewise f (Fin.append ![v 0 0, v 1 0, v 0 1, v 1 1, v 0 2, v 1 2, v 0 3, v 1 3] more)

/-- `_hw2f_args_setup(x0, theta, k, sigma, rho, t, x)` (`analytical.py` 340-373): only `rho`, `t`, `x` of
what it returns are made use of, by `hw2f_pdf` and `hw2f_cdf`. -/
def hw2fVars (x0 theta k sigma rho t x : Arr ℝ) : Py (Arr ℝ × Arr ℝ × Arr ℝ) :=
  match hw2fSetup x0 theta k sigma with
  | .error e => .error e
  | .ok v =>
    match bcAll ![v 0 0, v 1 0, v 0 1, v 1 1, v 0 2, v 1 2, v 0 3, v 1 3, rho, t, x] with
    | .error e => .error e
    | .ok w => .ok (w 8, w 9, w 10)

/-- `hw2f_mean` (`analytical.py` 390-394). -/
noncomputable def hw2fMeanA (t x0 theta k sigma rho : Arr ℝ) : Py (Arr ℝ) :=
  hw2fEwise (fun v => hw2fMean (v 0) (v 1) (v 2) (v 3) (v 4) (v 5) (v 6) (v 7) (v 8) (v 9))
    x0 theta k sigma ![rho, t]

/-- `hw2f_var` (`analytical.py` 411-416). -/
noncomputable def hw2fVarA (t x0 theta k sigma rho : Arr ℝ) : Py (Arr ℝ) :=
  hw2fEwise (fun v => hw2fVar (v 0) (v 1) (v 2) (v 3) (v 4) (v 5) (v 6) (v 7) (v 8) (v 9))
    x0 theta k sigma ![rho, t]

/-- `hw2f_std` (`analytical.py` 434-435). -/
noncomputable def hw2fStdA (t x0 theta k sigma rho : Arr ℝ) : Py (Arr ℝ) :=
  appPy Real.sqrt (hw2fVarA t x0 theta k sigma rho)

/-- `hw2f_pdf` (`analytical.py` 453-457): `rho`, `t`, `x` are replaced by their values after
broadcasting. -/
noncomputable def hw2fPdfA (t x x0 theta k sigma rho : Arr ℝ) : Py (Arr (Option ℝ)) :=
  match hw2fVars x0 theta k sigma rho t x with
  | .error e => .error e
  | .ok (rho, t, x) =>
    ofMeanVar scipyNormPdf x (hw2fMeanA t x0 theta k sigma rho) (hw2fVarA t x0 theta k sigma rho)

/-- `hw2f_cdf` (`analytical.py` 471-475). -/
noncomputable def hw2fCdfA (t x x0 theta k sigma rho : Arr ℝ) : Py (Arr (Option ℝ)) :=
  match hw2fVars x0 theta k sigma rho t x with
  | .error e => .error e
  | .ok (rho, t, x) =>
    ofMeanVar scipyNormCdf x (hw2fMeanA t x0 theta k sigma rho) (hw2fVarA t x0 theta k sigma rho)

/-! ### Cox-Ingersoll-Ross process -/

/-- `cir_mean` (`analytical.py` 494-496). -/
noncomputable def cirMeanA (t x0 theta k xi : Arr ℝ) : Py (Arr ℝ) :=
  ewise (fun v => cirMean (v 1) (v 2) (v 3) (v 4) (v 0)) ![t, x0, theta, k, xi]

/-- `cir_var` (`analytical.py` 511-514). -/
noncomputable def cirVarA (t x0 theta k xi : Arr ℝ) : Py (Arr ℝ) :=
  ewise (fun v => cirVar (v 1) (v 2) (v 3) (v 4) (v 0)) ![t, x0, theta, k, xi]

/-- `cir_std` (`analytical.py` 530). -/
noncomputable def cirStdA (t x0 theta k xi : Arr ℝ) : Py (Arr ℝ) :=
  appPy Real.sqrt (cirVarA t x0 theta k xi)

/-- `cir_pdf` (`analytical.py` 546-552): `x` is not among the arguments of `numpy.broadcast_arrays`. -/
noncomputable def cirPdfA (t x x0 theta k xi : Arr ℝ) : Py (Arr (Option ℝ)) :=
  match bcAll ![t, x0, theta, k, xi] with
  | .error e => .error e
  | .ok w => ewise (fun v => cirPdf (v 1) (v 2) (v 3) (v 4) (v 0) (v 5)) ![w 0, w 1, w 2, w 3, w 4, x]

/-! ### Heston process -/

/-- `heston_log_mean` (`analytical.py` 574-579). -/
noncomputable def hestonLogMeanA (t x0 mu sigma y0 theta k xi rho : Arr ℝ) : Py (Arr ℝ) :=
  ewise (fun v => hestonLogMean (v 1) (v 2) (v 3) (v 4) (v 5) (v 6) (v 7) (v 8) (v 0))
    ![t, x0, mu, sigma, y0, theta, k, xi, rho]

/-- `heston_log_var` (`analytical.py` 593-611). -/
noncomputable def hestonLogVarA (t x0 mu sigma y0 theta k xi rho : Arr ℝ) : Py (Arr ℝ) :=
  ewise (fun v => hestonLogVar (v 1) (v 2) (v 3) (v 4) (v 5) (v 6) (v 7) (v 8) (v 0))
    ![t, x0, mu, sigma, y0, theta, k, xi, rho]

/-- `heston_log_std` (`analytical.py` 630-632). -/
noncomputable def hestonLogStdA (t x0 mu sigma y0 theta k xi rho : Arr ℝ) : Py (Arr ℝ) :=
  appPy Real.sqrt (hestonLogVarA t x0 mu sigma y0 theta k xi rho)

/-- `heston_log_chf` (`analytical.py` 651-661). -/
noncomputable def hestonLogChfA (t u x0 mu sigma y0 theta k xi rho : Arr ℝ) : Py (Arr ℂ) :=
  ewise (fun v => hestonLogChf (v 2) (v 3) (v 4) (v 5) (v 6) (v 7) (v 8) (v 9) (v 0) (v 1))
    ![t, u, x0, mu, sigma, y0, theta, k, xi, rho]

/-! ### Jump-diffusion processes -/

/-- `mjd_mean` (`analytical.py` 736-744). -/
noncomputable def mjdMeanA (t x0 mu sigma lam a b : Arr ℝ) : Py (Arr ℝ) :=
  ewise (fun v => mjdMean (v 1) (v 2) (v 3) (v 4) (v 5) (v 6) (v 0)) ![t, x0, mu, sigma, lam, a, b]

/-- `mjd_log_chf` (`analytical.py` 763-777). -/
noncomputable def mjdLogChfA (t u x0 mu sigma lam a b : Arr ℝ) : Py (Arr ℂ) :=
  ewise (fun v => mjdLogChf (v 2) (v 3) (v 4) (v 5) (v 6) (v 7) (v 0) (v 1))
    ![t, u, x0, mu, sigma, lam, a, b]

/-- `kou_mean` (`analytical.py` 826-835). -/
noncomputable def kouMeanA (t x0 mu sigma lam a b pa : Arr ℝ) : Py (Arr ℝ) :=
  ewise (fun v => kouMean (v 1) (v 2) (v 3) (v 4) (v 5) (v 6) (v 7) (v 0))
    ![t, x0, mu, sigma, lam, a, b, pa]

/-- `kou_log_chf` (`analytical.py` 853-868). -/
noncomputable def kouLogChfA (t u x0 mu sigma lam a b pa : Arr ℝ) : Py (Arr ℂ) :=
  ewise (fun v => kouLogChf (v 2) (v 3) (v 4) (v 5) (v 6) (v 7) (v 8) (v 0) (v 1))
    ![t, u, x0, mu, sigma, lam, a, b, pa]

/-! ### Black-Scholes formulae -/

/-- `bsd1d2` (`analytical.py` 917-930). -/
noncomputable def bsd1d2A (k t x0 r q sigma : Arr ℝ) : Py (Arr EReal × Arr EReal) :=
  match ewise (fun v => (bsd1d2 (v 0) (v 1) (v 2) (v 3) (v 4) (v 5)).1) ![k, t, x0, r, q, sigma] with
  | .error e => .error e
  | .ok d1 =>
    match ewise (fun v => (bsd1d2 (v 0) (v 1) (v 2) (v 3) (v 4) (v 5)).2) ![k, t, x0, r, q, sigma] with
    | .error e => .error e
    | .ok d2 => .ok (d1, d2)

/-- `x0 * exp(-q*t) * scipy.stats.norm.cdf(d)` (`analytical.py` 985-986, 1018-1019), where only `d` is
the outcome of broadcasting. -/
noncomputable def bsTerm (x0 q t : Arr ℝ) (d : Arr EReal) : Py (Arr ℝ) :=
  zipPy (· * ·)
    (zipPy (· * ·) (.ok x0) (appPy Real.exp (zipPy (· * ·) (.ok (q.app (- ·))) (.ok t))))
    (.ok (d.app npNormCdf))

/-- `bscall` (`analytical.py` 983-986). -/
noncomputable def bscallA (k t x0 r q sigma : Arr ℝ) : Py (Arr ℝ) :=
  match bsd1d2A k t x0 r q sigma with
  | .error e => .error e
  | .ok (d1, d2) => zipPy (· - ·) (bsTerm x0 q t d1) (bsTerm k r t d2)

/-- `bscall_delta` (`analytical.py` 1000-1002). -/
noncomputable def bscallDeltaA (k t x0 r q sigma : Arr ℝ) : Py (Arr ℝ) :=
  match bsd1d2A k t x0 r q sigma with
  | .error e => .error e
  | .ok (d1, _) =>
    zipPy (· * ·) (appPy Real.exp (zipPy (· * ·) (.ok (q.app (- ·))) (.ok t))) (.ok (d1.app npNormCdf))

/-- `bsput` (`analytical.py` 1016-1019). -/
noncomputable def bsputA (k t x0 r q sigma : Arr ℝ) : Py (Arr ℝ) :=
  match bsd1d2A k t x0 r q sigma with
  | .error e => .error e
  | .ok (d1, d2) => zipPy (· - ·) (bsTerm k r t (d2.app (- ·))) (bsTerm x0 q t (d1.app (- ·)))

/-- `bsput_delta` (`analytical.py` 1033-1035). -/
noncomputable def bsputDeltaA (k t x0 r q sigma : Arr ℝ) : Py (Arr ℝ) :=
  match bsd1d2A k t x0 r q sigma with
  | .error e => .error e
  | .ok (d1, _) =>
    zipPy (· * ·) (appPy (- ·) (appPy Real.exp (zipPy (· * ·) (.ok (q.app (- ·))) (.ok t))))
      (.ok ((d1.app (- ·)).app npNormCdf))

end Sdepy
