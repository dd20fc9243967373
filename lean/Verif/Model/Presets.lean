import Verif.Model.SDE
import Mathlib.Analysis.SpecialFunctions.Log.Basic
import Mathlib.Analysis.SpecialFunctions.Sqrt
import Mathlib.Algebra.BigOperators.Group.Finset.Basic

/-!
# Model of the preset processes (`/repo/sdepy/integration.py`, lines 2056-2760)

Values are functions on an arbitrary index type `ι` (the cells of an array of shape
`wshape + (paths,)`), with pointwise operations. Parameters are functions of time, broadcast to
those cells already; stochasticity sources are arbitrary, and act on an arbitrary state.

Differentials are numbered in the alphabetic order of their ids: 0 `dj`, 1 `dn`, 2 `dt`, 3 `dw`.
-/

namespace Sdepy

/-- `'dj'` -/
abbrev idJ : ℕ := 0
/-- `'dt'` -/
abbrev idT : ℕ := 2
/-- `'dw'` -/
abbrev idW : ℕ := 3

/-- A stochasticity source with values in `ι → K`. -/
abbrev Src (K ι σ : Type) := K → K → σ → Py ((ι → K) × σ)

/-- `SDE.source_dt` (`integration.py` 1294-1309). -/
def dtSource {K ι σ : Type} : Src K ι σ := fun _ dt s => .ok (fun _ => dt, s)

section
variable {K ι σ : Type} [Field K]

/-- `wiener_SDE` (`integration.py` 2056-2070). -/
def wienerSDE (x0 : ι → K) (mu sigma : K → ι → K) (dw : Src K ι σ) : SDE K (ι → K) (ι → K) ℕ σ where
  sources := [(idT, dtSource), (idW, dw)]
  sde t _ := .ok (some [(idT, mu t), (idW, sigma t)])
  init _ := .ok x0
  letX _ x := x
  log := false
  logX := id
  expO := id

/-- `ornstein_uhlenbeck_SDE` (`integration.py` 2185-2199). -/
def ouSDE (x0 : ι → K) (theta k sigma : K → ι → K) (dw : Src K ι σ) :
    SDE K (ι → K) (ι → K) ℕ σ where
  sources := [(idT, dtSource), (idW, dw)]
  sde t x := .ok (some [(idT, k t * (theta t - x)), (idW, sigma t)])
  init _ := .ok x0
  letX _ x := x
  log := false
  logX := id
  expO := id

/-- `hull_white_SDE` (`integration.py` 2247-2272), with `F` factors: working values are indexed by
cell and factor, `let` stores their sum over factors. -/
def hullWhiteSDE {F : ℕ} (x0 : ι × Fin F → K) (theta k sigma : K → ι × Fin F → K)
    (dw : Src K (ι × Fin F) σ) : SDE K (ι × Fin F → K) (ι → K) ℕ σ where
  sources := [(idT, dtSource), (idW, dw)]
  sde t x := .ok (some [(idT, k t * (theta t - x)), (idW, sigma t)])
  init _ := .ok x0
  letX _ x := fun i => Finset.univ.sum fun f => x (i, f)
  log := false
  logX := id
  expO := id

end

section
variable {ι σ : Type}

/-- Elementwise `numpy.log`. -/
noncomputable def npLog (x : ι → ℝ) : ι → ℝ := fun i => Real.log (x i)

/-- Elementwise `numpy.exp`. -/
noncomputable def npExp (x : ι → ℝ) : ι → ℝ := fun i => Real.exp (x i)

open Classical in
/-- Elementwise `numpy.sqrt`. NaN values (square root of a negative number) are not real numbers:
they are represented as a failure. -/
noncomputable def npSqrt (x : ι → ℝ) : Py (ι → ℝ) :=
  if ∀ i, 0 ≤ x i then .ok fun i => Real.sqrt (x i) else .error .runtimeError

/-- Elementwise `numpy.maximum(x, 0.)`. -/
noncomputable def npPlus (x : ι → ℝ) : ι → ℝ := fun i => max (x i) 0

/-- `lognorm_SDE` (`integration.py` 2119-2130). -/
noncomputable def lognormSDE (x0 : ι → ℝ) (mu sigma : ℝ → ι → ℝ) (dw : Src ℝ ι σ) :
    SDE ℝ (ι → ℝ) (ι → ℝ) ℕ σ where
  sources := [(idT, dtSource), (idW, dw)]
  sde t _ := .ok (some [(idT, mu t - sigma t * sigma t / 2), (idW, sigma t)])
  init _ := .ok x0
  letX _ x := x
  log := true
  logX := npLog
  expO := npExp

/-- `cox_ingersoll_ross_SDE.sde` (`integration.py` 2351-2354). -/
noncomputable def cirCoef (theta k xi : ℝ → ι → ℝ) (t : ℝ) (x : ι → ℝ) :
    Py (Option (List (ℕ × (ι → ℝ)))) :=
  match npSqrt (npPlus x) with
  | .error e => .error e
  | .ok r => .ok (some [(idT, k t * (theta t - npPlus x)), (idW, xi t * r)])

/-- `cox_ingersoll_ross_SDE` (`integration.py` 2342-2354). -/
noncomputable def cirSDE (x0 : ι → ℝ) (theta k xi : ℝ → ι → ℝ) (dw : Src ℝ ι σ) :
    SDE ℝ (ι → ℝ) (ι → ℝ) ℕ σ where
  sources := [(idT, dtSource), (idW, dw)]
  sde := cirCoef theta k xi
  init _ := .ok x0
  letX _ x := x
  log := false
  logX := id
  expO := id

/-- `jumpdiff_SDE` (`integration.py` 2576-2608); `merton_jumpdiff_SDE` and `kou_jumpdiff_SDE` differ
in the `dj` source only. -/
noncomputable def jumpdiffSDE (x0 : ι → ℝ) (mu sigma : ℝ → ι → ℝ) (dw dj : Src ℝ ι σ) :
    SDE ℝ (ι → ℝ) (ι → ℝ) ℕ σ where
  sources := [(idT, dtSource), (idW, dw), (idJ, dj)]
  sde t _ := .ok (some [(idT, mu t - sigma t * sigma t / 2), (idW, sigma t), (idJ, 1)])
  init _ := .ok x0
  letX _ x := x
  log := true
  logX := npLog
  expO := npExp

end

end Sdepy
