import Verif.Model.ArrSDE
import Verif.Model.Presets

/-!
# Model of preset processes with array parameters (`/repo/sdepy/integration.py`, 2056-2608)

`Verif.Model.Presets` takes parameters broadcast to the cells already; here they are arrays, or callables
with arrays as values, as the `SDE` class stores them (`_sde_args_setup`, 1057-1062). Sources, besides
`dt`, are arbitrary; `vshape` and `paths` are those of the process.
-/

namespace Sdepy

/-- `SDE.source_dt` (`integration.py` 1294-1309): a number. -/
def dtArr {K σ : Type} : K → K → σ → Py (Arr K × σ) := fun _ dt s => .ok (.scalar dt, s)

section
variable {K σ : Type} [Field K] [LinearOrder K]

/-- `wiener_SDE` (`integration.py` 2056-2070). -/
def wienerArr (vshape : List ℕ) (paths : ℕ) (x0 : Arr K) (mu sigma : Param K)
    (dw : K → K → σ → Py (Arr K × σ)) : ArrSDE String K ℕ σ where
  paths := paths
  xshape := vshape
  wshape := vshape
  sources := [(idT, dtArr), (idW, dw)]
  params := [("mu", mu), ("sigma", sigma)]
  eqs := [(idT, .par "mu"), (idW, .par "sigma")]
  x0 := x0
  factors := false
  log := false
  logK := id
  expK := id

/-- `ornstein_uhlenbeck_SDE` (`integration.py` 2185-2199). -/
def ouArr (vshape : List ℕ) (paths : ℕ) (x0 : Arr K) (theta k sigma : Param K)
    (dw : K → K → σ → Py (Arr K × σ)) : ArrSDE String K ℕ σ where
  paths := paths
  xshape := vshape
  wshape := vshape
  sources := [(idT, dtArr), (idW, dw)]
  params := [("theta", theta), ("k", k), ("sigma", sigma)]
  eqs := [(idT, .bin (· * ·) (.par "k") (.bin (· - ·) (.par "theta") .x)), (idW, .par "sigma")]
  x0 := x0
  factors := false
  log := false
  logK := id
  expK := id

/-- `hull_white_SDE` (`integration.py` 2247-2272): working values have one more axis, for the factors
(2256-2258). -/
def hullWhiteArr (vshape : List ℕ) (factors paths : ℕ) (x0 : Arr K) (theta k sigma : Param K)
    (dw : K → K → σ → Py (Arr K × σ)) : ArrSDE String K ℕ σ where
  paths := paths
  xshape := vshape
  wshape := vshape ++ [factors]
  sources := [(idT, dtArr), (idW, dw)]
  params := [("theta", theta), ("k", k), ("sigma", sigma)]
  eqs := [(idT, .bin (· * ·) (.par "k") (.bin (· - ·) (.par "theta") .x)), (idW, .par "sigma")]
  x0 := x0
  factors := true
  log := false
  logK := id
  expK := id

end

section
variable {σ : Type}

/-- `mu - sigma*sigma/2` (`integration.py` 2130, 2605). -/
noncomputable def logDrift : UExpr String ℝ :=
  .bin (· - ·) (.par "mu") (.bin (· / ·) (.bin (· * ·) (.par "sigma") (.par "sigma")) (.num 2))

/-- `lognorm_SDE` (`integration.py` 2119-2130). -/
noncomputable def lognormArr (vshape : List ℕ) (paths : ℕ) (x0 : Arr ℝ) (mu sigma : Param ℝ)
    (dw : ℝ → ℝ → σ → Py (Arr ℝ × σ)) : ArrSDE String ℝ ℕ σ where
  paths := paths
  xshape := vshape
  wshape := vshape
  sources := [(idT, dtArr), (idW, dw)]
  params := [("mu", mu), ("sigma", sigma)]
  eqs := [(idT, logDrift), (idW, .par "sigma")]
  x0 := x0
  factors := false
  log := true
  logK := Real.log
  expK := Real.exp

/-- `cox_ingersoll_ross_SDE` (`integration.py` 2342-2354). The square root is taken of `x_plus`, which is
not negative, so that no NaN is involved. -/
noncomputable def cirArr (vshape : List ℕ) (paths : ℕ) (x0 : Arr ℝ) (theta k xi : Param ℝ)
    (dw : ℝ → ℝ → σ → Py (Arr ℝ × σ)) : ArrSDE String ℝ ℕ σ where
  paths := paths
  xshape := vshape
  wshape := vshape
  sources := [(idT, dtArr), (idW, dw)]
  params := [("theta", theta), ("k", k), ("xi", xi)]
  eqs := [(idT, .bin (· * ·) (.par "k") (.bin (· - ·) (.par "theta") (.bin max .x (.num 0)))),
    (idW, .bin (· * ·) (.par "xi") (.un Real.sqrt (.bin max .x (.num 0))))]
  x0 := x0
  factors := false
  log := false
  logK := id
  expK := id

/-- `jumpdiff_SDE` (`integration.py` 2576-2608). -/
noncomputable def jumpdiffArr (vshape : List ℕ) (paths : ℕ) (x0 : Arr ℝ) (mu sigma : Param ℝ)
    (dw dj : ℝ → ℝ → σ → Py (Arr ℝ × σ)) : ArrSDE String ℝ ℕ σ where
  paths := paths
  xshape := vshape
  wshape := vshape
  sources := [(idT, dtArr), (idW, dw), (idJ, dj)]
  params := [("mu", mu), ("sigma", sigma)]
  eqs := [(idT, logDrift), (idW, .par "sigma"), (idJ, .num 1)]
  x0 := x0
  factors := false
  log := true
  logK := Real.log
  expK := Real.exp

end

end Sdepy
