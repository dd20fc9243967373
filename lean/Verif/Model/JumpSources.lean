import Verif.Model.Sources
import Verif.Model.Rv

/-!
# Model of the sources of jumps with preset distributions
(`/repo/sdepy/integration.py`, lines 1383-1423 and 2698-2747)

Not modelled: a source, or a class of sources, given as `dj` or `dn`; `dtype` and `ptype`.
-/

namespace Sdepy

variable {σ Ω : Type}

/-- The method `rvs` of a distribution, called for an array of size `(n, j)`: `sample` draws as many
items of what a single variate requires (`infrastructure.py` 2003-2014). -/
noncomputable def rvsOf (rv : RV Ω) (sample : ℕ → ℕ → σ → (ℕ → ℕ → Ω) × σ) : Rvs ℝ σ := fun n j s =>
  match (List.range n).mapM (fun a => (List.range j).mapM fun b => rv.rvs ((sample n j s).1 a b)) with
  | .error e => .error e
  | .ok v => .ok (fun a b => (v.getD a []).getD b 0, (sample n j s).2)

/-- `y(t) if callable(y) else y` (`infrastructure.py` 2031). -/
noncomputable def MaybeTimed.rvsAt (y : MaybeTimed ℝ (RV Ω)) (sample : ℕ → ℕ → σ → (ℕ → ℕ → Ω) × σ)
    (t : ℝ) : Py (Rvs ℝ σ) :=
  match y with
  | .plain r => .ok (rvsOf r sample)
  | .timed f =>
    match f t with
    | .error e => .error e
    | .ok r => .ok (rvsOf r sample)

/-- `SDE.source_dj` (`integration.py` 1383-1423) and `cpoisson_source.__init__` (`infrastructure.py`
1985-1999), with a distribution `y`. -/
noncomputable def sourceDj (paths : ℕ) (wshape : List ℕ)
    (draw : (List ℕ → ℝ) → List ℕ → σ → (List ℕ → ℤ) × σ) (sample : ℕ → ℕ → σ → (ℕ → ℕ → Ω) × σ)
    (lam : RawParam ℝ) (y : MaybeTimed ℝ (RV Ω)) : Py (CPoissonSrc ℝ ℝ σ) :=
  match poissonNew paths wshape lam with
  | .error e => .error e
  | .ok dn => .ok ⟨paths, wshape, poissonCall dn draw, y.rvsAt sample⟩

/-- `merton_jumpdiff_SDE.source_dj` (`integration.py` 2707-2710). -/
noncomputable def mertonSourceDj (paths : ℕ) (wshape : List ℕ)
    (draw : (List ℕ → ℝ) → List ℕ → σ → (List ℕ → ℤ) × σ) (sample : ℕ → ℕ → σ → (ℕ → ℕ → ℝ) × σ)
    (lam : RawParam ℝ) (a b : RvParam ℝ) : Py (CPoissonSrc ℝ ℝ σ) :=
  match norm_rv a b with
  | .error e => .error e
  | .ok y => sourceDj paths wshape draw sample lam y

/-- `kou_jumpdiff_SDE.source_dj` (`integration.py` 2743-2747). -/
noncomputable def kouSourceDj (paths : ℕ) (wshape : List ℕ)
    (draw : (List ℕ → ℝ) → List ℕ → σ → (List ℕ → ℤ) × σ)
    (sample : ℕ → ℕ → σ → (ℕ → ℕ → ℝ × ℝ × ℝ) × σ)
    (lam : RawParam ℝ) (a b pa : RvParam ℝ) : Py (CPoissonSrc ℝ ℝ σ) :=
  match double_exp_rv a b pa with
  | .error e => .error e
  | .ok y => sourceDj paths wshape draw sample lam y

end Sdepy
