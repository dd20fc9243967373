import Verif.Model.TrueWiener
import Verif.Model.Presets

/-!
# Model of a source with memory in use as a source of noise (`/repo/sdepy/integration.py`, lines 1227-1234)
-/

namespace Sdepy

variable {ι κ σ : Type} [Fintype κ] [DecidableEq κ]

/-- `sources[id](t, dt)` (`integration.py` 1233), where `t` and `dt` are numbers, and the source is a
`true_wiener_source` (`infrastructure.py` 2254-2264, model `TrueSrc.call`): arrays `t` and `dt` have one item,
that the value returned has no axis for. A cell is a pair of positions: along all axes but the last one of
`vshape`, and along the latter. -/
noncomputable def trueNoise (t0 rtol : ℝ) (corr : Corr κ) (dw : DW ι κ σ) :
    Src ℝ (ι × κ) (Mem ℝ (ι → κ → ℝ) σ) := fun t dt m =>
  match (trueWiener t0 rtol corr dw).call [t] (some [dt]) m with
  | .error e => .error e
  | .ok ([], _) => .error .indexError
  | .ok (v :: _, m) => .ok (fun c => v c.1 c.2, m)

end Sdepy
