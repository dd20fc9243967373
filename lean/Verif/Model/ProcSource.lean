import Verif.Model.ArrSDE
import Verif.Model.Process

/-!
# Processes given as stochasticity sources or as parameters

A process is callable and has attributes `paths` and `vshape` (`/repo/sdepy/infrastructure.py`, 718-728,
615-633), hence it complies with the source protocol (`_check_source`, 209-232) and, as any callable, it may
be a parameter (`_variable_param_setup`, 64-108). Interpolation kinds are those of `Verif.Model.Process`.
-/

namespace Sdepy

section
variable {K σ : Type} [Field K] [LinearOrder K]

/-- `p(t, dt)`, as evaluated by an `SDE` object that has the process `p` as a source
(`infrastructure.py` 615-633; the source is called at `integration.py` 1227-1235). The state of the random
number generator is not touched. -/
def Proc.source (cast : K → K) (kind : Kind) (p : Proc K K) : K → K → σ → Py (Arr K × σ) :=
  fun t dt s =>
    match p.callDs cast kind (.scalar t) (.scalar dt) with
    | .error e => .error e
    | .ok v => .ok (v, s)

/-- The process as the set up of sources sees it (`infrastructure.py` 209-243). -/
def Proc.rawSource {C : Type} (p : Proc K K) : RawSource C (Proc K K) := .obj p true (some p.paths) (some p.vshape)

/-- The process as a parameter (`infrastructure.py` 64-125). -/
def Proc.rawParam (cast : K → K) (kind : Kind) (p : Proc K K) : RawParam K :=
  .proc p.vshape p.paths fun t => .ok (p.call cast kind (.scalar t))

end

end Sdepy
