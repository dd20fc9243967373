import Verif.Spec.Presets
import Verif.Spec.SDEs
import Verif.Model.Info

/-!
# What diagnostic items are expected to hold
-/

namespace Sdepy.Spec

variable {T X Id σ : Type}

/-- A step of an integration: where it starts from, and the state of the sources it leads to. -/
structure StepRec (T X σ : Type) where
  t : T
  x : X
  s : σ

/-- The steps of the Euler-Maruyama solution along given time points, and the final state. -/
def Equation.steps [CommRing X] [LinearOrder Id] [Sub T] (E : Equation T X Id σ) :
    T → X → List T → σ → Py (List (StepRec T X σ) × σ)
  | _, _, [], s => .ok ([], s)
  | t, x, t' :: ts, s => do
    let (x', s) ← E.step t x t' s
    let (rs, s') ← E.steps t' x' ts s
    pure (⟨t, x, s⟩ :: rs, s')

/-- Number of the points of a timeline reached at time `t`. -/
def reached [LE T] [DecidableLE T] (rev : Bool) (tt : List T) (t : T) : ℕ :=
  (tt.filter fun u => if rev then decide (t ≤ u) else decide (u ≤ t)).length

/-- The part of a timeline covered by the last pass from `t0`: what is above it, if there is a
forward pass, otherwise what is below it, backwards. -/
def lastPass [LinearOrder T] (forward : Bool) (t0 : T) (tt : List T) : List T :=
  if forward then tt.filter (t0 ≤ ·) else (tt.filter (· ≤ t0)).reverse

/-- The time points the last pass from `t0` goes through, after `t0`. -/
def lastPoints [LinearOrder T] (forward : Bool) (t0 : T) (grid : List T) : List T :=
  if forward then grid.filter (t0 < ·) else (grid.filter (· < t0)).reverse

/-- What happens in an integration from `x0` at `t0`, in its last pass: the steps taken, given that
a previous pass, if any, went through the points before `t0`. -/
def LastSteps [CommRing X] [LinearOrder Id] [LinearOrder T] [Sub T] (E : Equation T X Id σ)
    (forward : Bool) (t0 : T) (x0 : X) (grid : List T) (s : σ) (rs : List (StepRec T X σ))
    (s' : σ) : Prop :=
  ∃ pb s1, E.path t0 x0 (if forward then (grid.filter (· < t0)).reverse else []) s = .ok (pb, s1) ∧
    E.steps t0 x0 (lastPoints forward t0 grid) s1 = .ok (rs, s')

end Sdepy.Spec
