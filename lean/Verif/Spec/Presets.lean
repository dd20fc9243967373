import Verif.Model.Presets
import Verif.Spec.PathsGenerator

/-!
# Cumulated noise
-/

namespace Sdepy.Spec

variable {K ι σ Y : Type}

/-- Running sums of the increments realised along given time points, from `w` at `t`. -/
def cumulate [Sub K] [Add Y] (z : K → K → σ → Py (Y × σ)) :
    K → Y → List K → σ → Py (List (K × Y) × σ)
  | _, _, [], s => .ok ([], s)
  | t, w, t' :: ts, s => do
    let (v, s) ← z t (t' - t) s
    let (ps, s) ← cumulate z t' (w + v) ts s
    pure ((t', w + v) :: ps, s)

/-- Noise cumulated at each point of a grid since `t0`: first backwards, then forwards. -/
def cumulated [LinearOrder K] [Sub K] [Add Y] [Zero Y] (z : K → K → σ → Py (Y × σ)) (t0 : K)
    (grid : List K) (s : σ) : Py (List (K × Y) × σ) := do
  let (pb, s) ← cumulate z t0 0 (grid.filter (· < t0)).reverse s
  let (pf, s) ← cumulate z t0 0 (grid.filter (t0 < ·)) s
  pure (pb.reverse ++ (t0, 0) :: pf, s)

/-- A source with memory: as long as states satisfy `P` and times are in `D`, it realises the
increments of a fixed function of time `W`. -/
def Memory [Add K] [Sub K] (P : σ → Prop) (D : K → Prop) (z : Src K ι σ) (W : K → ι → K) : Prop :=
  ∀ t dt s, P s → D t → D (t + dt) → ∃ s', z t dt s = .ok (W (t + dt) - W t, s') ∧ P s'

/-- Two sources realised together: first `z₁`, then `z₂`. -/
def both (z₁ z₂ : Src K ι σ) : K → K → σ → Py (((ι → K) × (ι → K)) × σ) := fun t dt s => do
  let (v₁, s) ← z₁ t dt s
  let (v₂, s) ← z₂ t dt s
  pure ((v₁, v₂), s)

/-- Component `f` of a source of noise for a process of more factors. -/
def factor {F : ℕ} (z : Src K (ι × Fin F) σ) (f : Fin F) : Src K ι σ := fun t dt s => do
  let (v, s) ← z t dt s
  pure (fun i => v (i, f), s)

/-- A proper call: valid timeline and number of steps, `i0` designating `t0`; `grid` is the grid of
integration steps, and the bound on iterations is not hit. -/
structure Along [Field K] [LinearOrder K] (fuel : ℕ) (steps : Steps K) (i0 : ℤ) (tl : TArr K)
    (grid : List K) (t0 : K) : Prop where
  valid : ValidTimeline tl
  start : ∃ i, Designates tl.data.length i0 i ∧ tl.data[i]? = some t0
  nsteps : ∀ n : ℤ, steps = .int n → 0 ≤ n
  isGrid : IsGrid steps tl.data grid
  hfuel : grid.length ≤ fuel

end Sdepy.Spec
