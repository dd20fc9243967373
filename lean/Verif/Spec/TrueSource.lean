import Verif.Model.TrueSource

/-!
# What is expected of a source with memory
-/

namespace Sdepy.Spec

variable {T Z V σ : Type} [Field T] [LinearOrder T]

/-- What the user of a source sees: `dz(t)` evaluated to `v`, or `dz(t, dt)` evaluated to `v`. -/
inductive SrcEvent (T V : Type) where
  | value (t : List T) (v : List V)
  | incr (t dt : List T) (v : List V)

/-- The value of the event is the one of the path `W`. -/
def SrcEvent.On [Sub V] (W : T → V) : SrcEvent T V → Prop
  | .value t v => v = t.map W
  | .incr t dt v => v = List.zipWith (fun t dt => W (t + dt) - W t) t dt

/-- Histories of a source, from memory `m0`: any sequence of evaluations at times in `D`. Evaluations
that raise an exception leave no trace but in the memory, possibly at some of the times only;
the rest of the state (the random generator) may be changed by anything at any time. -/
inductive SrcHistory [Sub V] (S : TrueSrc T Z V σ) (D : T → Prop) (m0 : Mem T Z σ) :
    List (SrcEvent T V) → Mem T Z σ → Prop
  | start : SrcHistory S D m0 [] m0
  | value {l m t v m'} : SrcHistory S D m0 l m → (∀ u ∈ t, D u) → S.call t none m = .ok (v, m') →
      SrcHistory S D m0 (l ++ [.value t v]) m'
  | incr {l m t dt v m'} : SrcHistory S D m0 l m → (∀ u ∈ t, D u) →
      (∀ u ∈ List.zipWith (· + ·) t dt, D u) → t.length = dt.length →
      S.call t (some dt) m = .ok (v, m') → SrcHistory S D m0 (l ++ [.incr t dt v]) m'
  | partly {l m t v m'} : SrcHistory S D m0 l m → (∀ u ∈ t, D u) → S.getList t m = .ok (v, m') →
      SrcHistory S D m0 l m'
  | other {l m} (s : σ) : SrcHistory S D m0 l m → SrcHistory S D m0 l { m with s := s }

/-- How the methods of a subclass should behave: stored values do not change; no new value is made
exactly when the two neighbours are in the relation `flat`, and have the same value. -/
structure Lawful (S : TrueSrc T Z V σ) (flat : V → V → Prop) : Prop where
  outside : ∀ {z t s st z' znew st'}, S.outside z t s st = .ok ((z', znew), st') →
    S.getvalue z' = S.getvalue z
  inside : ∀ {z1 z2 t1 t2 s st z' r st'}, S.inside z1 z2 t1 t2 s st = .ok ((z', r), st') →
    S.getvalue z' = S.getvalue z1 ∧ (r = none ↔ flat (S.getvalue z1) (S.getvalue z2))
  flat : ∀ v1 v2, flat v1 v2 → v1 = v2

/-- `t` holds the stored times in strictly increasing order, one for each stored value; there is a
stored value. -/
def WellKept (m : Mem T Z σ) : Prop :=
  m.t.Pairwise (· < ·) ∧ m.z.length = m.t.length ∧ m.t ≠ []

/-- The time `s` is not one of those that lie below `t0`, but so close to it as to be taken for it. -/
def Clear (rtol t0 s : T) : Prop := s < t0 → ¬ |s - t0| ≤ rtol * |t0|

end Sdepy.Spec
