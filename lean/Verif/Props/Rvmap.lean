import Verif.Model.Rvmap

/-!
# `rvmap` maps variates
-/

namespace Sdepy

variable {σ T A : Type}

/-- The distribution at a given time. -/
def Spec.MaybeTimed.at (t : T) : MaybeTimed T (Distr σ A) → Py (Distr σ A)
  | .plain y => .ok y
  | .timed f => f t

/-- The value is a function of time. -/
def Spec.MaybeTimed.isTimed : MaybeTimed T (Distr σ A) → Prop
  | .plain _ => False
  | .timed _ => True

/-- What a sequence of steps that may fail should give: variates at time `t`. -/
def Spec.variates (y : MaybeTimed T (Distr σ A)) (t : T) (size : List ℕ) (st : σ) : Py (A × σ) := do
  (← Spec.MaybeTimed.at t y).rvs size st

open Spec

/-- **C34**. The result of `rvmap(f, y)` is a function of time exactly if the first parameter of `f` is
named `t` or `s`, or `y` is a function of time; its variates at any time `t` are `f(t, y)` in the former
case, or otherwise `f(y)`, where `y` are the variates of `y` at time `t` drawn from the same state of the
random generator. -/
theorem C34_rvmap (f : PyFun T A) (y : MaybeTimed T (Distr σ A)) {p : String} {ps : List String}
    (hp : f.params = p :: ps) :
    ∃ z, rvmap f y = .ok z ∧ (MaybeTimed.isTimed z ↔ (p = "t" ∨ p = "s") ∨ MaybeTimed.isTimed y) ∧
      ∀ t size st, variates z t size st = (do
        let (v, st') ← variates y t size st
        let w ← f.call (if p = "t" ∨ p = "s" then some t else none) v
        pure (w, st')) := by
  have key : ∀ (o : Option T) (d : Distr σ A) size st, (mapped f o d).rvs size st = (do
      let (v, st') ← d.rvs size st
      let w ← f.call o v
      pure (w, st')) := by
    intro o d size st
    simp only [mapped]
    cases d.rvs size st with
    | error e => rfl
    | ok v =>
      obtain ⟨v, st'⟩ := v
      simp only [bind, Except.bind]
      cases f.call o v <;> rfl
  cases y with
  | timed d =>
    refine ⟨_, by rw [rvmap, hp], by simp [MaybeTimed.isTimed], fun t size st => ?_⟩
    simp only [variates, MaybeTimed.at]
    cases d t with
    | error e => rfl
    | ok dt =>
      simp only [bind, Except.bind]
      exact key _ dt size st
  | plain d =>
    by_cases h : p = "t" ∨ p = "s"
    · refine ⟨_, by simp only [rvmap, hp, if_pos h]; rfl, by simp [MaybeTimed.isTimed, h],
        fun t size st => ?_⟩
      simp only [variates, MaybeTimed.at, if_pos h]
      exact key _ d size st
    · refine ⟨_, by simp only [rvmap, hp, if_neg h]; rfl, by simp [MaybeTimed.isTimed, h],
        fun t size st => ?_⟩
      simp only [variates, MaybeTimed.at, if_neg h]
      exact key _ d size st

/-- **C34** (errors). A function without parameters is rejected at once. -/
theorem C34_no_params (f : PyFun T A) (y : MaybeTimed T (Distr σ A)) (hp : f.params = []) :
    rvmap f y = .error .indexError := by rw [rvmap, hp]

/-- **C34** (composition). Mapping twice gives the same variates as mapping the composition of two functions,
whether or not they depend on time. -/
theorem C34_compose (f g h : PyFun T A) (y : MaybeTimed T (Distr σ A)) {p q r : String}
    {ps qs rs : List String} (hf : f.params = p :: ps) (hg : g.params = q :: qs) (hh : h.params = r :: rs)
    (hcomp : ∀ t v, h.call (if r = "t" ∨ r = "s" then some t else none) v = (do
      let w ← f.call (if p = "t" ∨ p = "s" then some t else none) v
      g.call (if q = "t" ∨ q = "s" then some t else none) w)) :
    ∃ z z' w, rvmap f y = .ok z ∧ rvmap g z = .ok z' ∧ rvmap h y = .ok w ∧
      ∀ t size st, variates z' t size st = variates w t size st := by
  obtain ⟨z, h1, -, h2⟩ := C34_rvmap f y hf
  obtain ⟨z', k1, -, k2⟩ := C34_rvmap g z hg
  obtain ⟨w, l1, -, l2⟩ := C34_rvmap h y hh
  refine ⟨z, z', w, h1, k1, l1, fun t size st => ?_⟩
  rw [k2, h2, l2]
  cases variates y t size st with
  | error e => rfl
  | ok v =>
    simp only [bind, Except.bind]
    rw [hcomp t v.1]
    simp only [bind, Except.bind]
    cases f.call (if p = "t" ∨ p = "s" then some t else none) v.1 with
    | error e => rfl
    | ok w => rfl

/-- Variates are counted by the state of the random generator; `f(s, y) = s*y`, `g(y) = y + 1`. -/
def exDistr : Distr ℕ ℤ := ⟨fun size st => .ok (10 * size.sum + st, st + 1)⟩
def exF : PyFun ℤ ℤ := ⟨["s", "y"], fun t v => match t with | some t => .ok (t * v) | none => .error .typeError⟩
def exG : PyFun ℤ ℤ := ⟨["y"], fun t v => match t with | some _ => .error .typeError | none => .ok (v + 1)⟩
def exFG : PyFun ℤ ℤ := ⟨["t", "y"], fun t v => match t with | some t => .ok (t * v + 1) | none => .error .typeError⟩

example := C34_rvmap exF (.plain exDistr) rfl
example := C34_no_params (σ := ℕ) (⟨[], fun _ v => .ok v⟩ : PyFun ℤ ℤ) (.plain exDistr) rfl
example := C34_compose exF exG exFG (.plain exDistr) rfl rfl rfl (fun _ _ => rfl)
example : ((rvmap exF (.plain exDistr)).toOption.map fun z => (variates z 3 [2] 5).toOption) =
    some (some (75, 6)) := by decide +kernel
example : (match rvmap exG (.plain exDistr) with
    | .ok (.plain d) => (d.rvs [2] 5).toOption
    | _ => none) = some (26, 6) := by decide +kernel

end Sdepy
