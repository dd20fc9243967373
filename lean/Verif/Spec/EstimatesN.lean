import Verif.Spec.StrongNLaw

/-!
# Independent paths
-/

open MeasureTheory ProbabilityTheory

namespace Sdepy.Spec

/-- The law of values of many paths, that are independent and have law `ν` each: `e` gives the path, and the component
within the path, of each value. -/
noncomputable def pathsLaw {C ι κ : Type} [Fintype ι] (e : C ≃ ι × κ) (ν : Measure (κ → ℝ)) : Measure (C → ℝ) :=
  (Measure.pi fun _ : ι => ν).map fun x c => x (e c).1 (e c).2

theorem inRange_last {vshape c : List ℕ} {paths : ℕ} (h : InRange (vshape ++ [paths]) c) :
    ∃ i k, c = i ++ [k] ∧ InRange vshape i ∧ k < paths := by
  obtain ⟨i, j, rfl, hi, hj⟩ := h.of_append
  obtain ⟨k, rfl, hk⟩ := inRange_singleton.1 hj
  exact ⟨i, k, rfl, hi, hk⟩

/-- The path of a cell is the last of its indexes, the others are the component. -/
def cellPath (vshape : List ℕ) (paths : ℕ) : Cells (vshape ++ [paths]) ≃ Fin paths × Cells vshape where
  toFun c := (⟨c.1.getLastD 0, by
    obtain ⟨i, k, e, -, hk⟩ := inRange_last c.2
    rw [e]
    simpa using hk⟩, ⟨c.1.dropLast, by
    obtain ⟨i, k, e, hi, -⟩ := inRange_last c.2
    rw [e]
    simpa using hi⟩)
  invFun p := ⟨p.2.1 ++ [p.1.1], (inRange_append p.2.2.length_eq).2 ⟨p.2.2, .cons p.1.2 .nil⟩⟩
  left_inv c := by
    obtain ⟨i, k, e, -, -⟩ := inRange_last c.2
    refine Subtype.ext ?_
    simp [e]
  right_inv p := by simp

/-- The law, for a single path, of the increments over a time `h` of a Wiener process, or, for the source `idJ`, of a
compound Poisson process with `l` jumps per unit of time, in the mean, of law `ν`; all components are independent. -/
noncomputable def jumpLaw {κ : Type} [Fintype κ] (idJ : ℕ) (l : ℝ) (ν : Measure ℝ) (id : ℕ) (h : ℝ) : Measure (κ → ℝ) :=
  Measure.pi fun _ => if id = idJ then compoundPoisson (l * h) ν else gaussianReal 0 h.toNNReal

end Sdepy.Spec
