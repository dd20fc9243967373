import Verif.Spec.EstimatesN
import Verif.Lemmas.StrongNLaw
import Mathlib.Probability.ProductMeasure

/-!
# Independent paths, independent runs
-/

set_option linter.unusedSectionVars false

open MeasureTheory ProbabilityTheory

namespace Sdepy

open Spec

/-! ### Product measures -/

section
variable {ι J κ C X : Type} [Fintype ι] [Fintype J] [MeasurableSpace X]

/-- Independent values, taken in another order. -/
theorem infinitePi_reindex {α β : Type} (f : α ≃ β) (ν : β → Measure X) [∀ b, IsProbabilityMeasure (ν b)] :
    (Measure.infinitePi ν).map (fun x a => x (f a)) = Measure.infinitePi fun a => ν (f a) := by
  have h := Measure.infinitePi_map_piCongrLeft (X := fun _ => X) (fun a => ν (f a)) f.symm
  simp only [Equiv.apply_symm_apply] at h
  rw [← h]
  congr 1
  funext x a
  rw [MeasurableEquiv.coe_piCongrLeft]
  have := Equiv.piCongrLeft_apply_apply (fun _ : α => X) f.symm x (f a)
  rw [Equiv.symm_apply_apply] at this
  exact this.symm

theorem pi_swap (ν : ι → J → Measure X) [∀ i j, IsProbabilityMeasure (ν i j)] :
    (Measure.pi fun i => Measure.pi fun j => ν i j).map (fun x j i => x i j) =
      Measure.pi fun j => Measure.pi fun i => ν i j := by
  simp only [← Measure.infinitePi_eq_pi]
  rw [← Measure.infinitePi_map_curry (fun j i => ν i j)]
  have h2 := infinitePi_reindex (Equiv.prodComm J ι) (fun p : ι × J => ν p.1 p.2)
  simp only [Equiv.prodComm_apply, Prod.fst_swap, Prod.snd_swap] at h2
  rw [← h2, ← Measure.infinitePi_map_curry_symm (fun i j => ν i j), Measure.map_map (by fun_prop) (by fun_prop),
    Measure.map_map (by fun_prop) (by fun_prop)]
  rfl

/-- Values of a given law, in many cells, as values of many paths. -/
theorem pi_paths [Fintype C] [Fintype κ] (e : C ≃ ι × κ) (m : Measure ℝ) [IsProbabilityMeasure m] :
    (Measure.pi fun _ : C => m) = pathsLaw e (Measure.pi fun _ : κ => m) := by
  have h := infinitePi_reindex e (fun _ => m)
  have h2 := Measure.infinitePi_map_curry_symm (fun (_ : ι) (_ : κ) => m)
  rw [← h2, Measure.map_map (by fun_prop) (by fun_prop)] at h
  simp only [Measure.infinitePi_eq_pi] at h
  exact h.symm

end

/-- Increments of independent paths. -/
theorem stepLaws_paths {Ω ι κ C J : Type} [MeasurableSpace Ω] [Fintype ι] [Fintype J] {P : Measure Ω} [IsProbabilityMeasure P]
    {t0 : ℝ} {g : List ℝ} (e : C ≃ ι × κ) {law1 : J → ℝ → Measure (κ → ℝ)}
    (hpr : ∀ j h, 0 < h → IsProbabilityMeasure (law1 j h)) {Z : ℝ → Ω → J → κ → ℝ}
    (hZ : StepLaws P t0 g (fun h => Measure.pi fun j => law1 j h) Z) (hm : ∀ s ∈ g, AEMeasurable (Z s) P) (h0 : t0 ∈ g) :
    StepLaws (Measure.pi fun _ : ι => P) t0 g (fun h => Measure.pi fun j => pathsLaw e (law1 j h))
      fun u ω j c => Z u (ω (e c).1) j (e c).2 := by
  let ψ : (ι → J → κ → ℝ) → J → C → ℝ := fun x j c => x (e c).1 j (e c).2
  have hψ : Measurable ψ := by fun_prop
  refine ⟨fun s t hst h0s hs => ?_, fun s t hst h0s hs => ?_⟩
  · have h1 := hZ.law s t hst h0s hs
    have := fun j => hpr j (t - s) (sub_pos.2 hs)
    have hU : HasLaw (fun (ω : ι → Ω) i => Z t (ω i) - Z s (ω i)) (Measure.pi fun _ : ι => Measure.pi fun j => law1 j (t - s))
        (Measure.pi fun _ : ι => P) := by
      refine ⟨aemeasurable_pi_lambda _ fun i => h1.aemeasurable.comp_quasiMeasurePreserving
        (Measure.quasiMeasurePreserving_eval _ i), ?_⟩
      rw [Measure.pi_map_pi fun _ => h1.aemeasurable, h1.map_eq]
    have h3 : HasLaw ψ (Measure.pi fun j => pathsLaw e (law1 j (t - s)))
        (Measure.pi fun _ : ι => Measure.pi fun j => law1 j (t - s)) := by
      refine ⟨hψ.aemeasurable, ?_⟩
      have e1 : ψ = (fun (x : J → ι → κ → ℝ) j c => x j (e c).1 (e c).2) ∘ fun x j i => x i j := rfl
      rw [e1, ← Measure.map_map (by fun_prop) (by fun_prop), pi_swap]
      exact Measure.pi_map_pi (f := fun _ (x : ι → κ → ℝ) c => x (e c).1 (e c).2) fun _ =>
        (show Measurable fun (x : ι → κ → ℝ) c => x (e c).1 (e c).2 by fun_prop).aemeasurable
    exact h3.comp hU
  · have hi := hZ.indep s t hst h0s hs
    have hfin : Finite {u : ℝ // u ∈ g ∧ u ≤ s} := (List.finite_toSet g).subset fun u hu => hu.1
    set A := {u : ℝ // u ∈ g ∧ u ≤ s} → J → κ → ℝ
    set U : Ω → A := fun ω u => Z u ω - Z t0 ω
    set V : Ω → J → κ → ℝ := fun ω => Z t ω - Z s ω
    have hU : AEMeasurable U P := aemeasurable_pi_lambda _ fun u => (hm u u.2.1).sub (hm t0 h0)
    have hV : AEMeasurable V P := (hm t hst.2.1).sub (hm s hst.1)
    have hprod : IndepFun (fun (ω : ι → Ω) i => U (ω i)) (fun (ω : ι → Ω) i => V (ω i)) (Measure.pi fun _ : ι => P) := by
      have hUm : AEMeasurable (fun (ω : ι → Ω) i => U (ω i)) (Measure.pi fun _ : ι => P) :=
        aemeasurable_pi_lambda _ fun i => hU.comp_quasiMeasurePreserving (Measure.quasiMeasurePreserving_eval _ i)
      have hVm : AEMeasurable (fun (ω : ι → Ω) i => V (ω i)) (Measure.pi fun _ : ι => P) :=
        aemeasurable_pi_lambda _ fun i => hV.comp_quasiMeasurePreserving (Measure.quasiMeasurePreserving_eval _ i)
      have := Measure.isProbabilityMeasure_map (μ := P) hU
      have := Measure.isProbabilityMeasure_map (μ := P) hV
      rw [indepFun_iff_map_prod_eq_prod_map_map hUm hVm, Measure.pi_map_pi fun _ => hU, Measure.pi_map_pi fun _ => hV,
        ← (measurePreserving_arrowProdEquivProdArrow A (J → κ → ℝ) ι _ _).map_eq,
        ← (indepFun_iff_map_prod_eq_prod_map_map hU hV).1 hi, ← Measure.pi_map_pi fun _ => hU.prodMk hV,
        AEMeasurable.map_map_of_aemeasurable (MeasurableEquiv.measurable _).aemeasurable]
      · rfl
      · exact aemeasurable_pi_lambda _ fun i => (hU.prodMk hV).comp_quasiMeasurePreserving
          (Measure.quasiMeasurePreserving_eval _ i)
    exact hprod.comp (φ := fun (x : ι → A) u j c => x (e c).1 u j (e c).2) (ψ := ψ) (by fun_prop) hψ

end Sdepy
