import Verif.Spec.Levy
import Verif.Spec.Presets
import Verif.Lemmas.Stream
import Mathlib.Probability.Independence.Integration
import Mathlib.Probability.ConditionalProbability
import Mathlib.MeasureTheory.Group.Convolution
import Mathlib.Probability.Kernel.Composition.MeasureComp

/-!
# Draws from a random generator, one after the other
-/

set_option linter.unusedSectionVars false

open MeasureTheory ProbabilityTheory

namespace Sdepy

open Spec

variable {σ A B E : Type} [MeasurableSpace σ] [MeasurableSpace A] [MeasurableSpace B]
  [MeasurableSpace E] {μ : Measure σ} [IsProbabilityMeasure μ]

theorem Spec.DrawsLaw.isProb {ν : Measure A} {f : σ → Py (A × σ)} (h : DrawsLaw μ ν f) :
    IsProbabilityMeasure ν := by
  obtain ⟨g, hg, -, hm⟩ := h
  have h1 : IsProbabilityMeasure (μ.map g) := Measure.isProbabilityMeasure_map hg.aemeasurable
  have h2 := h1.measure_univ
  rw [hm, ← Set.univ_prod_univ, Measure.prod_prod, measure_univ (μ := μ), mul_one] at h2
  exact ⟨h2⟩

/-- The values are as prescribed, and the state left is as before. -/
theorem Spec.DrawsLaw.map {ν : Measure A} {f : σ → Py (A × σ)} (h : DrawsLaw μ ν f) {φ : A → B}
    (hφ : Measurable φ) : DrawsLaw μ (ν.map φ) fun s => (f s).map fun r => (φ r.1, r.2) := by
  have := h.isProb
  obtain ⟨g, hg, hf, hm⟩ := h
  refine ⟨fun s => (φ (g s).1, (g s).2), by fun_prop, fun s => by simp only [hf]; rfl, ?_⟩
  have e : (fun s => (φ (g s).1, (g s).2)) = Prod.map φ id ∘ g := rfl
  rw [e, ← Measure.map_map (by fun_prop) hg, hm]
  have h2 := Measure.map_prod_map ν μ hφ measurable_id
  rw [← h2, Measure.map_id]

/-- Two draws, one after the other, are independent. -/
theorem Spec.DrawsLaw.pair {ν : Measure A} {κ : Measure B} {f : σ → Py (A × σ)} {f' : σ → Py (B × σ)}
    (h : DrawsLaw μ ν f) (h' : DrawsLaw μ κ f') :
    DrawsLaw μ (ν.prod κ) fun s => f s >>= fun r => (f' r.2).map fun r' => ((r.1, r'.1), r'.2) := by
  have := h.isProb
  have := h'.isProb
  obtain ⟨g, hg, hf, hm⟩ := h
  obtain ⟨g', hg', hf', hm'⟩ := h'
  refine ⟨fun s => (((g s).1, (g' (g s).2).1), (g' (g s).2).2), by fun_prop, fun s => ?_, ?_⟩
  · simp only [hf, hf', bind, Except.bind, Except.map]
  · have e : (fun s => (((g s).1, (g' (g s).2).1), (g' (g s).2).2)) =
      MeasurableEquiv.prodAssoc.symm ∘ Prod.map id g' ∘ g := rfl
    rw [e, ← Measure.map_map (by fun_prop) (by fun_prop), ← Measure.map_map (by fun_prop) hg, hm]
    have h2 := Measure.map_prod_map ν μ measurable_id hg'
    rw [← h2, Measure.map_id, hm', ← Measure.prodAssoc_prod, Measure.map_map (by fun_prop) (by fun_prop)]
    simp

/-- A draw that depends on the outcome of another one. -/
theorem Spec.DrawsLaw.bind [Countable A] [DiscreteMeasurableSpace A] {ν : Measure A}
    {κ : A → Measure B} {f : σ → Py (A × σ)} {f' : A → σ → Py (B × σ)}
    (h : DrawsLaw μ ν f) (h' : ∀ a, DrawsLaw μ (κ a) (f' a)) :
    DrawsLaw μ (ν.bind κ) fun s => f s >>= fun r => f' r.1 r.2 := by
  have := h.isProb
  have hp : ∀ a, IsProbabilityMeasure (κ a) := fun a => (h' a).isProb
  obtain ⟨g, hg, hf, hm⟩ := h
  choose g' hg' hf' hm' using h'
  have hgg : Measurable fun p : A × σ => g' p.1 p.2 := measurable_from_prod_countable_right hg'
  have hκ : AEMeasurable κ ν := Measurable.aemeasurable .of_discrete
  have hb : IsProbabilityMeasure (ν.bind κ) := by
    refine ⟨?_⟩
    rw [Measure.bind_apply .univ hκ]
    simp
  refine ⟨fun s => g' (g s).1 (g s).2, hgg.comp hg, fun s => by simp only [hf]; exact hf' _ _, ?_⟩
  have e : (fun s => g' (g s).1 (g s).2) = (fun p : A × σ => g' p.1 p.2) ∘ g := rfl
  rw [e, ← Measure.map_map hgg hg, hm]
  ext S hS
  rw [Measure.map_apply hgg hS, Measure.prod_apply (hgg hS), Measure.prod_apply hS,
    Measure.lintegral_bind hκ (measurable_measure_prodMk_left hS).aemeasurable]
  refine lintegral_congr fun a => ?_
  rw [← Measure.prod_apply hS, ← hm', Measure.map_apply (hg' a) hS]
  rfl

/-! ### Sequences -/

section
variable {N : ℕ → Measure E} {g : ℕ → σ → E × σ}

/-- States of the generator. -/
def stateSeq (g : ℕ → σ → E × σ) : ℕ → σ → σ
  | 0, s => s
  | n + 1, s => (g n (stateSeq g n s)).2

/-- Values drawn. -/
def valSeq (g : ℕ → σ → E × σ) (n : ℕ) (s : σ) : E := (g n (stateSeq g n s)).1

theorem measurable_stateSeq (hg : ∀ n, Measurable (g n)) (n : ℕ) : Measurable (stateSeq g n) := by
  induction n with
  | zero => exact measurable_id
  | succ n ih => exact measurable_snd.comp ((hg n).comp ih)

theorem measurable_valSeq (hg : ∀ n, Measurable (g n)) (n : ℕ) : Measurable (valSeq g n) :=
  measurable_fst.comp ((hg n).comp (measurable_stateSeq hg n))

theorem valSeq_event [∀ n, IsProbabilityMeasure (N n)] (hg : ∀ n, Measurable (g n))
    (hm : ∀ n, μ.map (g n) = (N n).prod μ)
    {S : ℕ → Set E} (hS : ∀ n, MeasurableSet (S n)) (n : ℕ) {T : Set σ} (hT : MeasurableSet T) :
    μ {s | (∀ i < n, valSeq g i s ∈ S i) ∧ stateSeq g n s ∈ T} =
      (∏ i ∈ Finset.range n, N i (S i)) * μ T := by
  induction n generalizing T with
  | zero => simp [stateSeq]
  | succ n ih =>
    have e : {s | (∀ i < n + 1, valSeq g i s ∈ S i) ∧ stateSeq g (n + 1) s ∈ T} =
        {s | (∀ i < n, valSeq g i s ∈ S i) ∧ stateSeq g n s ∈ g n ⁻¹' (S n ×ˢ T)} := by
      ext s
      simp only [Set.mem_setOf_eq, Set.mem_preimage, Set.mem_prod, Nat.lt_succ_iff_lt_or_eq,
        or_imp, forall_and, forall_eq, stateSeq, and_assoc]
      rfl
    rw [e, ih (hg n ((hS n).prod hT)), ← Measure.map_apply (hg n) ((hS n).prod hT), hm,
      Measure.prod_prod, Finset.prod_range_succ, mul_assoc]

theorem hasLaw_valSeq [∀ n, IsProbabilityMeasure (N n)] (hg : ∀ n, Measurable (g n))
    (hm : ∀ n, μ.map (g n) = (N n).prod μ) (n : ℕ) : HasLaw (valSeq g n) (N n) μ := by
  refine ⟨(measurable_valSeq hg n).aemeasurable, ?_⟩
  ext S hS
  rw [Measure.map_apply (measurable_valSeq hg n) hS]
  have := valSeq_event hg hm (S := fun i => if i = n then S else Set.univ)
    (fun i => by split_ifs <;> simp [hS]) (n + 1) (T := Set.univ) .univ
  rw [Finset.prod_eq_single n (by intro i _ hi; simp [hi]) (by simp), if_pos rfl, measure_univ,
    mul_one] at this
  rw [← this]
  congr 1
  ext s
  simp only [Set.mem_preimage, Set.mem_setOf_eq, Set.mem_univ, and_true]
  constructor
  · intro h i hi
    split_ifs with hin
    · rw [hin]; exact h
    · trivial
  · intro h
    simpa using h n (Nat.lt_succ_self n)

theorem iIndepFun_valSeq [∀ n, IsProbabilityMeasure (N n)] (hg : ∀ n, Measurable (g n))
    (hm : ∀ n, μ.map (g n) = (N n).prod μ) : iIndepFun (valSeq g) μ := by
  rw [iIndepFun_iff_measure_inter_preimage_eq_mul]
  intro I S hS
  obtain ⟨n, hn⟩ : ∃ n, I ⊆ Finset.range n := I.exists_nat_subset_range
  have := valSeq_event hg hm (S := fun i => if i ∈ I then S i else Set.univ)
    (fun i => by split_ifs with h <;> simp [hS _, h]) n (T := Set.univ) .univ
  rw [measure_univ, mul_one] at this
  have e : (⋂ i ∈ I, valSeq g i ⁻¹' S i) = {s | (∀ i < n, valSeq g i s ∈
      if i ∈ I then S i else Set.univ) ∧ stateSeq g n s ∈ Set.univ} := by
    ext s
    simp only [Set.mem_iInter, Set.mem_preimage, Set.mem_setOf_eq, Set.mem_univ, and_true]
    constructor
    · intro h i hi
      split_ifs with hI
      · exact h i hI
      · trivial
    · intro h i hI
      simpa [hI] using h i (Finset.mem_range.1 (hn hI))
  rw [e, this]
  rw [← Finset.prod_subset hn (by intro i _ hi; simp [hi])]
  refine Finset.prod_congr rfl fun i hi => ?_
  rw [if_pos hi, ← (hasLaw_valSeq hg hm i).map_eq, Measure.map_apply (measurable_valSeq hg i) (hS i hi)]

end

end Sdepy
