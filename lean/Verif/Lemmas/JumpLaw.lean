import Verif.Lemmas.Levy
import Verif.Props.CPoisson
import Mathlib.Probability.Independence.InfinitePi

/-!
# The law of compound Poisson increments
-/

set_option linter.unusedSectionVars false

open MeasureTheory ProbabilityTheory

namespace Sdepy

open Spec

variable {σ : Type} [MeasurableSpace σ] {μ : Measure σ} [IsProbabilityMeasure μ]

/-- Draws of independent values, in terms of events. -/
theorem map_eq_pi_prod {C : Type} [Fintype C] {L : C → Measure ℝ} [∀ c, IsProbabilityMeasure (L c)]
    {g : σ → (C → ℝ) × σ} (hg : Measurable g)
    (h : ∀ (S : C → Set ℝ) (T : Set σ), (∀ c, MeasurableSet (S c)) → MeasurableSet T →
      μ {s | (∀ c, (g s).1 c ∈ S c) ∧ (g s).2 ∈ T} = (∏ c, L c (S c)) * μ T) :
    μ.map g = (Measure.pi L).prod μ := by
  symm
  refine Measure.prod_eq_generateFrom generateFrom_pi MeasurableSpace.generateFrom_measurableSet
    isPiSystem_pi MeasurableSpace.isPiSystem_measurableSet
    (Measure.FiniteSpanningSetsIn.pi fun c => (L c).toFiniteSpanningSetsIn)
    μ.toFiniteSpanningSetsIn ?_
  rintro _ ⟨S, hS, rfl⟩ T hT
  have hS' : ∀ c, MeasurableSet (S c) := fun c => hS c trivial
  rw [Measure.map_apply hg ((MeasurableSet.univ_pi hS').prod hT), Measure.pi_pi, ← h S T hS' hT]
  congr 1
  ext s
  simp [Set.mem_pi]

/-- The law of a sum of `k` independent variates. -/
noncomputable def sumLaw (ν : Measure ℝ) (k : ℕ) : Measure ℝ :=
  (Measure.pi fun _ : Fin k => ν).map fun x => ∑ i, x i

instance (ν : Measure ℝ) [IsProbabilityMeasure ν] (k : ℕ) : IsProbabilityMeasure (sumLaw ν k) :=
  Measure.isProbabilityMeasure_map (Measurable.aemeasurable (by fun_prop))

/-- The law of the cells that hold as many jumps. -/
noncomputable def loopLaw (ν : Measure ℝ) (sg : ℤ) (lo n : ℕ) (k : ℤ) : Measure ℝ :=
  if (lo : ℤ) ≤ k ∧ k < lo + n then (sumLaw ν k.toNat).map fun x => sg * x else .dirac 0

instance (ν : Measure ℝ) [IsProbabilityMeasure ν] (sg : ℤ) (lo n : ℕ) (k : ℤ) :
    IsProbabilityMeasure (loopLaw ν sg lo n k) := by
  unfold loopLaw
  split_ifs
  · exact Measure.isProbabilityMeasure_map (by fun_prop)
  · infer_instance

theorem jumpLoop_law {rvs : Rvs ℝ σ} {ν : Measure ℝ} [IsProbabilityMeasure ν]
    (hr : VariatesLaw μ ν rvs) (sg : ℤ) (dn : Arr ℤ) (n j : ℕ) :
    ∃ g : σ → (Cells dn.shape → ℝ) × σ, Measurable g ∧
      μ.map g = (Measure.pi fun c : Cells dn.shape => loopLaw ν sg j n (dn.get c)).prod μ ∧
      ∀ dz ys s, dz.shape = dn.shape → ∃ dz' ys',
        jumpLoop rvs sg dn n j dz ys s = .ok ((dz', ys'), (g s).2) ∧ dz'.shape = dn.shape ∧
        ∀ c : Cells dn.shape, dz'.get c =
          if (j : ℤ) ≤ dn.get c ∧ dn.get c < j + n then (g s).1 c else dz.get c := by
  induction n generalizing j with
  | zero =>
    refine ⟨fun s => (fun _ => 0, s), by fun_prop, map_eq_pi_prod (by fun_prop) ?_, ?_⟩
    · intro S T hS hT
      simp only [loopLaw]
      by_cases h : ∀ c, (0 : ℝ) ∈ S c
      · have e : ∀ c : Cells dn.shape, (if (j : ℤ) ≤ dn.get c ∧ dn.get c < j + (0 : ℕ) then
            (sumLaw ν (dn.get c).toNat).map (fun x => sg * x) else .dirac 0 : Measure ℝ) (S c) = 1 := by
          intro c
          rw [if_neg (by push_cast; omega), Measure.dirac_apply' _ (hS c)]
          simp [h c]
        rw [Finset.prod_congr rfl fun c _ => e c]
        simp [h]
      · push Not at h
        obtain ⟨c, hc⟩ := h
        have e : {s | (∀ c : Cells dn.shape, (0 : ℝ) ∈ S c) ∧ s ∈ T} = (∅ : Set σ) := by
          ext s
          simp only [Set.mem_setOf_eq, Set.mem_empty_iff_false, iff_false]
          exact fun hh => hc (hh.1 c)
        rw [e, measure_empty, Finset.prod_eq_zero (Finset.mem_univ c), zero_mul]
        rw [if_neg (by push_cast; omega), Measure.dirac_apply' _ (hS c)]
        simp [hc]
    · intro dz ys s hs
      refine ⟨dz, ys, rfl, hs, fun c => ?_⟩
      rw [if_neg (by push_cast; omega)]
  | succ n ih =>
    obtain ⟨g, hg, hm, hrun⟩ := ih (j + 1)
    set cells := trueCells dn.shape (fun i => decide (dn.get i = j)) with hcells
    have hmem : ∀ i, i ∈ cells ↔ InRange dn.shape i ∧ dn.get i = j := by
      intro i; rw [hcells, mem_trueCells]; simp
    by_cases hc : cells = []
    · have hno : ∀ c : Cells dn.shape, dn.get c ≠ j := by
        intro c hcj
        have := (hmem c).2 ⟨c.2, hcj⟩
        rw [hc] at this
        cases this
      refine ⟨g, hg, ?_, ?_⟩
      · rw [hm]
        congr 2
        funext c
        unfold loopLaw
        have := hno c
        by_cases h : ((j + 1 : ℕ) : ℤ) ≤ dn.get c ∧ dn.get c < (j + 1 : ℕ) + n
        · rw [if_pos h, if_pos (by push_cast at h ⊢; omega)]
        · rw [if_neg h, if_neg (by push_cast at h ⊢; omega)]
      · intro dz ys s hs
        obtain ⟨dz', ys', h1, h2, h3⟩ := hrun dz ys s hs
        refine ⟨dz', ys', ?_, h2, fun c => ?_⟩
        · simp only [jumpLoop]
          rw [if_pos hc, h1]
        · rw [h3 c]
          have := hno c
          by_cases h : ((j + 1 : ℕ) : ℤ) ≤ dn.get c ∧ dn.get c < (j + 1 : ℕ) + n
          · rw [if_pos h, if_pos (by push_cast at h ⊢; omega)]
          · rw [if_neg h, if_neg (by push_cast at h ⊢; omega)]
    · obtain ⟨q, hq, hqr, hqm⟩ := hr cells.length j
      have hidx : ∀ c : Cells dn.shape, dn.get c = j → cells.idxOf c.1 < cells.length :=
        fun c h => List.idxOf_lt_length_of_mem ((hmem c).2 ⟨c.2, h⟩)
      let val : (Fin cells.length → Fin j → ℝ) → Cells dn.shape → ℝ := fun y c =>
        if h : dn.get c = j then sg * ∑ k, y ⟨cells.idxOf c.1, hidx c h⟩ k else 0
      have hval : ∀ c, Measurable fun y => val y c := by
        intro c
        simp only [val]
        split_ifs
        · fun_prop
        · fun_prop
      let G : σ → (Cells dn.shape → ℝ) × σ := fun s =>
        (fun c => if dn.get c = j then val (q s).1 c else (g (q s).2).1 c, (g (q s).2).2)
      have hG : Measurable G := by
        refine Measurable.prodMk (measurable_pi_iff.2 fun c => ?_) (by fun_prop)
        split_ifs
        · exact (hval c).comp (by fun_prop)
        · fun_prop
      refine ⟨G, hG, map_eq_pi_prod hG ?_, ?_⟩
      · intro S T hS hT
        -- rows used for cells
        let row : Fin cells.length → Cells dn.shape := fun r =>
          ⟨cells[r], ((hmem _).1 (List.getElem_mem r.2)).1⟩
        have hrow : ∀ r, dn.get (row r) = j := fun r => ((hmem _).1 (List.getElem_mem r.2)).2
        have hnd : cells.Nodup := (ndindex_nodup _).filter _
        have hri : ∀ r, cells.idxOf (row r).1 = r := fun r => hnd.idxOf_getElem r.1 r.2
        have hir : ∀ c (h : dn.get c.1 = j), row ⟨cells.idxOf c.1, hidx c h⟩ = c := by
          intro c h
          apply Subtype.ext
          simp [row]
        let R : Fin cells.length → Set (Fin j → ℝ) := fun r => {x | sg * ∑ k, x k ∈ S (row r)}
        have hR : ∀ r, MeasurableSet (R r) := fun r =>
          (show Measurable fun x : Fin j → ℝ => sg * ∑ k, x k by fun_prop) (hS _)
        let S' : Cells dn.shape → Set ℝ := fun c => if dn.get c = j then Set.univ else S c
        have hS' : ∀ c, MeasurableSet (S' c) := by
          intro c; simp only [S']; split_ifs <;> simp [hS c]
        let T' : Set σ := g ⁻¹' ((Set.univ.pi S') ×ˢ T)
        have hT' : MeasurableSet T' := hg ((MeasurableSet.univ_pi hS').prod hT)
        have e : {s | (∀ c, (G s).1 c ∈ S c) ∧ (G s).2 ∈ T} = q ⁻¹' ((Set.univ.pi R) ×ˢ T') := by
          ext s
          simp only [Set.mem_setOf_eq, Set.mem_preimage, Set.mem_prod, Set.mem_univ_pi, T', G, R]
          constructor
          · rintro ⟨h1, h2⟩
            refine ⟨fun r => ?_, fun c => ?_, h2⟩
            · have := h1 (row r)
              rw [if_pos (hrow r)] at this
              simp only [val] at this
              rw [dif_pos (hrow r)] at this
              have hfin : (⟨cells.idxOf (row r).1, hidx (row r) (hrow r)⟩ : Fin cells.length) = r :=
                Fin.ext (hri r)
              rw [hfin] at this
              exact this
            · simp only [S']
              split_ifs with h
              · trivial
              · have := h1 c
                rw [if_neg h] at this
                exact this
          · rintro ⟨h1, h2, h3⟩
            refine ⟨fun c => ?_, h3⟩
            split_ifs with h
            · have := h1 ⟨cells.idxOf c.1, hidx c h⟩
              rw [hir c h] at this
              simp only [val]
              rw [dif_pos h]
              exact this
            · have := h2 c
              simp only [S'] at this
              rw [if_neg h] at this
              exact this
        have e1 : μ T' = (∏ c : Cells dn.shape, loopLaw ν sg (j + 1) n (dn.get c) (S' c)) * μ T := by
          rw [← Measure.map_apply hg ((MeasurableSet.univ_pi hS').prod hT), hm, Measure.prod_prod,
            Measure.pi_pi]
        have e2 : (Measure.pi fun _ : Fin cells.length => Measure.pi fun _ : Fin j => ν) (Set.univ.pi R) =
            ∏ c : Cells dn.shape, if dn.get c = j then loopLaw ν sg j (n + 1) (dn.get c) (S c) else 1 := by
          rw [Measure.pi_pi, ← Finset.prod_filter]
          refine Finset.prod_bij (fun r _ => row r) (fun r _ => by simp [hrow r]) ?_ ?_ ?_
          · intro a _ b _ hab
            have := hri a
            rw [hab, hri b] at this
            exact Fin.ext this.symm
          · intro c hc'
            have h : dn.get c = j := (Finset.mem_filter.1 hc').2
            exact ⟨⟨cells.idxOf c.1, hidx c h⟩, Finset.mem_univ _, hir c h⟩
          · intro r _
            unfold loopLaw
            rw [hrow r, if_pos (by push_cast; omega), Int.toNat_natCast, sumLaw,
              Measure.map_map (by fun_prop) (by fun_prop), Measure.map_apply (by fun_prop) (hS _)]
            rfl
        rw [e, ← Measure.map_apply hq ((MeasurableSet.univ_pi hR).prod hT'), hqm, Measure.prod_prod, e1,
          e2, ← mul_assoc, ← Finset.prod_mul_distrib]
        congr 1
        refine Finset.prod_congr rfl fun c _ => ?_
        simp only [S']
        by_cases h : dn.get c = j
        · rw [if_pos h, if_pos h, measure_univ, mul_one]
        · rw [if_neg h, if_neg h, one_mul]
          unfold loopLaw
          by_cases h' : ((j + 1 : ℕ) : ℤ) ≤ dn.get c ∧ dn.get c < (j + 1 : ℕ) + n
          · rw [if_pos h', if_pos (by push_cast at h' ⊢; omega)]
          · rw [if_neg h', if_neg (by push_cast at h' ⊢; omega)]
      · intro dz ys s hs
        have hqs : (rvs cells.length j s).map (fun r =>
          (fun (a : Fin cells.length) (b : Fin j) => r.1 a b, r.2)) = .ok (q s) := hqr s
        cases hrv : rvs cells.length j s with
        | error e => rw [hrv] at hqs; cases hqs
        | ok r =>
          rw [hrv] at hqs
          simp only [Except.map, Except.ok.injEq] at hqs
          obtain ⟨dz1, e1, e2, e3⟩ := maskAssign_full (dz := dz) (cells := cells)
            (v := fun a => (sg : ℝ) * ((List.range j).map (r.1 a)).sum)
            (fun i hi => by rw [hs]; exact ((hmem i).1 hi).1)
          obtain ⟨dz', ys', h1, h2, h3⟩ := hrun dz1 (ys ++ [⟨cells.length, j, r.1⟩]) r.2 (e2.trans hs)
          have hs2 : r.2 = (q s).2 := by rw [← hqs]
          refine ⟨dz', ys', ?_, h2, fun c => ?_⟩
          · simp only [jumpLoop]
            rw [if_neg hc, hrv]
            have e1' := e1
            rw [hs] at e1'
            simp only [← hcells, e1', h1]
            rw [hs2]
          · rw [h3 c, e3 c (by rw [hs]; exact c.2.length)]
            simp only [G]
            by_cases h : dn.get c = j
            · rw [if_neg (by push_cast; omega), if_pos ((hmem c).2 ⟨c.2, h⟩), if_pos (by push_cast; omega),
                if_pos h, sum_range_map]
              simp only [val]
              rw [dif_pos h, ← hqs, Finset.sum_range]
            · rw [if_neg (show c.1 ∉ cells by rw [hmem]; exact fun hh => h hh.2), if_neg h, ← hs2]
              by_cases h' : ((j + 1 : ℕ) : ℤ) ≤ dn.get c ∧ dn.get c < (j + 1 : ℕ) + n
              · rw [if_pos h', if_pos (by push_cast at h' ⊢; omega)]
              · rw [if_neg h', if_neg (by push_cast at h' ⊢; omega)]

/-! ### Number of jumps -/

theorem sumLaw_zero (ν : Measure ℝ) [IsProbabilityMeasure ν] : sumLaw ν 0 = .dirac 0 := by
  unfold sumLaw
  simp only [Finset.univ_eq_empty, Finset.sum_empty]
  rw [Measure.map_const]
  simp

theorem sumLaw_eq (ν : Measure ℝ) [IsProbabilityMeasure ν] (k : ℕ) :
    sumLaw ν k = (Measure.infinitePi fun _ : ℕ => ν).map fun x => ∑ i ∈ Finset.range k, x i := by
  have h : Measure.pi (fun _ : Fin k => ν) =
      (Measure.infinitePi fun _ : ℕ => ν).map fun x (i : Fin k) => x i := by
    refine Measure.pi_eq fun S hS => ?_
    rw [Measure.map_apply (by fun_prop) (MeasurableSet.univ_pi hS)]
    let S' : ℕ → Set ℝ := fun i => if h : i < k then S ⟨i, h⟩ else Set.univ
    have e : (fun (x : ℕ → ℝ) (i : Fin k) => x i) ⁻¹' Set.univ.pi S = Set.pi (Finset.range k) S' := by
      ext x
      simp only [Set.mem_preimage, Set.mem_univ_pi, Set.mem_pi, Finset.coe_range, Set.mem_Iio, S']
      constructor
      · intro h i hi
        rw [dif_pos hi]; exact h ⟨i, hi⟩ trivial
      · intro h i _
        have := h i i.2
        rwa [dif_pos i.2] at this
    rw [e, Measure.infinitePi_pi _ (fun i _ => by
      simp only [S']; split_ifs <;> simp [hS _]), Finset.prod_range]
    refine Finset.prod_congr rfl fun i _ => ?_
    simp [S']
  unfold sumLaw
  rw [h, Measure.map_map (by fun_prop) (by fun_prop)]
  congr 1
  funext x
  simp [Finset.sum_range]

theorem measurable_sumTo : Measurable fun z : ℕ × (ℕ → ℝ) => ∑ i ∈ Finset.range z.1, z.2 i := by
  refine measurable_from_prod_countable_right fun n => ?_
  simp only
  fun_prop

instance (m : ℝ) (ν : Measure ℝ) [IsProbabilityMeasure ν] : IsProbabilityMeasure (compoundPoisson m ν) :=
  Measure.isProbabilityMeasure_map measurable_sumTo.aemeasurable

theorem compoundPoisson_apply (m : ℝ) (ν : Measure ℝ) [IsProbabilityMeasure ν] {S : Set ℝ}
    (hS : MeasurableSet S) :
    compoundPoisson m ν S = ∫⁻ k, sumLaw ν k S ∂poissonMeasure m.toNNReal := by
  unfold compoundPoisson
  rw [Measure.map_apply measurable_sumTo hS, Measure.prod_apply (measurable_sumTo hS)]
  refine lintegral_congr fun k => ?_
  rw [sumLaw_eq, Measure.map_apply (by fun_prop) hS]
  rfl

/-- Independent sums, whose numbers of terms are independent Poisson variates. -/
theorem bind_poisson {C : Type} [Fintype C] (m : C → ℝ) (ν : Measure ℝ) [IsProbabilityMeasure ν]
    (sg : ℝ) :
    (Measure.pi fun c => (poissonMeasure (m c).toNNReal).map ((↑) : ℕ → ℤ)).bind
      (fun d => Measure.pi fun c => (sumLaw ν (d c).toNat).map fun x => sg * x) =
    Measure.pi fun c => (compoundPoisson (m c) ν).map fun x => sg * x := by
  have hp1 : ∀ c, IsProbabilityMeasure ((poissonMeasure (m c).toNNReal).map ((↑) : ℕ → ℤ)) := fun c =>
    Measure.isProbabilityMeasure_map (by fun_prop)
  have hp2 : ∀ k, IsProbabilityMeasure ((sumLaw ν k).map fun x => sg * x) := fun k =>
    Measure.isProbabilityMeasure_map (by fun_prop)
  have hp3 : ∀ c, IsProbabilityMeasure ((compoundPoisson (m c) ν).map fun x => sg * x) := fun c =>
    Measure.isProbabilityMeasure_map (by fun_prop)
  symm
  refine Measure.pi_eq fun S hS => ?_
  rw [Measure.bind_apply (MeasurableSet.univ_pi hS) (Measurable.aemeasurable .of_discrete)]
  simp only [Measure.pi_pi]
  have hind : iIndepFun (fun (c : C) (d : C → ℤ) => (sumLaw ν (d c).toNat).map (fun x => sg * x) (S c))
      (Measure.pi fun c => (poissonMeasure (m c).toNNReal).map ((↑) : ℕ → ℤ)) :=
    iIndepFun_pi (X := fun c (k : ℤ) => (sumLaw ν k.toNat).map (fun x => sg * x) (S c))
      (fun c => Measurable.aemeasurable .of_discrete)
  rw [lintegral_prod_eq_prod_lintegral_of_indepFun Finset.univ _ hind
    (fun c => Measurable.of_discrete)]
  refine Finset.prod_congr rfl fun c _ => ?_
  have hev := (measurePreserving_eval (fun c => (poissonMeasure (m c).toNNReal).map ((↑) : ℕ → ℤ)) c)
  have h1 : ∫⁻ d : C → ℤ, (sumLaw ν (d c).toNat).map (fun x => sg * x) (S c)
      ∂(Measure.pi fun c => (poissonMeasure (m c).toNNReal).map ((↑) : ℕ → ℤ)) =
      ∫⁻ k, (sumLaw ν k.toNat).map (fun x => sg * x) (S c)
        ∂((poissonMeasure (m c).toNNReal).map ((↑) : ℕ → ℤ)) :=
    hev.lintegral_comp (f := fun k : ℤ => (sumLaw ν k.toNat).map (fun x => sg * x) (S c)) .of_discrete
  rw [h1, lintegral_map .of_discrete .of_discrete, Measure.map_apply (by fun_prop) (hS c),
    compoundPoisson_apply _ _ ((by fun_prop : Measurable fun x : ℝ => sg * x) (hS c))]
  refine lintegral_congr fun k => ?_
  rw [Int.toNat_natCast, Measure.map_apply (by fun_prop) (hS c)]

end Sdepy
