import Verif.Spec.BackLaw
import Verif.Lemmas.Back
import Verif.Lemmas.StrongNLaw

/-!
# Laws of the noise realised backwards
-/

set_option linter.unusedSectionVars false

open MeasureTheory ProbabilityTheory

namespace Sdepy

open Spec

section
variable {Ω A : Type} [MeasurableSpace Ω] [MeasurableSpace A] {P : Measure Ω} {t0 : ℝ} {D : Set ℝ}
  {law : ℝ → Measure A} {Z : ℝ → Ω → A}

theorem increments_reflect [Sub A] (h : IncrementsBack P t0 D law Z) :
    Increments P t0 {u | 2 * t0 - u ∈ D} law fun u => Z (2 * t0 - u) where
  meas u hu := h.meas _ hu
  law s hs t ht h0 hst := by
    have := h.law _ hs _ ht (by linarith) (by linarith)
    rwa [show 2 * t0 - s - (2 * t0 - t) = t - s by ring] at this
  indep s hs t ht h0 hst := by
    have := h.indep _ hs _ ht (by linarith) (by linarith)
    let f : ({u : ℝ // u ∈ D ∧ 2 * t0 - s ≤ u} → A) → {u : ℝ // u ∈ {u | 2 * t0 - u ∈ D} ∧ u ≤ s} → A :=
      fun z p => z ⟨2 * t0 - p.1, p.2.1, by linarith [p.2.2]⟩
    have hf : Measurable f := measurable_pi_lambda _ fun p => measurable_pi_apply _
    exact this.comp hf measurable_id

theorem increments_back [Sub A] (h : Increments P t0 D law Z) :
    IncrementsBack P t0 {u | 2 * t0 - u ∈ D} law fun u => Z (2 * t0 - u) where
  meas u hu := h.meas _ hu
  law s hs t ht h0 hst := by
    have := h.law _ hs _ ht (by linarith) (by linarith)
    rwa [show 2 * t0 - t - (2 * t0 - s) = s - t by ring] at this
  indep s hs t ht h0 hst := by
    have := h.indep _ hs _ ht (by linarith) (by linarith)
    let f : ({u : ℝ // u ∈ D ∧ u ≤ 2 * t0 - s} → A) → {u : ℝ // u ∈ {u | 2 * t0 - u ∈ D} ∧ s ≤ u} → A :=
      fun z p => z ⟨2 * t0 - p.1, p.2.1, by linarith [p.2.2]⟩
    have hf : Measurable f := measurable_pi_lambda _ fun p => measurable_pi_apply _
    exact this.comp hf measurable_id

end

theorem reflectGrid_getD {t0 : ℝ} {grid : List ℝ} {p : ℕ} (hp : p < grid.length) :
    (reflectGrid t0 grid).getD p 0 = 2 * t0 - grid.getD (grid.length - 1 - p) 0 := by
  have h : grid.length - 1 - p < grid.length := by omega
  have h' : p < (reflectGrid t0 grid).length := by simpa [reflectGrid] using hp
  simp only [List.getD_eq_getElem?_getD, List.getElem?_eq_getElem h, List.getElem?_eq_getElem h', Option.getD_some]
  simp [reflectGrid]

theorem reflectGrid_length {t0 : ℝ} {grid : List ℝ} : (reflectGrid t0 grid).length = grid.length := by
  simp [reflectGrid]

section
variable {σ E : Type} [MeasurableSpace σ] [MeasurableSpace E] [AddCommGroup E] [MeasurableAdd₂ E] [MeasurableSub₂ E]
  [MeasurableNeg E] {μ : Measure σ}

/-- Independent steps are so when time is reflected. -/
theorem IndepSteps.reflect {N : ℝ → ℝ → Measure E} {t0 : ℝ} {grid : List ℝ} {W : ℝ → σ → E}
    (h : IndepSteps μ N t0 grid W) :
    IndepSteps μ (fun t dt => N (2 * t0 - t) (-dt)) t0 (reflectGrid t0 grid) fun u => W (2 * t0 - u) := by
  have hstep : ∀ p, p < grid.length - 1 →
      (2 * t0 - (reflectGrid t0 grid).getD (p + 1) 0 = grid.getD (grid.length - 1 - (p + 1)) 0 ∧
      2 * t0 - (reflectGrid t0 grid).getD p 0 = grid.getD (grid.length - 1 - (p + 1) + 1) 0) := by
    intro p hp
    rw [reflectGrid_getD (by omega), reflectGrid_getD (by omega), show grid.length - 1 - (p + 1) + 1 =
      grid.length - 1 - p by omega, sub_sub_cancel, sub_sub_cancel]
    exact ⟨rfl, rfl⟩
  have hlt : ∀ p : Fin ((reflectGrid t0 grid).length - 1), p.1 < grid.length - 1 := fun p =>
    lt_of_lt_of_eq p.2 (by rw [reflectGrid_length])
  refine ⟨fun s => ?_, fun u => h.meas _, ?_, fun p hp => ?_⟩
  · rw [show 2 * t0 - t0 = t0 by ring]
    exact h.start s
  · let g : Fin ((reflectGrid t0 grid).length - 1) → Fin (grid.length - 1) := fun p =>
      ⟨grid.length - 1 - (p + 1), by have := hlt p; omega⟩
    have hg : Function.Injective g := by
      intro p q hpq
      have h1 := hlt p
      have h2 := hlt q
      simp only [g, Fin.mk.injEq] at hpq
      exact Fin.ext (by omega)
    have := (h.indep.precomp hg).comp (fun _ x => -x) fun _ => measurable_neg
    convert this using 2 with p
    funext s
    obtain ⟨e1, e2⟩ := hstep p (hlt p)
    simp only [Function.comp_apply, g, e1, e2]
    abel
  · rw [reflectGrid_length] at hp
    obtain ⟨e1, e2⟩ := hstep p hp
    set q := grid.length - 1 - (p + 1) with hq
    have e1' : (reflectGrid t0 grid).getD (p + 1) 0 = 2 * t0 - grid.getD q 0 := by linarith
    have e2' : (reflectGrid t0 grid).getD p 0 = 2 * t0 - grid.getD (q + 1) 0 := by linarith
    simp only [e1', e2', sub_sub_cancel]
    rcases h.law q (by omega) with ⟨h1, h2⟩ | ⟨h1, h2⟩
    · right
      refine ⟨by linarith, ?_⟩
      have := (HasLaw.mk measurable_neg.aemeasurable rfl : HasLaw (fun x : E => -x) _ _).comp h2
      convert this using 1
      · funext s
        simp
      · congr 2
        ring
    · left
      refine ⟨by linarith, ?_⟩
      have := (HasLaw.mk measurable_neg.aemeasurable rfl : HasLaw (fun x : E => -x) _ _).comp h2
      rw [Measure.map_map measurable_neg measurable_neg] at this
      convert this using 1
      · funext s
        simp
      · rw [show ((fun x : E => -x) ∘ fun x => -x) = id by funext x; simp, Measure.map_id]
        congr 1
        ring

end

section
variable {σ ι : Type} [Fintype ι] [MeasurableSpace σ] {μ : Measure σ} [IsProbabilityMeasure μ]
  {E : Equation ℝ (ι → ℝ) ℕ σ} {k : ℕ} {law : E.Stochastic k → ℝ → Measure (ι → ℝ)}

/-- The noise of all sources, realised along a grid, backwards from `t0`. -/
theorem exists_realised_back (hE : E.DrawsNoiseBack k μ law) (hk : ∀ t dt s, E.noise k t dt s = .ok (fun _ => dt, s))
    {grid : List ℝ} (hg : grid.Pairwise (· < ·)) {t0 : ℝ} (h0 : t0 ∈ grid) {T : ℝ} (hT : 0 ≤ T) :
    ∃ (Z : ℝ → σ → E.Stochastic k → ι → ℝ) (st : σ → σ), (∀ s, Z t0 s = 0) ∧
      RealisesAll E k t0 grid (fun u s c => Z u s c.1 c.2) id st ∧
      ∀ {g : List ℝ}, (∀ u, u ∈ g ↔ u ∈ grid ∧ u ∈ Set.Icc (t0 - T) t0) →
        StepLaws μ t0 (reflectGrid t0 g) (fun h => Measure.pi fun j => law j h) fun u => Z (2 * t0 - u) := by
  obtain ⟨N, ν, W, st, hW, hc, hst, hjoint, hQ, hN⟩ := exists_steps hE hk hg h0
  have hφ := measurable_selectNoise (ι := ι) (E.ids.erase k)
  refine ⟨fun u s => selectNoise _ (W u s), st, fun s => by simp only [hW.start, map_zero],
    fun s => ⟨fun u => W u s, hc s, fun u hu j i => ?_⟩, ?_⟩
  · simp only [hW.start]
    simp [selectNoise]
  · intro g hgm
    refine stepLaws_of_indep hW.reflect (reflectGrid_pairwise hg) (reflectGrid_start h0) hT (fun u => ?_) hφ
      fun t dt hdt => ?_
    · rw [mem_reflectGrid, hgm, mem_reflectGrid]
      refine and_congr_right fun _ => ?_
      simp only [Set.mem_Icc]
      constructor <;> rintro ⟨h1, h2⟩ <;> constructor <;> linarith
    · have hneg : -dt < 0 := by linarith
      rw [hN _ _ hneg.ne]
      congr 1
      funext j
      rw [hQ j _ _ hneg.ne hneg, neg_neg]

end

end Sdepy
