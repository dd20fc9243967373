import Verif.Lemmas.JumpCells
import Verif.Lemmas.StrongLink
import Verif.Lemmas.Isonormal

/-!
# Existence of noise with independent increments
-/

open MeasureTheory ProbabilityTheory

namespace Sdepy

open Spec

/-- Compound Poisson processes. -/
theorem exists_jumps (t0 : ℝ) {T : ℝ} (hT : 0 < T) {l : ℝ} (hl : 0 ≤ l) (ν : Measure ℝ) [IsProbabilityMeasure ν] :
    ∃ (Ω : Type) (_ : MeasurableSpace Ω) (P : Measure Ω) (Z : ℝ → Ω → ℝ), IsProbabilityMeasure P ∧
      (∀ u, Measurable (Z u)) ∧ Increments P t0 (Set.Icc t0 (t0 + T)) (fun h => compoundPoisson (l * h) ν) Z := by
  haveI := jumpMarks_prob (t0 := t0) (ν := ν) hT
  refine ⟨ℕ × (ℕ → ℝ × ℝ), inferInstance, markLaw (l * T) (jumpMarks t0 T ν), fun u => markSum (jumpIn t0 u),
    inferInstance, fun u => measurable_markSum (measurable_jumpIn _ _),
    fun u _ => (measurable_markSum (measurable_jumpIn _ _)).aemeasurable, ?_, ?_⟩
  · intro s hs t ht h0 hst
    have e : (fun ω => markSum (jumpIn t0 t) ω - markSum (jumpIn t0 s) ω) = markSum (jumpIn s t) := by
      funext ω
      rw [markSum_sub]
      congr 1
      funext e
      exact jumpIn_sub h0 hst.le e
    rw [e]
    exact ⟨(measurable_markSum (measurable_jumpIn _ _)).aemeasurable, jumps_law hT hl h0 hst.le ht.2⟩
  · intro s hs t ht h0 hst
    have e : (fun ω => markSum (jumpIn t0 t) ω - markSum (jumpIn t0 s) ω) = markSum (jumpIn s t) := by
      funext ω
      rw [markSum_sub]
      congr 1
      funext e
      exact jumpIn_sub h0 hst e
    rw [e]
    refine IndepFun.process_indepFun (X := fun (u : {u : ℝ // u ∈ Set.Icc t0 (t0 + T) ∧ u ≤ s}) ω =>
      markSum (jumpIn t0 u) ω) (fun u => measurable_markSum (measurable_jumpIn _ _))
      (measurable_markSum (measurable_jumpIn _ _)) fun I => ?_
    refine marks_indep (mul_nonneg hl hT.le) (g := fun e (u : I) => jumpIn t0 u e)
      (measurable_pi_lambda _ fun u => measurable_jumpIn _ _) (measurable_jumpIn _ _) fun e => ?_
    by_cases h : s < e.1
    · left
      funext u
      simp only [jumpIn, Pi.zero_apply]
      exact if_neg fun h' => absurd (h'.2.trans u.1.2.2) (not_le.2 h)
    · right
      exact if_neg fun h' => h h'.1

/-- Independence on products. -/
theorem indep_product {C : Type} [Fintype C] {Ω α β : C → Type} [∀ c, MeasurableSpace (Ω c)]
    [∀ c, MeasurableSpace (α c)] [∀ c, MeasurableSpace (β c)] {P : ∀ c, Measure (Ω c)}
    [∀ c, IsProbabilityMeasure (P c)] {X : ∀ c, Ω c → α c} {Y : ∀ c, Ω c → β c} (hX : ∀ c, Measurable (X c))
    (hY : ∀ c, Measurable (Y c)) (h : ∀ c, IndepFun (X c) (Y c) (P c)) :
    IndepFun (fun (ω : ∀ c, Ω c) c => X c (ω c)) (fun ω c => Y c (ω c)) (Measure.pi P) := by
  have hXm : Measurable fun (ω : ∀ c, Ω c) c => X c (ω c) :=
    measurable_pi_lambda _ fun c => (hX c).comp (measurable_pi_apply c)
  have hYm : Measurable fun (ω : ∀ c, Ω c) c => Y c (ω c) :=
    measurable_pi_lambda _ fun c => (hY c).comp (measurable_pi_apply c)
  have key : ∀ {γ : C → Type} [∀ c, MeasurableSpace (γ c)] (Z : ∀ c, Ω c → γ c),
      MeasurableSpace.comap (fun (ω : ∀ c, Ω c) c => Z c (ω c)) MeasurableSpace.pi =
        MeasurableSpace.generateFrom ((fun B => (fun (ω : ∀ c, Ω c) c => Z c (ω c)) ⁻¹' B) ''
          (Set.univ.pi '' Set.univ.pi fun c => {s : Set (γ c) | MeasurableSet s})) := by
    intro γ _ Z
    rw [← generateFrom_pi, MeasurableSpace.comap_generateFrom]
  have hpi : ∀ {γ : C → Type} [∀ c, MeasurableSpace (γ c)] (Z : ∀ c, Ω c → γ c),
      IsPiSystem ((fun B => (fun (ω : ∀ c, Ω c) c => Z c (ω c)) ⁻¹' B) ''
          (Set.univ.pi '' Set.univ.pi fun c => {s : Set (γ c) | MeasurableSet s})) := by
    intro γ _ Z
    have := IsPiSystem.comap (isPiSystem_pi (α := γ)) fun (ω : ∀ c, Ω c) c => Z c (ω c)
    refine (this : IsPiSystem _)
  rw [IndepFun_iff_Indep]
  refine IndepSets.indep hXm.comap_le hYm.comap_le (hpi X) (hpi Y) (key X) (key Y) ?_
  rw [IndepSets_iff]
  rintro _ _ ⟨_, ⟨s, hs, rfl⟩, rfl⟩ ⟨_, ⟨t, ht, rfl⟩, rfl⟩
  have e1 : (fun (ω : ∀ c, Ω c) c => X c (ω c)) ⁻¹' Set.univ.pi s = Set.univ.pi fun c => X c ⁻¹' s c := rfl
  have e2 : (fun (ω : ∀ c, Ω c) c => Y c (ω c)) ⁻¹' Set.univ.pi t = Set.univ.pi fun c => Y c ⁻¹' t c := rfl
  simp only
  rw [e1, e2, ← Set.pi_inter_distrib, Measure.pi_pi, Measure.pi_pi, Measure.pi_pi, ← Finset.prod_mul_distrib]
  refine Finset.prod_congr rfl fun c _ => ?_
  exact (h c).measure_inter_preimage_eq_mul _ _ (hs c trivial) (ht c trivial)

/-- Independent processes with independent increments, taken together. -/
theorem exists_product {C A : Type} [Fintype C] [MeasurableSpace A] [AddGroup A] [MeasurableSub₂ A]
    {t0 : ℝ} {D : Set ℝ} {law : C → ℝ → Measure A}
    (h : ∀ c, ∃ (Ω : Type) (_ : MeasurableSpace Ω) (P : Measure Ω) (Z : ℝ → Ω → A), IsProbabilityMeasure P ∧
      (∀ u, Measurable (Z u)) ∧ Increments P t0 D (law c) Z) :
    ∃ (Ω : Type) (_ : MeasurableSpace Ω) (P : Measure Ω) (Z : ℝ → Ω → C → A), IsProbabilityMeasure P ∧
      (∀ u, Measurable (Z u)) ∧ Increments P t0 D (fun h => Measure.pi fun c => law c h) Z := by
  choose Ω mΩ P Z hP hm hI using h
  have hZm : ∀ u, Measurable fun (ω : ∀ c, Ω c) c => Z c u (ω c) := fun u =>
    measurable_pi_lambda _ fun c => (hm c u).comp (measurable_pi_apply c)
  refine ⟨∀ c, Ω c, inferInstance, Measure.pi P, fun u ω c => Z c u (ω c), inferInstance, hZm,
    fun u _ => (hZm u).aemeasurable, ?_, ?_⟩
  · intro s hs t ht h0 hst
    refine ⟨((hZm t).sub (hZm s)).aemeasurable, ?_⟩
    have e : (fun (ω : ∀ c, Ω c) => (fun c => Z c t (ω c)) - fun c => Z c s (ω c)) =
        fun ω c => (fun w => Z c t w - Z c s w) (ω c) := rfl
    have hpr : ∀ c, SigmaFinite ((P c).map fun w => Z c t w - Z c s w) := fun c =>
      haveI := Measure.isProbabilityMeasure_map (μ := P c) ((hm c t).sub (hm c s)).aemeasurable
      inferInstance
    have e2 := Measure.pi_map_pi (μ := P) (f := fun c w => Z c t w - Z c s w)
      (fun c => ((hm c t).sub (hm c s)).aemeasurable)
    rw [e]
    refine e2.trans ?_
    congr 1
    funext c
    exact ((hI c).law s hs t ht h0 hst).map_eq
  · intro s hs t ht h0 hst
    have := indep_product (P := P) (X := fun c w (u : {u : ℝ // u ∈ D ∧ u ≤ s}) => Z c u w)
      (Y := fun c w => Z c t w - Z c s w) (fun c => measurable_pi_lambda _ fun u => hm c u)
      (fun c => (hm c t).sub (hm c s)) fun c => (hI c).indep s hs t ht h0 hst
    exact this.comp (φ := fun f u c => f c u) (ψ := id)
      (measurable_pi_lambda _ fun u => measurable_pi_lambda _ fun c =>
        (measurable_pi_apply u).comp (measurable_pi_apply c)) measurable_id

/-- Noise from sources that are independent of one another. -/
theorem noises_of_increments {Ω J ι : Type} [MeasurableSpace Ω] [Fintype J] [Fintype ι] {P : Measure Ω}
    [IsProbabilityMeasure P] {t0 : ℝ} {D : Set ℝ} {law : J → ℝ → Measure (ι → ℝ)} {m v : J → ℝ}
    (hl : ∀ j h, 0 < h → IsProbabilityMeasure (law j h)) (hmo : ∀ j, HasMoments (law j) (m j) (v j))
    {Z : ℝ → Ω → J → ι → ℝ} (hZ : Increments P t0 D (fun h => Measure.pi fun j => law j h) Z) :
    Noises P t0 D m v fun u ω c => Z u ω c.1 c.2 := by
  have hlaw : ∀ s ∈ D, ∀ t ∈ D, t0 ≤ s → s < t → ∀ j, HasLaw (fun ω => Z t ω j - Z s ω j) (law j (t - s)) P := by
    intro s hs t ht h0 hst j
    have hp := fun j => hl j (t - s) (sub_pos.2 hst)
    have h := hZ.law s hs t ht h0 hst
    have h2 : HasLaw (fun x : J → ι → ℝ => x j) (law j (t - s)) (Measure.pi fun j => law j (t - s)) :=
      ⟨(measurable_pi_apply j).aemeasurable, (measurePreserving_eval (fun j => law j (t - s)) j).map_eq⟩
    exact h2.comp h
  refine ⟨fun u hu => ?_, fun s hs t ht h0 hst c => ?_, fun s hs t ht h0 hst j i => ?_,
    fun s hs t ht h0 hst j i => ?_, fun s hs t ht h0 hst => ?_⟩
  · exact aemeasurable_pi_lambda _ fun c => (measurable_pi_apply c.2).comp_aemeasurable
      ((measurable_pi_apply c.1).comp_aemeasurable (hZ.meas u hu))
  · rcases hst.eq_or_lt with rfl | hlt
    · simp
    · have h := hlaw s hs t ht h0 hlt c.1
      have h1 := (hmo c.1 _ (sub_pos.2 hlt) c.2).1
      rw [← h.map_eq] at h1
      exact (memLp_map_measure_iff h1.aestronglyMeasurable h.aemeasurable).1 h1
  · rcases hst.eq_or_lt with rfl | hlt
    · simp
    · have h := hlaw s hs t ht h0 hlt j
      rw [← (hmo j _ (sub_pos.2 hlt) i).2.1]
      exact h.integral_comp (f := fun x : ι → ℝ => x i) (measurable_pi_apply i).aestronglyMeasurable
  · rcases hst.eq_or_lt with rfl | hlt
    · simp
    · have h := hlaw s hs t ht h0 hlt j
      rw [← (hmo j _ (sub_pos.2 hlt) i).2.2]
      exact h.integral_comp (f := fun x : ι → ℝ => (x i - m j * (t - s)) ^ 2)
        (Measurable.aestronglyMeasurable (by fun_prop))
  · refine (hZ.indep s hs t ht h0 hst).comp (φ := fun f (p : {u : ℝ // u ∈ D ∧ u ≤ s} × (J × ι)) => f p.1 p.2.1 p.2.2)
      (ψ := fun f (c : J × ι) => f c.1 c.2) (by fun_prop) (by fun_prop)

theorem integral_eval {ι : Type} [Fintype ι] (ν : Measure ℝ) [IsProbabilityMeasure ν] {f : ℝ → ℝ} (hf : Measurable f)
    (i : ι) : ∫ x : ι → ℝ, f (x i) ∂(Measure.pi fun _ : ι => ν) = ∫ y, f y ∂ν := by
  have he := measurePreserving_eval (fun _ : ι => ν) i
  have h := integral_map (φ := Function.eval i) (μ := Measure.pi fun _ : ι => ν) (f := f)
    (measurable_pi_apply i).aemeasurable hf.aestronglyMeasurable
  rw [he.map_eq] at h
  exact h.symm

/-- Jumps, for all cells. -/
theorem jumps_moments {ι : Type} [Fintype ι] {l : ℝ} (hl : 0 ≤ l) {ν : Measure ℝ} [IsProbabilityMeasure ν]
    (h2 : MemLp id 2 ν) :
    HasMoments (fun h => Measure.pi fun _ : ι => compoundPoisson (l * h) ν) (l * ∫ x, x ∂ν) (l * ∫ x, x ^ 2 ∂ν) := by
  intro h hh i
  haveI : IsProbabilityMeasure (compoundPoisson (l * h) ν) :=
    Measure.isProbabilityMeasure_map measurable_sumTo.aemeasurable
  obtain ⟨m1, m2, m3⟩ := compound_moments (m := l * h) (mul_nonneg hl hh.le) h2
  have he := measurePreserving_eval (fun _ : ι => compoundPoisson (l * h) ν) i
  have e : l * (∫ x, x ∂ν) * h = l * h * ∫ x, x ∂ν := by ring
  refine ⟨m1.comp_measurePreserving he, ?_, ?_⟩
  · rw [e, ← m2]
    exact integral_eval _ measurable_id i
  · rw [e, show l * (∫ x, x ^ 2 ∂ν) * h = l * h * ∫ x, x ^ 2 ∂ν by ring, ← m3]
    exact integral_eval _ (f := fun y => (y - l * h * ∫ x, x ∂ν) ^ 2) (by fun_prop) i

/-- A Wiener process, for all cells. -/
theorem wiener_moments {ι : Type} [Fintype ι] :
    HasMoments (fun h => Measure.pi fun _ : ι => gaussianReal 0 h.toNNReal) 0 1 := by
  intro h hh i
  have he := measurePreserving_eval (fun _ : ι => gaussianReal 0 h.toNNReal) i
  have hm : MemLp id 2 (gaussianReal 0 h.toNNReal) := memLp_id_gaussianReal 2
  refine ⟨hm.comp_measurePreserving he, ?_, ?_⟩
  · rw [zero_mul]
    exact (integral_eval (gaussianReal 0 h.toNNReal) measurable_id i).trans integral_id_gaussianReal
  · have h1 := variance_of_integral_eq_zero (X := id) (μ := gaussianReal 0 h.toNNReal) aemeasurable_id
      (by simp)
    rw [variance_id_gaussianReal, Real.coe_toNNReal h hh.le] at h1
    simp only [one_mul, zero_mul, sub_zero]
    exact (integral_eval (gaussianReal 0 h.toNNReal) (f := fun y => y ^ 2) (by fun_prop) i).trans h1.symm

/-- A Wiener process, in a single cell. -/
theorem exists_wiener_cell (t0 : ℝ) (D : Set ℝ) :
    ∃ (Ω : Type) (_ : MeasurableSpace Ω) (P : Measure Ω) (Z : ℝ → Ω → ℝ), IsProbabilityMeasure P ∧
      (∀ u, Measurable (Z u)) ∧ Increments P t0 D (fun h => gaussianReal 0 h.toNNReal) Z := by
  obtain ⟨Ω, mΩ, P, W, hP, hW⟩ := exists_wiener (ι := Unit) (κ := Unit) (C := 1) Matrix.PosSemidef.one t0 0
  have hm : ∀ u, AEMeasurable (fun ω => W u ω () ()) P := fun u => (hW.hasGaussianLaw (Set.mem_univ u) () ()).aemeasurable
  refine ⟨Ω, mΩ, P, fun u => (hm u).mk, hP, fun u => (hm u).measurable_mk,
    fun u _ => (hm u).measurable_mk.aemeasurable, ?_, ?_⟩
  · intro s _ t _ h0 hst
    have h := hW.increment (Set.mem_univ s) (Set.mem_univ t) hst.le () ()
    simp only [Matrix.smul_apply, Matrix.one_apply_eq, smul_eq_mul, mul_one] at h
    refine h.congr ?_
    filter_upwards [(hm s).ae_eq_mk, (hm t).ae_eq_mk] with ω h1 h2
    rw [h1, h2]
  · intro s _ t _ h0 hst
    have h := hW.indep (Set.mem_univ s) (Set.mem_univ t) h0 hst
    have h' : IndepFun (fun ω (u : {u : ℝ // u ∈ D ∧ u ≤ s}) => W u ω () ()) (fun ω => W t ω () () - W s ω () ()) P :=
      h.comp (φ := fun (f : {u : ℝ // u ∈ Set.univ ∧ u ≤ s} × (Unit × Unit) → ℝ)
          (u : {u : ℝ // u ∈ D ∧ u ≤ s}) => f (⟨u.1, trivial, u.2.2⟩, ((), ())))
        (ψ := fun f : Unit × Unit → ℝ => f ((), ())) (by fun_prop) (by fun_prop)
    have h2 : (fun ω => W t ω () () - W s ω () ()) =ᵐ[P] fun ω => (hm t).mk _ ω - (hm s).mk _ ω := by
      filter_upwards [(hm s).ae_eq_mk, (hm t).ae_eq_mk] with ω h1 h2
      rw [h1, h2]
    refine IndepFun.process_indepFun (X := fun (u : {u : ℝ // u ∈ D ∧ u ≤ s}) ω => (hm u).mk _ ω)
      (fun u => (hm u).measurable_mk) ((hm t).measurable_mk.sub (hm s).measurable_mk) fun I => ?_
    have h3 : IndepFun (fun ω (u : I) => W u ω () ()) (fun ω => W t ω () () - W s ω () ()) P :=
      h'.comp (φ := fun (f : {u : ℝ // u ∈ D ∧ u ≤ s} → ℝ) (u : I) => f u.1) (ψ := id) (by fun_prop) measurable_id
    refine h3.congr ?_ h2
    have : ∀ᵐ ω ∂P, ∀ u : I, W u ω () () = (hm u).mk _ ω := ae_all_iff.2 fun u => (hm u).ae_eq_mk
    filter_upwards [this] with ω h
    funext u
    exact h u

end Sdepy
