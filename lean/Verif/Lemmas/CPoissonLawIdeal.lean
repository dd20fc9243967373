import Verif.Lemmas.CPoissonLawInd
import Verif.Props.JumpLaw
import Mathlib.Probability.Independence.InfinitePi

/-!
# The ideal compound Poisson process, and laws read from sets of states
-/

set_option linter.unusedSectionVars false
set_option linter.unusedSimpArgs false

open MeasureTheory ProbabilityTheory

namespace Sdepy

open Spec

/-! ### Laws, from sets of states that cover almost all -/

section cover
variable {Ω σ E : Type} [MeasurableSpace Ω] [MeasurableSpace σ] [MeasurableSpace E] {μ : Measure σ}
  {π : Measure Ω} [IsProbabilityMeasure μ] [IsProbabilityMeasure π]

theorem ae_snd {W : Set (Ω × σ)} (hW : MeasurableSet W) (h1 : (π.prod μ) W = 1) :
    ∀ᵐ s ∂μ, ∀ᵐ w ∂π, (w, s) ∈ W := by
  have h2 : ∀ᵐ p ∂(μ.prod π), p.swap ∈ W := by
    have : (μ.prod π) (Prod.swap ⁻¹' W) = 1 := by
      rw [← Measure.map_apply measurable_swap hW, Measure.prod_swap, h1]
    exact mem_ae_iff_prob_eq_one (measurable_swap hW) |>.2 this
  exact Measure.ae_ae_of_ae_prod h2

theorem law_of_cover [MeasurableSpace.CountablyGenerated E] {κ : Measure E} [IsProbabilityMeasure κ]
    {V : σ → E} {G : σ → Prop}
    (h : ∀ A, MeasurableSet A → ∃ W : Set (Ω × σ), MeasurableSet W ∧ (π.prod μ) W = κ A ∧
      ∀ p ∈ W, G p.2 ∧ V p.2 ∈ A) :
    (∀ᵐ s ∂μ, G s) ∧ AEMeasurable V μ ∧ μ.map V = κ := by
  have hG : ∀ᵐ s ∂μ, G s := by
    obtain ⟨W, hW, h1, h2⟩ := h Set.univ MeasurableSet.univ
    rw [measure_univ] at h1
    filter_upwards [ae_snd hW h1] with s hs
    obtain ⟨w, hw⟩ := hs.exists
    exact (h2 _ hw).1
  have key : ∀ A, MeasurableSet A → NullMeasurableSet (V ⁻¹' A) μ ∧ μ (V ⁻¹' A) = κ A := by
    intro A hA
    obtain ⟨W, hW, h1, h2⟩ := h A hA
    obtain ⟨W', hW', h1', h2'⟩ := h Aᶜ hA.compl
    have hd : Disjoint W W' := by
      rw [Set.disjoint_left]
      exact fun p hp hp' => (h2' p hp').2 (h2 p hp).2
    have hu : (π.prod μ) (W ∪ W') = 1 := by
      rw [measure_union hd hW', h1, h1', measure_add_measure_compl hA, measure_univ]
    have hf : Measurable fun s => π ((fun w => (w, s)) ⁻¹' W) := measurable_measure_prodMk_right hW
    have hae : ∀ᵐ s ∂μ, π ((fun w => (w, s)) ⁻¹' W) = (V ⁻¹' A).indicator 1 s := by
      filter_upwards [ae_snd (hW.union hW') hu] with s hs
      by_cases hv : V s ∈ A
      · rw [Set.indicator_of_mem (show s ∈ V ⁻¹' A from hv), Pi.one_apply]
        have : ∀ᵐ w ∂π, (w, s) ∈ W := by
          filter_upwards [hs] with w hw
          exact hw.resolve_right fun hw' => (h2' _ hw').2 hv
        exact (mem_ae_iff_prob_eq_one (measurable_prodMk_right hW)).1 this
      · rw [Set.indicator_of_notMem (show s ∉ V ⁻¹' A from hv)]
        have : (fun w => (w, s)) ⁻¹' W = ∅ := by
          ext w
          simp only [Set.mem_preimage, Set.mem_empty_iff_false, iff_false]
          exact fun hw => hv (h2 _ hw).2
        rw [this, measure_empty]
    have hset : V ⁻¹' A =ᵐ[μ] {s | π ((fun w => (w, s)) ⁻¹' W) ≠ 0} := by
      filter_upwards [hae] with s hs
      apply propext
      change V s ∈ A ↔ π ((fun w => (w, s)) ⁻¹' W) ≠ 0
      rw [hs]
      by_cases hv : V s ∈ A
      · simp [Set.indicator, hv]
      · simp [Set.indicator, hv]
    have hm : MeasurableSet {s | π ((fun w => (w, s)) ⁻¹' W) ≠ 0} :=
      (hf (measurableSet_singleton 0)).compl
    have hnull : NullMeasurableSet (V ⁻¹' A) μ := ⟨_, hm, hset⟩
    refine ⟨hnull, ?_⟩
    rw [← h1, Measure.prod_apply_symm hW, lintegral_congr_ae hae, lintegral_indicator_one₀ hnull]
  have hV : AEMeasurable V μ := by
    have : NullMeasurable V μ := fun A hA => (key A hA).1
    exact this.aemeasurable
  refine ⟨hG, hV, ?_⟩
  ext A hA
  rw [Measure.map_apply_of_aemeasurable hV hA]
  exact (key A hA).2

/-- Processes given in the same way by values of the same law. -/
theorem levy_transfer {Ω' B : Type} [MeasurableSpace Ω'] [MeasurableSpace B] [AddCommGroup B]
    [MeasurableSub₂ B] {κ : Measure Ω'} [IsProbabilityMeasure κ] {V : σ → E} {F : Ω' → E}
    (hV : AEMeasurable V μ) (hF : Measurable F) (hVF : μ.map V = κ.map F)
    {law : ℝ → Measure B} {t0 : ℝ} {D : Set ℝ} {g : ℝ → E → B} (hg : ∀ u ∈ D, Measurable (g u))
    (h0 : ∀ e, g t0 e = 0)
    (h : IsLevyProcess κ law t0 D fun u w => g u (F w)) :
    IsLevyProcess μ law t0 D fun u s => g u (V s) := by
  have hmap : ∀ {C : Type} [MeasurableSpace C] (k : E → C), Measurable k →
      μ.map (fun s => k (V s)) = κ.map fun w => k (F w) := by
    intro C _ k hk
    have e1 : μ.map (fun s => k (V s)) = (μ.map V).map k :=
      (AEMeasurable.map_map_of_aemeasurable hk.aemeasurable hV).symm
    rw [e1, hVF, Measure.map_map hk hF]
    rfl
  refine ⟨fun s => h0 _, fun a ha b hb hab => ?_, fun n t ht hD => ?_⟩
  · have hk : Measurable fun e => g b e - g a e := (hg b hb).sub (hg a ha)
    refine ⟨hk.comp_aemeasurable hV, ?_⟩
    rw [hmap _ hk]
    exact (h.law a ha b hb hab).map_eq
  · have hk : ∀ k : Fin n, Measurable fun e => g (t k.succ) e - g (t k.castSucc) e := fun k =>
      (hg _ (hD _)).sub (hg _ (hD _))
    have hi := h.indep n t ht hD
    have hi := (iIndepFun_iff_map_fun_eq_pi_map (fun k => ((hk k).comp hF).aemeasurable)).1 hi
    refine (iIndepFun_iff_map_fun_eq_pi_map (fun k => (hk k).comp_aemeasurable hV)).2 ?_
    have e := hmap (fun e (k : Fin n) => g (t k.succ) e - g (t k.castSucc) e) (measurable_pi_lambda _ hk)
    refine (e.trans hi).trans ?_
    congr 1
    funext k
    exact (hmap _ (hk k)).symm

end cover

/-! ### Sums over blocks of independent variates -/

section blocks
variable {K : Type} (ν : Measure ℝ) [IsProbabilityMeasure ν]

theorem infinitePi_inj {n : ℕ} {e : Fin n → K} (he : Function.Injective e) :
    (Measure.infinitePi fun _ : K => ν).map (fun Y i => Y (e i)) = Measure.pi fun _ : Fin n => ν := by
  classical
  symm
  refine Measure.pi_eq fun S hS => ?_
  rw [Measure.map_apply (by fun_prop) (MeasurableSet.univ_pi hS)]
  let S' : K → Set ℝ := fun k => if h : ∃ i, e i = k then S h.choose else Set.univ
  have hS' : ∀ i, S' (e i) = S i := by
    intro i
    have h : ∃ i', e i' = e i := ⟨i, rfl⟩
    simp only [S', dif_pos h]
    rw [he h.choose_spec]
  have ee : (fun (Y : K → ℝ) (i : Fin n) => Y (e i)) ⁻¹' Set.univ.pi S =
      Set.pi (Finset.univ.image e) S' := by
    ext Y
    simp only [Set.mem_preimage, Set.mem_univ_pi, Set.mem_pi, Finset.coe_image, Finset.coe_univ,
      Set.image_univ, Set.mem_range, forall_exists_index, forall_apply_eq_imp_iff, hS', Set.mem_univ, true_imp_iff]
  rw [ee, Measure.infinitePi_pi _ (fun k _ => by simp only [S']; split_ifs <;> simp [hS _]),
    Finset.prod_image he.injOn]
  exact Finset.prod_congr rfl fun i _ => by rw [hS']

theorem block_law {n : ℕ} {e : Fin n → K} (he : Function.Injective e) :
    (Measure.infinitePi fun _ : K => ν).map (fun Y => ∑ i, Y (e i)) = sumLaw ν n := by
  unfold sumLaw
  rw [← infinitePi_inj ν he, Measure.map_map (by fun_prop) (by fun_prop)]
  rfl

theorem blocks_law [DecidableEq K] {C : Type} [Fintype C] [DecidableEq C] {n : C → ℕ}
    {e : ∀ j, Fin (n j) → K}
    (he : ∀ j i j' i', e j i = e j' i' → j = j' ∧ (i : ℕ) = i') :
    (Measure.infinitePi fun _ : K => ν).map (fun Y j => ∑ i, Y (e j i)) =
      Measure.pi fun j => sumLaw ν (n j) := by
  have hinj : ∀ j, Function.Injective (e j) := fun j i i' h => Fin.ext (he _ _ _ _ h).2
  have hf : iIndepFun (fun (k : K) (Y : K → ℝ) => Y k) (Measure.infinitePi fun _ : K => ν) :=
    iIndepFun_infinitePi (X := fun _ w => w) (by fun_prop)
  have h1 := iIndepFun_sums hf (fun k => by fun_prop) (S := fun j => Finset.univ.image (e j)) (by
    intro j j' hj
    rw [Finset.disjoint_left]
    intro k hk hk'
    obtain ⟨i, -, rfl⟩ := Finset.mem_image.1 hk
    obtain ⟨i', -, h⟩ := Finset.mem_image.1 hk'
    exact hj (he _ _ _ _ h).1.symm)
  simp only [Finset.sum_image (hinj _).injOn] at h1
  rw [iIndepFun_iff_map_fun_eq_pi_map (fun j => Measurable.aemeasurable (by fun_prop))] at h1
  rw [h1]
  congr 1
  funext j
  exact block_law ν (hinj j)

end blocks

/-! ### Laws of increments -/

theorem compoundPoisson_eq (lam h : ℝ) (ν : Measure ℝ) [IsProbabilityMeasure ν] :
    compoundPoisson (lam * h) ν = jumpDiffLaw 0 0 lam ν h := by
  rw [← step_law 0 0 lam ν 1 (.inl rfl)]
  simp only [one_mul, zero_mul, zero_add, mul_zero, sub_zero, ne_eq, OfNat.ofNat_ne_zero,
    not_false_eq_true, zero_pow, zero_div]
  have h1 : (compoundPoisson (lam * h) ν).map (fun x => x) = compoundPoisson (lam * h) ν := Measure.map_id
  rw [h1]
  exact (measurePreserving_fst (μ := compoundPoisson (lam * h) ν)
    (ν := gaussianReal 0 h.toNNReal)).map_eq.symm

theorem compoundPoisson_conv {ι : Type} [Fintype ι] {lam : ℝ} (hl : 0 ≤ lam) (ν : Measure ℝ)
    [IsProbabilityMeasure ν] (a b : ℝ) (ha : 0 < a) (hb : 0 < b) :
    (Measure.pi fun _ : ι => compoundPoisson (lam * a) ν).conv
      (Measure.pi fun _ : ι => compoundPoisson (lam * b) ν) =
      Measure.pi fun _ : ι => compoundPoisson (lam * (a + b)) ν := by
  rw [pi_conv]
  congr 1
  funext i
  rw [compoundPoisson_eq, compoundPoisson_eq, compoundPoisson_eq, jumpDiffLaw_conv _ _ _ _ hl ha hb]

/-! ### Probability of a path, by its steps -/

theorem pathProb_steps {ι : Type} [Fintype ι] (lam : ℝ) (x : ℝ → ι → ℤ) : ∀ (L : List ℝ),
    poissonPathProb lam x L = ∏ k ∈ Finset.range (L.length - 1), ∏ c,
      poissonProb (lam * (L.getD (k + 1) 0 - L.getD k 0)) (x (L.getD (k + 1) 0) c - x (L.getD k 0) c)
  | [] => by simp [poissonPathProb]
  | [a] => by simp [poissonPathProb]
  | a :: b :: l => by
    rw [poissonPathProb, pathProb_steps lam x (b :: l)]
    simp only [List.length_cons, Nat.add_sub_cancel]
    rw [Finset.prod_range_succ']
    simp only [List.getD_cons_succ, List.getD_cons_zero]
    rw [mul_comm]

end Sdepy
