import Verif.Spec.StrongNLaw
import Verif.Lemmas.StrongN
import Verif.Lemmas.Levy
import Mathlib.Probability.IdentDistribIndep

/-!
# Joint laws of the noise realised by all sources
-/

set_option linter.unusedSectionVars false

open MeasureTheory ProbabilityTheory

namespace Sdepy

open Spec

/-! ### One step -/

section
variable {σ X : Type} [MeasurableSpace σ] [MeasurableSpace X] [Zero X] {μ : Measure σ} [IsProbabilityMeasure μ]

instance {p : Prop} [Decidable p] (ν : Measure X) [IsProbabilityMeasure ν] :
    IsProbabilityMeasure (if p then ν else Measure.dirac 0) := by
  split_ifs <;> infer_instance

/-- Replacing one of many independent values. -/
theorem update_law {N : ℕ → Measure X} [∀ k, IsProbabilityMeasure (N k)] (id : ℕ) (ν : Measure X)
    [IsProbabilityMeasure ν] :
    (ν.prod (Measure.infinitePi N)).map (fun p => Function.update p.2 id p.1) =
      Measure.infinitePi (fun k => if k = id then ν else N k) := by
  have hi : ∀ k, IsProbabilityMeasure (if k = id then ν else N k) := fun k => by split_ifs <;> infer_instance
  refine Measure.eq_infinitePi _ fun s t ht => ?_
  have hm : Measurable fun p : X × (ℕ → X) => Function.update p.2 id p.1 := by
    refine measurable_pi_lambda _ fun k => ?_
    by_cases h : k = id
    · subst h
      simp only [Function.update_self]
      exact measurable_fst
    · simp only [Function.update_of_ne h]
      exact (measurable_pi_apply k).comp measurable_snd
  rw [Measure.map_apply hm (MeasurableSet.pi s.countable_toSet fun i _ => ht i)]
  have e : (fun p : X × (ℕ → X) => Function.update p.2 id p.1) ⁻¹' (Set.pi s t) =
      (if id ∈ s then t id else Set.univ) ×ˢ (Set.pi (s.erase id : Finset ℕ) t) := by
    ext ⟨v, f⟩
    simp only [Set.mem_preimage, Set.mem_pi, Finset.mem_coe, Set.mem_prod, Finset.mem_erase]
    constructor
    · intro h
      refine ⟨?_, fun k hk => ?_⟩
      · split_ifs with hs
        · simpa using h id hs
        · trivial
      · simpa [Function.update_of_ne hk.1] using h k hk.2
    · rintro ⟨h1, h2⟩ k hk
      by_cases h : k = id
      · subst h
        rw [if_pos hk] at h1
        simpa using h1
      · rw [Function.update_of_ne h]
        exact h2 k ⟨h, hk⟩
  rw [e, Measure.prod_prod, Measure.infinitePi_pi _ fun i _ => ht i]
  by_cases hs : id ∈ s
  · rw [if_pos hs, ← Finset.mul_prod_erase s _ hs, if_pos rfl]
    congr 1
    refine Finset.prod_congr rfl fun k hk => ?_
    rw [if_neg (Finset.ne_of_mem_erase hk)]
  · rw [if_neg hs, measure_univ, one_mul, Finset.erase_eq_of_notMem hs]
    refine Finset.prod_congr rfl fun k hk => ?_
    rw [if_neg (by rintro rfl; exact hs hk)]

/-- Sources realised one after the other are independent. -/
theorem realise_draws {z : ℕ → ℝ → ℝ → σ → Py (X × σ)} {t dt : ℝ} {N : ℕ → Measure X} [∀ k, IsProbabilityMeasure (N k)] :
    ∀ l : List ℕ, (∀ id ∈ l, DrawsLaw μ (N id) (z id t dt)) →
      DrawsLaw μ (Measure.infinitePi fun k => if k ∈ l then N k else Measure.dirac 0) (realise z t dt l) := by
  intro l
  induction l with
  | nil =>
    intro _
    refine ⟨fun s => (fun _ => 0, s), by fun_prop, fun _ => rfl, ?_⟩
    have e : (Measure.infinitePi fun k : ℕ => if k ∈ ([] : List ℕ) then N k else Measure.dirac (0 : X)) =
        Measure.dirac fun _ => 0 := by
      symm
      refine Measure.eq_infinitePi _ fun s t ht => ?_
      rw [Measure.dirac_apply' _ (MeasurableSet.pi s.countable_toSet fun i _ => ht i)]
      simp only [List.not_mem_nil, if_false]
      simp only [Measure.dirac_apply' _ (ht _)]
      by_cases h : (fun _ => (0 : X)) ∈ Set.pi (s : Set ℕ) t
      · rw [Set.indicator_of_mem h]
        symm
        exact Finset.prod_eq_one fun k hk => Set.indicator_of_mem (h k hk) _
      · rw [Set.indicator_of_notMem h]
        simp only [Set.mem_pi, Finset.mem_coe, not_forall] at h
        obtain ⟨k, hk, hn⟩ := h
        exact (Finset.prod_eq_zero hk (Set.indicator_of_notMem hn _)).symm
    rw [e, Measure.dirac_prod]
  | cons id l ih =>
    intro h
    have h1 := (h id (by simp)).pair (ih fun k hk => h k (by simp [hk]))
    have hm : Measurable fun p : X × (ℕ → X) => Function.update p.2 id p.1 := by
      refine measurable_pi_lambda _ fun k => ?_
      by_cases hk : k = id
      · subst hk
        simp only [Function.update_self]
        exact measurable_fst
      · simp only [Function.update_of_ne hk]
        exact (measurable_pi_apply k).comp measurable_snd
    have h2 := h1.map hm
    have := (h id (by simp)).isProb
    rw [update_law] at h2
    have e : (fun k => if k ∈ id :: l then N k else Measure.dirac (0 : X)) =
        fun k => if k = id then N id else if k ∈ l then N k else Measure.dirac 0 := by
      funext k
      by_cases hk : k = id
      · simp [hk]
      · simp [hk]
    rw [e]
    have e' : realise z t dt (id :: l) = fun s => ((z id t dt s >>= fun r => (realise z t dt l r.2).map fun r' =>
        ((r.1, r'.1), r'.2)) : Py _).map fun r => (Function.update r.1.2 id r.1.1, r.2) := by
      funext s
      simp only [realise, bind, Except.bind, pure, Except.pure]
      cases z id t dt s with
      | error e => rfl
      | ok r =>
        simp only
        cases realise z t dt l r.2 with
        | error e => rfl
        | ok r' => rfl
    rw [e']
    exact h2

end

/-! ### Steps along a grid -/

/-- Along a grid, each step of `Z` from `t0` on is independent of what happened before, and has a given law. -/
structure StepLaws {Ω A : Type} [MeasurableSpace Ω] [MeasurableSpace A] [Sub A] (P : Measure Ω) (t0 : ℝ) (g : List ℝ)
    (law : ℝ → Measure A) (Z : ℝ → Ω → A) : Prop where
  law : ∀ s t, StepOf g t0 s t → t0 ≤ s → s < t → HasLaw (fun ω => Z t ω - Z s ω) (law (t - s)) P
  indep : ∀ s t, StepOf g t0 s t → t0 ≤ s → s < t →
    IndepFun (fun ω (u : {u : ℝ // u ∈ g ∧ u ≤ s}) => Z u ω - Z t0 ω) (fun ω => Z t ω - Z s ω) P

section
variable {Ω Ω' A E : Type} [MeasurableSpace Ω] [MeasurableSpace Ω'] [MeasurableSpace A] [AddCommGroup A]
  [MeasurableAdd₂ A] [MeasurableSub₂ A] {P : Measure Ω} {P' : Measure Ω'} [IsProbabilityMeasure P]
  [IsProbabilityMeasure P'] {t0 : ℝ} {g : List ℝ} {law : ℝ → Measure A}

theorem stepLaws_of_increments {D : Set ℝ} {Z : ℝ → Ω → A} (h : Increments P t0 D law Z) (h0 : t0 ∈ g)
    (hD : ∀ u ∈ g, u ∈ D) : StepLaws P t0 g law Z := by
  refine ⟨fun s t hst h0s hs => h.law s (hD s hst.1) t (hD t hst.2.1) h0s hs, fun s t hst h0s hs => ?_⟩
  have hi := h.indep s (hD s hst.1) t (hD t hst.2.1) h0s hs.le
  exact hi.comp (φ := fun (f : {u : ℝ // u ∈ D ∧ u ≤ s} → A) (u : {u : ℝ // u ∈ g ∧ u ≤ s}) =>
    f ⟨u.1, hD u.1 u.2.1, u.2.2⟩ - f ⟨t0, hD t0 h0, h0s⟩) (ψ := id)
    (measurable_pi_lambda _ fun u => (measurable_pi_apply _).sub (measurable_pi_apply _)) measurable_id

/-- Steps determine the joint law of the values. -/
theorem stepLaws_law {Z : ℝ → Ω → A} {Z' : ℝ → Ω' → A} (hZ : StepLaws P t0 g law Z) (hZ' : StepLaws P' t0 g law Z')
    (hg : g.Pairwise (· < ·)) (h0 : t0 ∈ g) (hle : ∀ u ∈ g, t0 ≤ u) :
    IdentDistrib (fun ω (u : {u : ℝ // u ∈ g}) => Z u ω - Z t0 ω) (fun ω (u : {u : ℝ // u ∈ g}) => Z' u ω - Z' t0 ω)
      P P' := by
  have key : ∀ t ∈ g, t0 ≤ t → IdentDistrib (fun ω (u : {u : ℝ // u ∈ g ∧ u ≤ t}) => Z u ω - Z t0 ω)
      (fun ω (u : {u : ℝ // u ∈ g ∧ u ≤ t}) => Z' u ω - Z' t0 ω) P P' := by
    refine grid_induction hg h0 (Q := fun t => IdentDistrib (fun ω (u : {u : ℝ // u ∈ g ∧ u ≤ t}) => Z u ω - Z t0 ω)
      (fun ω (u : {u : ℝ // u ∈ g ∧ u ≤ t}) => Z' u ω - Z' t0 ω) P P') ?_ ?_
    · have e : ∀ u : {u : ℝ // u ∈ g ∧ u ≤ t0}, u.1 = t0 := fun u => le_antisymm u.2.2 (hle _ u.2.1)
      simp only [e, sub_self]
      exact ⟨aemeasurable_const, aemeasurable_const, by simp⟩
    · intro s t hst h0s hs ih
      classical
      have hl : IdentDistrib (fun ω => Z t ω - Z s ω) (fun ω => Z' t ω - Z' s ω) P P' := by
        have h1 := hZ.law s t hst h0s hs
        have h2 := hZ'.law s t hst h0s hs
        exact ⟨h1.aemeasurable, h2.aemeasurable, h1.map_eq.trans h2.map_eq.symm⟩
      have hpair := ih.prodMk hl (hZ.indep s t hst h0s hs) (hZ'.indep s t hst h0s hs)
      have hu : ∀ u ∈ g, u ≤ t → ¬ u ≤ s → u = t := by
        intro u hu1 hu2 hu3
        rcases hst with ⟨-, -, ⟨-, -, h⟩ | ⟨-, h, -⟩⟩
        · by_contra hne
          exact h u hu1 ⟨lt_of_not_ge hu3, lt_of_le_of_ne hu2 hne⟩
        · exact absurd h (not_lt.2 hs.le)
      let φ : ({u : ℝ // u ∈ g ∧ u ≤ s} → A) × A → {u : ℝ // u ∈ g ∧ u ≤ t} → A := fun p u =>
        if h : u.1 ≤ s then p.1 ⟨u.1, u.2.1, h⟩ else p.1 ⟨s, hst.1, le_rfl⟩ + p.2
      have hφ : Measurable φ := by
        refine measurable_pi_lambda _ fun u => ?_
        by_cases h : u.1 ≤ s
        · simp only [φ, dif_pos h]
          exact (measurable_pi_apply _).comp measurable_fst
        · simp only [φ, dif_neg h]
          exact ((measurable_pi_apply _).comp measurable_fst).add measurable_snd
      have e : ∀ {Ω'' : Type} (Y : ℝ → Ω'' → A), (fun ω (u : {u : ℝ // u ∈ g ∧ u ≤ t}) => Y u ω - Y t0 ω) =
          φ ∘ fun ω => (fun u : {u : ℝ // u ∈ g ∧ u ≤ s} => Y u ω - Y t0 ω, Y t ω - Y s ω) := by
        intro Ω'' Y
        funext ω u
        simp only [φ, Function.comp_apply]
        split_ifs with h
        · rfl
        · rw [hu u.1 u.2.1 u.2.2 h]
          abel
      rw [e Z, e Z']
      exact hpair.comp hφ
  obtain ⟨m, hm, hmax⟩ : ∃ m ∈ g, ∀ u ∈ g, u ≤ m := by
    obtain ⟨m, hm⟩ := (g.toFinset).exists_maximal ⟨t0, by simpa using h0⟩
    refine ⟨m, by simpa using hm.1, fun u hu => ?_⟩
    by_contra h
    exact h (hm.2 (by simpa using hu) (le_of_not_ge h))
  exact (key m hm (hle m hm)).comp (u := fun (f : {u : ℝ // u ∈ g ∧ u ≤ m} → A) (u : {u : ℝ // u ∈ g}) =>
    f ⟨u.1, u.2, hmax u.1 u.2⟩) (measurable_pi_lambda _ fun u => measurable_pi_apply _)

variable [MeasurableSpace E] [AddCommGroup E] [MeasurableAdd₂ E] [MeasurableSub₂ E]

/-- Steps drawn independently. -/
theorem stepLaws_of_indep {N : ℝ → ℝ → Measure E} {grid : List ℝ} {W : ℝ → Ω → E} (h : IndepSteps P N t0 grid W)
    (hgr : grid.Pairwise (· < ·)) (h0 : t0 ∈ grid) {T : ℝ} (hT : 0 ≤ T)
    (hg : ∀ u, u ∈ g ↔ u ∈ grid ∧ u ∈ Set.Icc t0 (t0 + T)) {φ : E →+ A} (hφ : Measurable φ)
    (hN : ∀ t dt, 0 < dt → (N t dt).map φ = law dt) : StepLaws P t0 g law fun u ω => φ (W u ω) := by
  have hget : ∀ p (hp : p < grid.length), grid.getD p 0 = grid[p] := by
    intro p hp
    simp [List.getD_eq_getElem?_getD, hp]
  -- consecutive points
  have hstep : ∀ s t, StepOf g t0 s t → t0 ≤ s → s < t →
      ∃ p, p + 1 < grid.length ∧ grid.getD p 0 = s ∧ grid.getD (p + 1) 0 = t := by
    rintro s t ⟨hs, ht, h⟩ h0s hst
    have hn : ∀ c ∈ g, ¬ (s < c ∧ c < t) := by
      rcases h with ⟨-, -, h⟩ | ⟨-, h, -⟩
      · exact h
      · exact absurd h (not_lt.2 hst.le)
    obtain ⟨p, hp, ep⟩ := List.getElem_of_mem ((hg s).1 hs).1
    obtain ⟨q, hq, eq⟩ := List.getElem_of_mem ((hg t).1 ht).1
    have hpq : p < q := by
      by_contra hle
      rcases (not_lt.1 hle).eq_or_lt with rfl | hlt
      · rw [ep] at eq; exact absurd eq hst.ne
      · have := List.pairwise_iff_getElem.1 hgr q p hq hp hlt
        rw [ep, eq] at this
        linarith
    have hq1 : q = p + 1 := by
      by_contra hne
      have hlt : p + 1 < q := by omega
      have h1 := List.pairwise_iff_getElem.1 hgr p (p + 1) hp (by omega) (by omega)
      have h2 := List.pairwise_iff_getElem.1 hgr (p + 1) q (by omega) hq hlt
      rw [ep] at h1
      rw [eq] at h2
      refine hn _ ((hg _).2 ⟨List.getElem_mem (by omega), ?_, ?_⟩) ⟨h1, h2⟩
      · linarith
      · exact h2.le.trans ((hg t).1 ht).2.2
    subst hq1
    exact ⟨p, hq, by rw [hget p hp, ep], by rw [hget _ hq, eq]⟩
  obtain ⟨m, hm, em⟩ := List.getElem_of_mem h0
  -- values as sums of steps
  have hsum : ∀ q, m ≤ q → q < grid.length → ∀ ω, W (grid.getD q 0) ω - W t0 ω =
      ∑ k ∈ Finset.Ico m q, (W (grid.getD (k + 1) 0) ω - W (grid.getD k 0) ω) := by
    intro q hq hql ω
    rw [Finset.sum_Ico_sub (fun k => W (grid.getD k 0) ω) hq, hget m hm, em]
  refine ⟨fun s t hst h0s hs => ?_, fun s t hst h0s hs => ?_⟩
  · obtain ⟨p, hp, rfl, rfl⟩ := hstep s t hst h0s hs
    rcases h.law p (by omega) with ⟨-, hl⟩ | ⟨hle, -⟩
    · rw [← hN (grid.getD p 0) _ (sub_pos.2 hs)]
      have := (HasLaw.mk hφ.aemeasurable rfl : HasLaw φ _ _).comp hl
      simpa only [Function.comp_def, map_sub] using this
    · exact absurd hle (not_le.2 (lt_of_le_of_lt h0s hs))
  · obtain ⟨p, hp, rfl, rfl⟩ := hstep s t hst h0s hs
    have hmeas : ∀ k : Fin (grid.length - 1), Measurable fun ω => W (grid.getD (k + 1) 0) ω - W (grid.getD k 0) ω :=
      fun k => (h.meas _).sub (h.meas _)
    have hi := h.indep.indepFun_finset (Finset.univ.filter fun k : Fin (grid.length - 1) => k.1 < p)
      {⟨p, by omega⟩} (by simp) hmeas
    have hq : ∀ u : {u : ℝ // u ∈ g ∧ u ≤ grid.getD p 0}, ∃ q, m ≤ q ∧ q ≤ p ∧ grid.getD q 0 = u.1 := by
      intro u
      have hu := (hg u.1).1 u.2.1
      obtain ⟨q, hq, eq⟩ := List.getElem_of_mem hu.1
      refine ⟨q, ?_, ?_, by rw [hget q hq, eq]⟩
      · by_contra hlt
        have := List.pairwise_iff_getElem.1 hgr q m hq hm (by omega)
        rw [em, eq] at this
        exact absurd hu.2.1 (not_le.2 this)
      · by_contra hlt
        have := List.pairwise_iff_getElem.1 hgr p q (by omega) hq (by omega)
        have h2 := u.2.2.trans_eq (hget p (by omega))
        rw [eq] at this
        linarith
    choose q hq1 hq2 hq3 using hq
    have hc := hi.comp
      (φ := fun (f : {k // k ∈ Finset.univ.filter fun k : Fin (grid.length - 1) => k.1 < p} → E)
        (u : {u : ℝ // u ∈ g ∧ u ≤ grid.getD p 0}) => φ (∑ k ∈ Finset.Ico m (q u), if h : k < p then
          f ⟨⟨k, by omega⟩, by simpa using h⟩ else 0))
      (ψ := fun (f : {k // k ∈ ({⟨p, by omega⟩} : Finset (Fin (grid.length - 1)))} → E) =>
        φ (f ⟨⟨p, by omega⟩, by simp⟩))
      (measurable_pi_lambda _ fun u => hφ.comp (Finset.measurable_sum _ fun k _ => by
        by_cases h : k < p
        · simp only [dif_pos h]
          exact measurable_pi_apply _
        · simp only [dif_neg h]
          exact measurable_const)) (hφ.comp (measurable_pi_apply _))
    have e1 : (fun ω (u : {u : ℝ // u ∈ g ∧ u ≤ grid.getD p 0}) => φ (W u ω) - φ (W t0 ω)) =
        (fun (f : {k // k ∈ Finset.univ.filter fun k : Fin (grid.length - 1) => k.1 < p} → E)
        (u : {u : ℝ // u ∈ g ∧ u ≤ grid.getD p 0}) => φ (∑ k ∈ Finset.Ico m (q u), if h : k < p then
          f ⟨⟨k, by omega⟩, by simpa using h⟩ else 0)) ∘ fun ω k => W (grid.getD (k.1 + 1) 0) ω - W (grid.getD k.1 0) ω := by
      funext ω u
      simp only [Function.comp_apply]
      rw [← map_sub, ← hq3 u, hsum (q u) (hq1 u) (by have := hq2 u; omega) ω]
      congr 1
      refine Finset.sum_congr rfl fun k hk => ?_
      have := hq2 u
      rw [Finset.mem_Ico] at hk
      rw [dif_pos (by omega)]
    have e2 : (fun ω => φ (W (grid.getD (p + 1) 0) ω) - φ (W (grid.getD p 0) ω)) =
        (fun (f : {k // k ∈ ({⟨p, by omega⟩} : Finset (Fin (grid.length - 1)))} → E) =>
        φ (f ⟨⟨p, by omega⟩, by simp⟩)) ∘ fun ω k => W (grid.getD (k.1 + 1) 0) ω - W (grid.getD k.1 0) ω := by
      funext ω
      simp only [Function.comp_apply, map_sub]
    rw [e1, e2]
    exact hc

end

/-! ### Schemes as functions of the noise -/

section
variable {ι J : Type} [Fintype ι] [Fintype J] {t0 T L : ℝ} {a : ℝ → (ι → ℝ) → ι → ℝ} {b : J → ℝ → (ι → ℝ) → ι → ℝ}

theorem _root_.Sdepy.Spec.LipschitzCoefs.single (h : LipschitzCoefs a b t0 T L) (j : J) : LipschitzCoef a (b j) t0 T L := by
  intro t ht u hu x y
  refine le_trans (Finset.sum_le_sum fun i _ => ?_) (h t ht u hu x y)
  have := Finset.single_le_sum (f := fun j => (b j t x i - b j u y i) ^ 2) (fun _ _ => sq_nonneg _) (Finset.mem_univ j)
  linarith

theorem exists_schemes [Nonempty J] {Ω : Type} [MeasurableSpace Ω] {grid : List ℝ} (hg : grid.Pairwise (· < ·))
    (h0 : t0 ∈ grid) (a : ℝ → (ι → ℝ) → ι → ℝ) (b : J → ℝ → (ι → ℝ) → ι → ℝ) (x0 : ι → ℝ) (Z : ℝ → Ω → J × ι → ℝ) :
    ∃ X : ℝ → Ω → ι → ℝ, AreSums a b t0 x0 grid Z X X := by
  obtain ⟨X, hX⟩ := exists_sums hg h0 (splitDrift a b fun _ => 0) (splitVol b fun _ => 1) (share x0)
    (standardised (fun _ => 0) (fun _ => 1) t0 Z)
  exact ⟨_, split_sums (fun _ => one_pos) (scheme_sums hX)⟩

/-- The values of the scheme along a grid are given functions of the noise at the points of the grid. -/
theorem scheme_function_all [Nonempty J] (h : LipschitzCoefs a b t0 T L) {grid : List ℝ} (hg : grid.Pairwise (· < ·))
    (h0 : t0 ∈ grid) (hI : ∀ u ∈ grid, u ∈ Set.Icc t0 (t0 + T)) (x0 : ι → ℝ) :
    ∃ g : ({u : ℝ // u ∈ grid} → J → ι → ℝ) → ℝ → ι → ℝ, (∀ t ∈ grid, Measurable fun w => g w t) ∧
      ∀ {Ω : Type} [MeasurableSpace Ω] {Z : ℝ → Ω → J × ι → ℝ} {X : ℝ → Ω → ι → ℝ}, AreSums a b t0 x0 grid Z X X →
        ∀ t ∈ grid, ∀ ω, X t ω = g (fun u j i => Z u ω (j, i) - Z t0 ω (j, i)) t := by
  classical
  let Z0 : ℝ → ({u : ℝ // u ∈ grid} → J → ι → ℝ) → J × ι → ℝ := fun u w c => if hu : u ∈ grid then w ⟨u, hu⟩ c.1 c.2 else 0
  obtain ⟨X0, hX0⟩ := exists_schemes hg h0 a b x0 Z0
  have hZ0 : ∀ u c, Measurable fun w => Z0 u w c := by
    intro u c
    by_cases hu : u ∈ grid
    · simp only [Z0, dif_pos hu]
      fun_prop
    · simp only [Z0, dif_neg hu]
      exact measurable_const
  have hm := fun j t ht => (h.single j).abs.meas (t := t) ht
  refine ⟨fun w t => X0 t w, fun t ht => ?_, fun {Ω _ Z X} hX t ht ω => ?_⟩
  · refine grid_induction hg h0 (Q := fun t => Measurable fun w => X0 t w) ?_ ?_ t ht (hI t ht).1
    · have : (fun w => X0 t0 w) = fun _ => x0 := funext hX0.start
      rw [this]
      exact measurable_const
    · intro s t hst h0s hs ih
      refine measurable_pi_lambda _ fun i => ?_
      have e : (fun w => X0 t w i) = fun w => X0 s w i + a s (X0 s w) i * (t - s) +
          ∑ j, b j s (X0 s w) i * (Z0 t w (j, i) - Z0 s w (j, i)) := funext fun w => hX0.step s t hst h0s hs w i
      rw [e]
      obtain ⟨j0⟩ := ‹Nonempty J›
      have ha := (measurable_pi_apply i).comp ((hm j0 s (hI s hst.1)).1.comp ih)
      have hb := fun j => (measurable_pi_apply i).comp ((hm j s (hI s hst.1)).2.comp ih)
      exact (((measurable_pi_apply i).comp ih).add (ha.mul_const _)).add
        (Finset.measurable_sum _ fun j _ => (hb j).mul ((hZ0 t _).sub (hZ0 s _)))
  · refine grid_induction hg h0 (Q := fun t => X t ω = X0 t fun u j i => Z u ω (j, i) - Z t0 ω (j, i)) ?_ ?_ t ht (hI t ht).1
    · rw [hX.start, hX0.start]
    · intro s t hst h0s hs ih
      funext i
      rw [hX.step s t hst h0s hs, hX0.step s t hst h0s hs, ih]
      simp only [Z0, dif_pos hst.1, dif_pos hst.2.1, sub_sub_sub_cancel_right]

end

/-! ### The noise realised -/

section
variable {σ ι : Type} [Fintype ι] [MeasurableSpace σ] {μ : Measure σ} [IsProbabilityMeasure μ]
  {E : Equation ℝ (ι → ℝ) ℕ σ} {k : ℕ} {law : E.Stochastic k → ℝ → Measure (ι → ℝ)}

/-- Selects the noise of sources other than `k`. -/
def selectNoise (J : Finset ℕ) : (ℕ → ι → ℝ) →+ (J → ι → ℝ) where
  toFun f j := f j.1
  map_zero' := rfl
  map_add' _ _ := rfl

theorem measurable_selectNoise (J : Finset ℕ) : Measurable (selectNoise (ι := ι) J) :=
  measurable_pi_lambda _ fun _ => measurable_pi_apply _

/-- The noise of all sources, realised along a grid, has independent steps. -/
theorem exists_steps {Q : E.Stochastic k → ℝ → Measure (ι → ℝ) → Prop}
    (hE : ∀ j t dt, dt ≠ 0 → ∃ ν, DrawsLaw μ ν (E.noise j.1 t dt) ∧ Q j dt ν)
    (hk : ∀ t dt s, E.noise k t dt s = .ok (fun _ => dt, s))
    {grid : List ℝ} (hg : grid.Pairwise (· < ·)) {t0 : ℝ} (h0 : t0 ∈ grid) :
    ∃ (N : ℝ → ℝ → Measure (ℕ → ι → ℝ)) (ν : E.Stochastic k → ℝ → ℝ → Measure (ι → ℝ)) (W : ℝ → σ → ℕ → ι → ℝ)
      (st : σ → σ), IndepSteps μ N t0 grid W ∧
      (∀ s, cumulated E.realised t0 grid s = .ok (grid.map fun u => (u, W u s), st s)) ∧ Measurable st ∧
      μ.map (fun s => (fun u : {u : ℝ // u ∈ grid} => W u s, st s)) =
        (μ.map fun s (u : {u : ℝ // u ∈ grid}) => W u s).prod μ ∧
      (∀ j t dt, dt ≠ 0 → Q j dt (ν j t dt)) ∧
      ∀ t dt, dt ≠ 0 → (N t dt).map (selectNoise (E.ids.erase k)) = Measure.pi fun j => ν j t dt := by
  classical
  have hN : ∀ (t dt : ℝ) (id : ℕ), ∃ ν : Measure (ι → ℝ), IsProbabilityMeasure ν ∧ (dt ≠ 0 → id ∈ E.ids →
      DrawsLaw μ ν (E.noise id t dt)) ∧ (dt ≠ 0 → ∀ h : id ∈ E.ids.erase k, Q ⟨id, h⟩ dt ν) := by
    intro t dt id
    by_cases hdt : dt ≠ 0
    swap
    · exact ⟨Measure.dirac 0, inferInstance, fun h => absurd h hdt, fun h => absurd h hdt⟩
    by_cases hid : id ∈ E.ids.erase k
    · obtain ⟨ν, h1, h2⟩ := hE ⟨id, hid⟩ t dt hdt
      exact ⟨ν, h1.isProb, fun _ _ => h1, fun _ _ => h2⟩
    · refine ⟨Measure.dirac fun _ => dt, inferInstance, fun _ hi => ?_, fun _ h => absurd h hid⟩
      have : id = k := by
        by_contra hne
        exact hid (Finset.mem_erase.2 ⟨hne, hi⟩)
      subst this
      refine ⟨fun s => (fun _ => dt, s), by fun_prop, fun s => hk t dt s, ?_⟩
      rw [Measure.dirac_prod]
  choose N hN1 hN2 hN3 using hN
  have hdraw : ∀ t dt, dt ≠ 0 → DrawsLaw μ (Measure.infinitePi fun id => if id ∈ E.ids.sort (· ≤ ·) then N t dt id
      else Measure.dirac 0) (E.realised t dt) := fun t dt hdt =>
    realise_draws (E.ids.sort (· ≤ ·)) fun id hid => hN2 t dt id hdt (by simpa using hid)
  obtain ⟨W, st, hW, hc, hst, hjoint⟩ := cumulated_steps_state hdraw hg h0
  refine ⟨_, fun j t dt => N t dt j.1, W, st, hW, hc, hst, hjoint, fun j t dt hdt => hN3 t dt j.1 hdt j.2, fun t dt _ => ?_⟩
  have := Measure.infinitePi_map_restrict (fun id => if id ∈ E.ids.sort (· ≤ ·) then N t dt id
    else Measure.dirac 0) (I := E.ids.erase k)
  refine this.trans ?_
  congr 1
  funext j
  rw [if_pos (by simpa using Finset.mem_of_mem_erase j.2)]

/-- The noise of all sources, realised along a grid; the state left is independent of it. -/
theorem exists_realised_state (hE : E.DrawsNoise k μ law) (hk : ∀ t dt s, E.noise k t dt s = .ok (fun _ => dt, s))
    {grid : List ℝ} (hg : grid.Pairwise (· < ·)) {t0 : ℝ} (h0 : t0 ∈ grid) {T : ℝ} (hT : 0 ≤ T) :
    ∃ (Z : ℝ → σ → E.Stochastic k → ι → ℝ) (st : σ → σ), (∀ s, Z t0 s = 0) ∧
      RealisesAll E k t0 grid (fun u s c => Z u s c.1 c.2) id st ∧
      (∀ {g : List ℝ}, (∀ u, u ∈ g ↔ u ∈ grid ∧ u ∈ Set.Icc t0 (t0 + T)) →
        StepLaws μ t0 g (fun h => Measure.pi fun j => law j h) Z) ∧ (∀ u, Measurable (Z u)) ∧ Measurable st ∧
      μ.map (fun s => (fun u : {u : ℝ // u ∈ grid} => Z u s, st s)) =
        (μ.map fun s (u : {u : ℝ // u ∈ grid}) => Z u s).prod μ := by
  classical
  obtain ⟨N, ν, W, st, hW, hc, hst, hjoint, hQ, hN⟩ := exists_steps hE hk hg h0
  have hφ := measurable_selectNoise (ι := ι) (E.ids.erase k)
  refine ⟨fun u s => selectNoise _ (W u s), st, fun s => by simp only [hW.start, map_zero],
    fun s => ⟨fun u => W u s, hc s, fun u hu j i => ?_⟩, ?_, fun u => hφ.comp (hW.meas u), hst, ?_⟩
  · simp only [hW.start]
    simp [selectNoise]
  · intro g hgm
    refine stepLaws_of_indep hW hg h0 hT hgm hφ fun t dt hdt => ?_
    rw [hN t dt hdt.ne']
    congr 1
    funext j
    exact hQ j t dt hdt.ne' hdt
  · let ρ : ({u : ℝ // u ∈ grid} → ℕ → ι → ℝ) → {u : ℝ // u ∈ grid} → E.Stochastic k → ι → ℝ :=
      fun f u => selectNoise _ (f u)
    have hρ : Measurable ρ := measurable_pi_lambda _ fun u => hφ.comp (measurable_pi_apply u)
    have hWm : Measurable fun s (u : {u : ℝ // u ∈ grid}) => W u s := measurable_pi_lambda _ fun u => hW.meas u
    have hpr : IsProbabilityMeasure (μ.map fun s (u : {u : ℝ // u ∈ grid}) => W u s) :=
      Measure.isProbabilityMeasure_map hWm.aemeasurable
    have h := congrArg (Measure.map (Prod.map ρ id)) hjoint
    rw [Measure.map_map (hρ.prodMap measurable_id) (hWm.prodMk hst), ← Measure.map_prod_map _ _ hρ measurable_id,
      Measure.map_id, Measure.map_map hρ hWm] at h
    exact h

theorem exists_realised (hE : E.DrawsNoise k μ law) (hk : ∀ t dt s, E.noise k t dt s = .ok (fun _ => dt, s))
    {grid : List ℝ} (hg : grid.Pairwise (· < ·)) {t0 : ℝ} (h0 : t0 ∈ grid) {T : ℝ} (hT : 0 ≤ T) :
    ∃ (Z : ℝ → σ → E.Stochastic k → ι → ℝ) (st : σ → σ), (∀ s, Z t0 s = 0) ∧
      RealisesAll E k t0 grid (fun u s c => Z u s c.1 c.2) id st ∧
      ∀ {g : List ℝ}, (∀ u, u ∈ g ↔ u ∈ grid ∧ u ∈ Set.Icc t0 (t0 + T)) →
        StepLaws μ t0 g (fun h => Measure.pi fun j => law j h) Z := by
  obtain ⟨Z, st, h1, h2, h3, -⟩ := exists_realised_state hE hk hg h0 hT
  exact ⟨Z, st, h1, h2, h3⟩

end

end Sdepy
