import Mathlib.Probability.Independence.InfinitePi
import Verif.Lemmas.EstimatesN
import Verif.Props.StrongNLaw
import Verif.Props.Estimates

/-!
# Property C89: Monte Carlo estimates, for equations with more than one source of noise, jumps included
-/

set_option linter.unusedSectionVars false

open MeasureTheory ProbabilityTheory Filter Topology

namespace Sdepy

open Spec

/-- Independence of functions of a variable only depends on its law. -/
theorem iIndepFun_of_identDistrib {Ω Ω' A B J : Type} [MeasurableSpace Ω] [MeasurableSpace Ω'] [MeasurableSpace A]
    [MeasurableSpace B] [Fintype J] {P : Measure Ω} [IsProbabilityMeasure P] {P' : Measure Ω'} [IsProbabilityMeasure P']
    {U : Ω → A} {U' : Ω' → A} (h : IdentDistrib U U' P P') {f : J → A → B} (hf : ∀ j, Measurable (f j))
    (hi : iIndepFun (fun j => f j ∘ U') P') : iIndepFun (fun j => f j ∘ U) P := by
  have h1 := fun j => h.comp (hf j)
  have h2 := h.comp (measurable_pi_lambda (fun a j => f j a) hf)
  rw [iIndepFun_iff_map_fun_eq_pi_map fun j => (h1 j).aemeasurable_snd] at hi
  rw [iIndepFun_iff_map_fun_eq_pi_map fun j => (h1 j).aemeasurable_fst]
  have h3 := h2.map_eq
  simp only [Function.comp_def] at h3 hi ⊢
  rw [h3, hi]
  congr 1
  funext j
  exact (h1 j).map_eq.symm

/-- Steps of one of many independent paths. -/
theorem stepLaws_path {Ω ι κ C J : Type} [MeasurableSpace Ω] [Fintype ι] [Fintype J] {P : Measure Ω} [IsProbabilityMeasure P]
    {t0 : ℝ} {g : List ℝ} (e : C ≃ ι × κ) {law1 : J → ℝ → Measure (κ → ℝ)}
    (hpr : ∀ j h, 0 < h → IsProbabilityMeasure (law1 j h)) {Z : ℝ → Ω → J → C → ℝ}
    (hZ : StepLaws P t0 g (fun h => Measure.pi fun j => pathsLaw e (law1 j h)) Z) (i : ι) :
    StepLaws P t0 g (fun h => Measure.pi fun j => law1 j h) fun u ω j k => Z u ω j (e.symm (i, k)) := by
  let ψ : (J → C → ℝ) → J → κ → ℝ := fun x j k => x j (e.symm (i, k))
  have hψ : Measurable ψ := by fun_prop
  refine ⟨fun s t hst h0s hs => ?_, fun s t hst h0s hs => ?_⟩
  · have hp := fun j => hpr j (t - s) (sub_pos.2 hs)
    have h1 := hZ.law s t hst h0s hs
    have h3 : HasLaw ψ (Measure.pi fun j => law1 j (t - s)) (Measure.pi fun j => pathsLaw e (law1 j (t - s))) := by
      refine ⟨hψ.aemeasurable, ?_⟩
      have hm : Measurable fun (x : C → ℝ) k => x (e.symm (i, k)) := by fun_prop
      have hm2 : Measurable fun (x : ι → κ → ℝ) c => x (e c).1 (e c).2 := by fun_prop
      have : ∀ j, IsProbabilityMeasure (pathsLaw e (law1 j (t - s))) := fun j =>
        Measure.isProbabilityMeasure_map hm2.aemeasurable
      have e1 := Measure.pi_map_pi (μ := fun j => pathsLaw e (law1 j (t - s)))
        (f := fun _ (x : C → ℝ) k => x (e.symm (i, k))) fun _ => hm.aemeasurable
      refine e1.trans ?_
      congr 1
      funext j
      rw [pathsLaw, Measure.map_map hm hm2]
      have e2 : ((fun (x : C → ℝ) k => x (e.symm (i, k))) ∘ fun (x : ι → κ → ℝ) c => x (e c).1 (e c).2) =
          Function.eval i := by
        funext x k
        simp
      rw [e2, (measurePreserving_eval _ i).map_eq]
    exact h3.comp h1
  · exact (hZ.indep s t hst h0s hs).comp
      (φ := fun (x : {u : ℝ // u ∈ g ∧ u ≤ s} → J → C → ℝ) u => ψ (x u)) (ψ := ψ) (by fun_prop) hψ

section
variable {κ : Type} [Fintype κ] {ids : Finset ℕ} {a : ℕ → ℝ → (κ → ℝ) → κ → ℝ} {t0 : ℝ}

set_option maxHeartbeats 1000000 in
/-- Paths of all runs have the joint law of a scheme for the equation of a single path, and are independent. -/
theorem paths_of_scheme [Nonempty {id // id ∈ ids.erase idT}] {T L : ℝ} (hT : 0 ≤ T)
    (hL : LipschitzCoefs (a idT) (fun j : {id // id ∈ ids.erase idT} => a j.1) t0 T L) (y0 : κ → ℝ)
    {law : ℕ → ℝ → Measure (κ → ℝ)} (hpr : ∀ j ∈ ids.erase idT, ∀ h > 0, IsProbabilityMeasure (law j h))
    {σ C ι O : Type} [MeasurableSpace σ] [Fintype C] [Fintype ι] {μ : Measure σ}
    [IsProbabilityMeasure μ] (e : C ≃ ι × κ) {S : SDE ℝ (C → ℝ) O ℕ σ} {x0 : C → ℝ}
    (hS : SDEOk S) (hdt : S.sources.lookup idT = some dtSource) (hids : (equation S).ids = ids)
    (hcoef : ∀ t x, (equation S).coef t x = .ok fun id p => a id t (fun k => x (e.symm ((e p).1, k))) (e p).2)
    (hinit : S.init t0 = .ok x0) (hx0 : ∀ p, (if S.log then S.logX x0 else x0) p = y0 (e p).2)
    (hdraw : (equation S).DrawsNoise idT μ (fun j h => pathsLaw e (law j.1 h)))
    {fuel : ℕ} {steps : Steps ℝ} {i0 : ℤ} {tl : TArr ℝ} {grid : List ℝ} {δ : ℝ}
    (ha : Along fuel steps i0 tl grid t0) (hm : Mesh grid δ) :
    ∃ (X : ℕ → ℝ → σ → C → ℝ) (ss : ℕ → σ → σ) (g : List ℝ), (∀ s, ss 0 s = s) ∧
      (∀ r s, S.call fuel steps i0 tl (ss r s) = .ok (tl.data.map fun t => some
        (if S.log then S.expO (S.letX t (X r t s)) else S.letX t (X r t s)), ss (r + 1) s)) ∧
      g.Pairwise (· < ·) ∧ t0 ∈ g ∧ (∀ u ∈ g, u ∈ Set.Icc t0 (t0 + T)) ∧ Mesh g δ ∧
      (∀ t ∈ tl.data, t ∈ Set.Icc t0 (t0 + T) → t ∈ g) ∧
      (∀ p p' : ℕ × ι,
        IdentDistrib (fun s (t : {t : ℝ // t ∈ g}) k => X p.1 t s (e.symm (p.2, k)))
          (fun s (t : {t : ℝ // t ∈ g}) k => X p'.1 t s (e.symm (p'.2, k))) μ μ) ∧
      iIndepFun (fun (p : ℕ × ι) s (t : {t : ℝ // t ∈ g}) k => X p.1 t s (e.symm (p.2, k))) μ ∧
      ∀ {Ω : Type} [MeasurableSpace Ω] {P : Measure Ω} [IsProbabilityMeasure P]
        {Z' : ℝ → Ω → {id // id ∈ ids.erase idT} → κ → ℝ},
        Increments P t0 (Set.Icc t0 (t0 + T)) (fun h => Measure.pi fun j : {id // id ∈ ids.erase idT} => law j.1 h) Z' →
        ∃ X0 : ℝ → Ω → κ → ℝ, AreSums (a idT) (fun j : {id // id ∈ ids.erase idT} => a j.1) t0 y0 g
          (fun u ω p => Z' u ω p.1 p.2) X0 X0 ∧
          ∀ p : ℕ × ι, IdentDistrib (fun s (t : {t : ℝ // t ∈ g}) k => X p.1 t s (e.symm (p.2, k)))
            (fun ω (t : {t : ℝ // t ∈ g}) => X0 t ω) μ P := by
  subst hids
  classical
  obtain ⟨-, h2, h3⟩ := along_mem ha
  have hprob : ∀ (j : (equation S).Stochastic idT) h, 0 < h → IsProbabilityMeasure (law j.1 h) :=
    fun j h hh => hpr j.1 j.2 h hh
  have hk : ∀ t dt s, (equation S).noise idT t dt s = .ok (fun _ => dt, s) := by
    intro t dt s
    simp only [equation, hdt]
    rfl
  obtain ⟨Z, st, hZ0, hR, hlaws, hZm, hstm, hjoint⟩ := exists_realised_state hdraw hk ha.isGrid.1 h2 hT
  obtain ⟨X, hcall, hX⟩ := C86_scheme hS hdt hcoef hinit ha hR
  -- runs, one after the other
  let Zv : σ → {u : ℝ // u ∈ grid} → (equation S).Stochastic idT → C → ℝ := fun s u => Z u s
  have hZv : Measurable Zv := measurable_pi_lambda _ fun u => hZm u
  let G : ℕ → σ → ({u : ℝ // u ∈ grid} → (equation S).Stochastic idT → C → ℝ) × σ := fun _ s => (Zv s, st s)
  have hG : ∀ n, Measurable (G n) := fun _ => hZv.prodMk hstm
  have hGm : ∀ n, μ.map (G n) = (μ.map Zv).prod μ := fun _ => hjoint
  have hpZ : IsProbabilityMeasure (μ.map Zv) := Measure.isProbabilityMeasure_map hZv.aemeasurable
  have hind := iIndepFun_valSeq (N := fun _ => μ.map Zv) hG hGm
  have hrun := hasLaw_valSeq (N := fun _ => μ.map Zv) hG hGm
  obtain ⟨g, g1, g2, g3, g4, g5⟩ := restrict_grid_all hT ha.isGrid.1 h2 hm hX
  have hgI : ∀ u ∈ g, u ∈ Set.Icc t0 (t0 + T) := fun u hu => ((g3 u).1 hu).2
  -- each path is a scheme for the equation of a single path
  have hpath : ∀ i : ι, AreSums (a idT) (fun j : (equation S).Stochastic idT => a j.1) t0 y0 g
      (fun u s p => Z u s p.1 (e.symm (i, p.2))) (fun u s k => X u s (e.symm (i, k)))
      (fun u s k => X u s (e.symm (i, k))) := by
    intro i
    refine ⟨fun s => ?_, fun u w hst h0s hs s k => ?_⟩
    · funext k
      rw [g5.start s, hx0, Equiv.apply_symm_apply]
    · rw [g5.step u w hst h0s hs s (e.symm (i, k))]
      simp only [Equiv.apply_symm_apply]
  obtain ⟨f, hf, hfX⟩ := scheme_function_all hL g1 g2 hgI y0
  let res : ({u : ℝ // u ∈ grid} → (equation S).Stochastic idT → C → ℝ) →
      {u : ℝ // u ∈ g} → (equation S).Stochastic idT → C → ℝ :=
    fun w u => w ⟨u.1, ((g3 u.1).1 u.2).1⟩ - w ⟨t0, h2⟩
  have hres : Measurable res := measurable_pi_lambda _ fun u => (measurable_pi_apply _).sub (measurable_pi_apply _)
  let q : ι → ({u : ℝ // u ∈ g} → (equation S).Stochastic idT → C → ℝ) → {u : ℝ // u ∈ g} → κ → ℝ :=
    fun i w t => f (fun u j k => w u j (e.symm (i, k))) t
  have hq : ∀ i, Measurable (q i) := by
    intro i
    refine measurable_pi_lambda _ fun t => (hf t.1 t.2).comp ?_
    fun_prop
  let F : ℕ × ι → σ → {u : ℝ // u ∈ g} → κ → ℝ := fun p s t k => X t (stateSeq G p.1 s) (e.symm (p.2, k))
  have hF : ∀ p, F p = q p.2 ∘ res ∘ valSeq G p.1 := by
    intro p
    funext s t
    exact hfX (hpath p.2) t t.2 (stateSeq G p.1 s)
  -- the noise of all paths, and a scheme driven by the noise of one
  have main : ∀ {Ω : Type} [MeasurableSpace Ω] {P : Measure Ω} [IsProbabilityMeasure P]
      {Z' : ℝ → Ω → (equation S).Stochastic idT → κ → ℝ},
      StepLaws P t0 g (fun h => Measure.pi fun j : (equation S).Stochastic idT => law j.1 h) Z' →
      (∀ u ∈ g, AEMeasurable (Z' u) P) →
      ∃ X0 : ℝ → Ω → κ → ℝ, AreSums (a idT) (fun j : (equation S).Stochastic idT => a j.1) t0 y0 g
        (fun u ω p => Z' u ω p.1 p.2) X0 X0 ∧
        (∀ p, IdentDistrib (F p) (fun ω (t : {u : ℝ // u ∈ g}) => X0 t ω) μ P) ∧
        iIndepFun F μ := by
    intro Ω _ P _ Z' hZ' hZ'm
    obtain ⟨X0, hX0⟩ := exists_schemes g1 g2 (a idT) (fun j : (equation S).Stochastic idT => a j.1) y0
      fun u ω (p : (equation S).Stochastic idT × κ) => Z' u ω p.1 p.2
    have hlaw := stepLaws_law (hlaws g3) (stepLaws_paths e hprob hZ' hZ'm g2) g1 g2 fun u hu => (hgI u hu).1
    have hvals : ∀ r, IdentDistrib (res ∘ valSeq G r) (fun ω (u : {u : ℝ // u ∈ g}) =>
        (fun j c => Z' u (ω (e c).1) j (e c).2) - fun j c => Z' t0 (ω (e c).1) j (e c).2) μ
        (Measure.pi fun _ : ι => P) := by
      intro r
      have h1 : IdentDistrib (valSeq G r) Zv μ μ :=
        ⟨(measurable_valSeq hG r).aemeasurable, hZv.aemeasurable, (hrun r).map_eq⟩
      exact (h1.comp hres).trans hlaw
    have hq' : ∀ i, (q i ∘ fun ω (u : {u : ℝ // u ∈ g}) => (fun j c => Z' u (ω (e c).1) j (e c).2) -
        fun j c => Z' t0 (ω (e c).1) j (e c).2) = fun (ω : ι → Ω) (t : {u : ℝ // u ∈ g}) => X0 t (ω i) := by
      intro i
      funext ω t
      simp only [q, Function.comp_apply]
      rw [hfX hX0 t t.2 (ω i)]
      simp only [Pi.sub_apply, Equiv.apply_symm_apply]
    have hX0m : AEMeasurable (fun ω (t : {u : ℝ // u ∈ g}) => X0 t ω) P := by
      refine aemeasurable_pi_lambda _ fun t => ?_
      have e1 : (fun ω => X0 t.1 ω) = fun ω => f (fun u j i => Z' u ω j i - Z' t0 ω j i) t.1 :=
        funext fun ω => hfX hX0 t.1 t.2 ω
      rw [e1]
      refine (hf t.1 t.2).comp_aemeasurable ?_
      exact aemeasurable_pi_lambda _ fun u => (hZ'm u.1 u.2).sub (hZ'm t0 g2)
    refine ⟨X0, hX0, fun p => ?_, ?_⟩
    · have h1 := (hvals p.1).comp (hq p.2)
      rw [← Function.comp_assoc, Function.comp_assoc, ← hF, hq'] at h1
      have h4 : IdentDistrib (fun (ω : ι → Ω) (t : {u : ℝ // u ∈ g}) => X0 t (ω p.2))
          (fun ω (t : {u : ℝ // u ∈ g}) => X0 t ω) (Measure.pi fun _ : ι => P) P := by
        have h5 := measurePreserving_eval (fun _ : ι => P) p.2
        refine ⟨hX0m.comp_quasiMeasurePreserving h5.quasiMeasurePreserving, hX0m, ?_⟩
        have h6 := AEMeasurable.map_map_of_aemeasurable (μ := Measure.pi fun _ : ι => P) (f := fun ω => ω p.2)
          (by rw [h5.map_eq]; exact hX0m) (measurable_pi_apply p.2).aemeasurable
        rw [h5.map_eq] at h6
        exact h6.symm
      exact h1.trans h4
    · have hFF : F = fun p => q p.2 ∘ res ∘ valSeq G p.1 := funext hF
      rw [hFF]
      refine iIndepFun_uncurry' (X := fun r i => q i ∘ res ∘ valSeq G r)
        (fun r i => (hq i).comp (hres.comp (measurable_valSeq hG r))) ?_ fun r => ?_
      · exact hind.comp (fun _ w i => q i (res w)) fun _ => measurable_pi_lambda _ fun i => (hq i).comp hres
      · refine iIndepFun_of_identDistrib (hvals r) hq ?_
        simp only [hq']
        exact iIndepFun_pi (μ := fun _ : ι => P) (X := fun _ ω (t : {u : ℝ // u ∈ g}) => X0 t ω) fun _ => hX0m
  refine ⟨fun r t s => X t (stateSeq G r s), stateSeq G, g, fun _ => rfl, fun r s => hcall (stateSeq G r s), g1, g2, hgI,
    g4, fun t ht hI => (g3 t).2 ⟨h3 t ht, hI⟩, fun p p' => ?_, ?_, ?_⟩
  · obtain ⟨X0, -, c1, -⟩ := main (stepLaws_path e hprob (hlaws g3) p.2) fun u _ => by
      have := hZm u
      exact (Measurable.aemeasurable (by fun_prop))
    exact (c1 p).trans (c1 p').symm
  · rcases isEmpty_or_nonempty ι with hι | hι
    · exact iIndepFun.of_subsingleton
    obtain ⟨X0, -, -, c2⟩ := main (stepLaws_path e hprob (hlaws g3) hι.some) fun u _ => by
      have := hZm u
      exact (Measurable.aemeasurable (by fun_prop))
    exact c2
  · intro Ω _ P _ Z' hZ'
    obtain ⟨X0, c0, c1, -⟩ := main (stepLaws_of_increments hZ' g2 hgI) fun u hu => hZ'.meas u (hgI u hu)
    exact ⟨X0, c0, c1⟩

/-- Averages over paths and runs, as estimates of the expectation of a function of a solution of the equation of a single
path, if schemes driven by the noise of the solution are close to it. -/
theorem estimate_of_close [Nonempty {id // id ∈ ids.erase idT}] {T L : ℝ} (hT : 0 ≤ T)
    (hL : LipschitzCoefs (a idT) (fun j : {id // id ∈ ids.erase idT} => a j.1) t0 T L) (y0 : κ → ℝ)
    {law : ℕ → ℝ → Measure (κ → ℝ)} (hpr : ∀ j ∈ ids.erase idT, ∀ h > 0, IsProbabilityMeasure (law j h))
    {σ C ι O : Type} [MeasurableSpace σ] [Fintype C] [Fintype ι] [Nonempty ι] {μ : Measure σ}
    [IsProbabilityMeasure μ] (e : C ≃ ι × κ) {S : SDE ℝ (C → ℝ) O ℕ σ} {x0 : C → ℝ}
    (hS : SDEOk S) (hdt : S.sources.lookup idT = some dtSource) (hids : (equation S).ids = ids)
    (hcoef : ∀ t x, (equation S).coef t x = .ok fun id p => a id t (fun k => x (e.symm ((e p).1, k))) (e p).2)
    (hinit : S.init t0 = .ok x0) (hx0 : ∀ p, (if S.log then S.logX x0 else x0) p = y0 (e p).2)
    (hdraw : (equation S).DrawsNoise idT μ (fun j h => pathsLaw e (law j.1 h)))
    {Ω : Type} [MeasurableSpace Ω] {P : Measure Ω} [IsProbabilityMeasure P]
    {Z' : ℝ → Ω → {id // id ∈ ids.erase idT} → κ → ℝ} {Y : ℝ → Ω → κ → ℝ}
    (hZ' : Increments P t0 (Set.Icc t0 (t0 + T))
      (fun h => Measure.pi fun j : {id // id ∈ ids.erase idT} => law j.1 h) Z')
    (hYm : ∀ t ∈ Set.Icc t0 (t0 + T), ∀ k, MemLp (fun ω => Y t ω k) 2 P)
    {fuel : ℕ} {steps : Steps ℝ} {i0 : ℤ} {tl : TArr ℝ} {grid : List ℝ} {δ B : ℝ}
    (hclose : ∀ {X : ℝ → Ω → κ → ℝ} {g : List ℝ}, g.Pairwise (· < ·) → t0 ∈ g →
      (∀ u ∈ g, u ∈ Set.Icc t0 (t0 + T)) → Mesh g δ →
      AreSums (a idT) (fun j : {id // id ∈ ids.erase idT} => a j.1) t0 y0 g (fun u ω p => Z' u ω p.1 p.2) X X → ∀ t ∈ g,
        (∀ k, MemLp (fun ω => X t ω k) 2 P) ∧ meanSq P (fun ω k => X t ω k - Y t ω k) ≤ B)
    (ha : Along fuel steps i0 tl grid t0) (hm : Mesh grid δ) :
    ∃ (X : ℕ → ℝ → σ → C → ℝ) (ss : ℕ → σ → σ), (∀ s, ss 0 s = s) ∧
      (∀ r s, S.call fuel steps i0 tl (ss r s) = .ok (tl.data.map fun t => some
        (if S.log then S.expO (S.letX t (X r t s)) else S.letX t (X r t s)), ss (r + 1) s)) ∧
      ∀ R > 0, ∀ t ∈ tl.data, t ∈ Set.Icc t0 (t0 + T) → ∀ (φ : (κ → ℝ) → ℝ) (M : ℝ), 0 ≤ M →
        (∀ x y, |φ x - φ y| ≤ M * √(∑ k, (x k - y k) ^ 2)) →
        MemLp (fun s => (∑ r ∈ Finset.range R, ∑ i, φ fun k => X r t s (e.symm (i, k))) / (R * Fintype.card ι)) 2 μ ∧
        MemLp (fun ω => φ (Y t ω)) 2 P ∧
        ∫ s, ((∑ r ∈ Finset.range R, ∑ i, φ fun k => X r t s (e.symm (i, k))) / (R * Fintype.card ι) -
          ∫ ω, φ (Y t ω) ∂P) ^ 2 ∂μ ≤
          2 * Var[fun ω => φ (Y t ω); P] / (R * Fintype.card ι) + 3 * (M ^ 2 * B) := by
  obtain ⟨X, ss, g, e0, e1, g1, g2, gI, g4, g5, -, hpp, hlink⟩ :=
    paths_of_scheme hT hL y0 hpr e hS hdt hids hcoef hinit hx0 hdraw ha hm
  obtain ⟨X0, hX0, hid⟩ := hlink hZ'
  refine ⟨X, ss, e0, e1, ?_⟩
  intro R hR0 t ht htI φ M hM hφ
  have htg := g5 t ht htI
  obtain ⟨hl, hms⟩ := hclose g1 g2 gI g4 hX0 t htg
  have hYl := hYm t htI
  have hψ : Measurable fun w : {t : ℝ // t ∈ g} → κ → ℝ => φ (w ⟨t, htg⟩) :=
    (lipschitz_continuous hφ).measurable.comp (measurable_pi_apply _)
  let F : Fin R × ι → σ → ℝ := fun p s => φ fun k => X p.1 t s (e.symm (p.2, k))
  have hidF : ∀ p, IdentDistrib (F p) (fun ω => φ (X0 t ω)) μ P := fun p => (hid (p.1.1, p.2)).comp hψ
  have hI : Pairwise fun p p' => IndepFun (F p) (F p') μ := by
    rintro ⟨r, i⟩ ⟨r', i'⟩ hne
    refine (hpp.indepFun (i := (r.1, i)) (j := (r'.1, i')) fun h => hne ?_).comp hψ hψ
    rw [Prod.mk.injEq] at h ⊢
    exact ⟨Fin.ext h.1, h.2⟩
  have : Nonempty (Fin R × ι) := ⟨(⟨0, hR0⟩, Classical.arbitrary ι)⟩
  have he : ∫ ω, (φ (X0 t ω) - φ (Y t ω)) ^ 2 ∂P ≤ M ^ 2 * B :=
    (lipschitz_meanSq hl hYl hM hφ).trans (mul_le_mul_of_nonneg_left hms (sq_nonneg M))
  obtain ⟨r1, r2⟩ := estimate_error hI hidF (lipschitz_memLp hl hM hφ) (lipschitz_memLp hYl hM hφ) he
  have ecard : (Fintype.card (Fin R × ι) : ℝ) = R * Fintype.card ι := by
    rw [Fintype.card_prod, Fintype.card_fin, Nat.cast_mul]
  have esum : ∀ s, ∑ p, F p s = ∑ r ∈ Finset.range R, ∑ i, φ fun k => X r t s (e.symm (i, k)) := by
    intro s
    rw [Fintype.sum_prod_type, Finset.sum_range]
  simp only [ecard, esum] at r1 r2
  exact ⟨r1, lipschitz_memLp hYl hM hφ, r2⟩

/-- **C89** (estimates). A simulation with many paths, all with the same initial values, of an equation with any number of
sources of noise is repeated any number of times; sources draw from a random generator, paths being
independent, increments of given laws. Take the average over all paths, in all runs, of a function of the values simulated
for a time `t` of the timeline, that is Lipschitz of constant `M`; as an estimate of the expectation of the same
function of a solution of the equation of a single path, its mean square error is at most twice the variance of the
function of the solution, divided by the number of paths in all runs, plus `3*M²*K*δ`, where `δ` is the longest step. `K`
only depends on the equation of a single path, on its noise and initial values, and on `T`. -/
theorem C89_estimate [Nonempty {id // id ∈ ids.erase idT}] {T L : ℝ} (hT : 0 ≤ T)
    (hL : LipschitzCoefs (a idT) (fun j : {id // id ∈ ids.erase idT} => a j.1) t0 T L) (y0 : κ → ℝ)
    {law : ℕ → ℝ → Measure (κ → ℝ)} (hpr : ∀ j ∈ ids.erase idT, ∀ h > 0, IsProbabilityMeasure (law j h))
    {m v : ℕ → ℝ} (hv : ∀ j ∈ ids.erase idT, 0 < v j) (hmo : ∀ j ∈ ids.erase idT, HasMoments (law j) (m j) (v j)) :
    ∃ K ≥ 0, ∀ {σ C ι O : Type} [MeasurableSpace σ] [Fintype C] [Fintype ι] [Nonempty ι] {μ : Measure σ}
      [IsProbabilityMeasure μ] (e : C ≃ ι × κ) {S : SDE ℝ (C → ℝ) O ℕ σ} {x0 : C → ℝ},
      SDEOk S → S.sources.lookup idT = some dtSource → (equation S).ids = ids →
      (∀ t x, (equation S).coef t x = .ok fun id p => a id t (fun k => x (e.symm ((e p).1, k))) (e p).2) →
      S.init t0 = .ok x0 → (∀ p, (if S.log then S.logX x0 else x0) p = y0 (e p).2) →
      (equation S).DrawsNoise idT μ (fun j h => pathsLaw e (law j.1 h)) →
      ∀ {Ω : Type} [MeasurableSpace Ω] {P : Measure Ω} [IsProbabilityMeasure P]
      {Z : ℝ → Ω → {id // id ∈ ids.erase idT} → κ → ℝ} {Y : ℝ → Ω → κ → ℝ},
      Increments P t0 (Set.Icc t0 (t0 + T)) (fun h => Measure.pi fun j : {id // id ∈ ids.erase idT} => law j.1 h) Z →
      Solves P (a idT) (fun j : {id // id ∈ ids.erase idT} => a j.1) t0 T y0 (fun u ω p => Z u ω p.1 p.2) Y →
      ∀ {fuel : ℕ} {steps : Steps ℝ} {i0 : ℤ} {tl : TArr ℝ} {grid : List ℝ} {δ : ℝ}, 0 ≤ δ →
        Along fuel steps i0 tl grid t0 → Mesh grid δ →
        ∃ (X : ℕ → ℝ → σ → C → ℝ) (ss : ℕ → σ → σ), (∀ s, ss 0 s = s) ∧
          (∀ r s, S.call fuel steps i0 tl (ss r s) = .ok (tl.data.map fun t => some
            (if S.log then S.expO (S.letX t (X r t s)) else S.letX t (X r t s)), ss (r + 1) s)) ∧
          ∀ R > 0, ∀ t ∈ tl.data, t ∈ Set.Icc t0 (t0 + T) → ∀ (φ : (κ → ℝ) → ℝ) (M : ℝ), 0 ≤ M →
            (∀ x y, |φ x - φ y| ≤ M * √(∑ k, (x k - y k) ^ 2)) →
            MemLp (fun s => (∑ r ∈ Finset.range R, ∑ i, φ fun k => X r t s (e.symm (i, k))) / (R * Fintype.card ι)) 2 μ ∧
            MemLp (fun ω => φ (Y t ω)) 2 P ∧
            ∫ s, ((∑ r ∈ Finset.range R, ∑ i, φ fun k => X r t s (e.symm (i, k))) / (R * Fintype.card ι) -
              ∫ ω, φ (Y t ω) ∂P) ^ 2 ∂μ ≤
              2 * Var[fun ω => φ (Y t ω); P] / (R * Fintype.card ι) + 3 * (M ^ 2 * (K * δ)) := by
  obtain ⟨K, hK, hclose⟩ := solution_close_all hT hL y0 (fun j => m j.1) (v := fun j => v j.1) fun j => hv j.1 j.2
  refine ⟨K, hK, ?_⟩
  intro σ C ι O _ _ _ _ μ _ e S x0 hS hdt hids hcoef hinit hx0 hdraw Ω _ P _ Z' Y hZ' hY fuel steps i0 tl grid δ hδ ha hm
  have hprob : ∀ (j : {id // id ∈ ids.erase idT}) h, 0 < h → IsProbabilityMeasure (law j.1 h) :=
    fun j h hh => hpr j.1 j.2 h hh
  exact estimate_of_close hT hL y0 hpr e hS hdt hids hcoef hinit hx0 hdraw hZ' hY.memLp
    (hclose (noises_of_increments hprob (fun j => hmo j.1 j.2) hZ') hY hδ) ha hm

/-- **C89** (`montecarlo`). The same, for the mean computed by `montecarlo`, in a component of the samples cumulated, one
for each run. -/
theorem C89_montecarlo [Nonempty {id // id ∈ ids.erase idT}] {T L : ℝ} (hT : 0 ≤ T)
    (hL : LipschitzCoefs (a idT) (fun j : {id // id ∈ ids.erase idT} => a j.1) t0 T L) (y0 : κ → ℝ)
    {law : ℕ → ℝ → Measure (κ → ℝ)} (hpr : ∀ j ∈ ids.erase idT, ∀ h > 0, IsProbabilityMeasure (law j h))
    {m v : ℕ → ℝ} (hv : ∀ j ∈ ids.erase idT, 0 < v j) (hmo : ∀ j ∈ ids.erase idT, HasMoments (law j) (m j) (v j)) :
    ∃ K ≥ 0, ∀ {σ C O : Type} {N : ℕ} [MeasurableSpace σ] [Fintype C] {μ : Measure σ}
      [IsProbabilityMeasure μ] (e : C ≃ Fin N × κ) {S : SDE ℝ (C → ℝ) O ℕ σ} {x0 : C → ℝ}, 0 < N →
      SDEOk S → S.sources.lookup idT = some dtSource → (equation S).ids = ids →
      (∀ t x, (equation S).coef t x = .ok fun id p => a id t (fun k => x (e.symm ((e p).1, k))) (e p).2) →
      S.init t0 = .ok x0 → (∀ p, (if S.log then S.logX x0 else x0) p = y0 (e p).2) →
      (equation S).DrawsNoise idT μ (fun j h => pathsLaw e (law j.1 h)) →
      ∀ {Ω : Type} [MeasurableSpace Ω] {P : Measure Ω} [IsProbabilityMeasure P]
      {Z : ℝ → Ω → {id // id ∈ ids.erase idT} → κ → ℝ} {Y : ℝ → Ω → κ → ℝ},
      Increments P t0 (Set.Icc t0 (t0 + T)) (fun h => Measure.pi fun j : {id // id ∈ ids.erase idT} => law j.1 h) Z →
      Solves P (a idT) (fun j : {id // id ∈ ids.erase idT} => a j.1) t0 T y0 (fun u ω p => Z u ω p.1 p.2) Y →
      ∀ {fuel : ℕ} {steps : Steps ℝ} {i0 : ℤ} {tl : TArr ℝ} {grid : List ℝ} {δ : ℝ}, 0 ≤ δ →
        Along fuel steps i0 tl grid t0 → Mesh grid δ →
        ∃ (X : ℕ → ℝ → σ → C → ℝ) (ss : ℕ → σ → σ), (∀ s, ss 0 s = s) ∧
          (∀ r s, S.call fuel steps i0 tl (ss r s) = .ok (tl.data.map fun t => some
            (if S.log then S.expO (S.letX t (X r t s)) else S.letX t (X r t s)), ss (r + 1) s)) ∧
          ∀ R > 0, ∀ t ∈ tl.data, t ∈ Set.Icc t0 (t0 + T) → ∀ (φ : (κ → ℝ) → ℝ) (M : ℝ), 0 ≤ M →
            (∀ x y, |φ x - φ y| ≤ M * √(∑ k, (x k - y k) ^ 2)) →
            ∀ {auto : String → Option (ℝ × ℝ) → List ℝ → Py (List ℝ)} {bins : Bins ℝ} {range : Option (ℝ × ℝ)}
              {vs c : List ℕ} {smp : σ → ℕ → Batch ℝ} {mc : σ → MC ℝ}, AutoOk auto → InRange vs c →
              (∀ s, ∀ r < R, (smp s r).vshape = vs ∧
                (smp s r).raw c = List.ofFn fun i => φ fun k => X r t s (e.symm (i, k))) →
              (∀ s, McHistory auto bins range "all" ((List.range R).map (smp s)) (mc s)) →
              ∃ E : σ → ℝ, (∀ s, ∃ m, (mc s).mean = some m ∧ m.shape = vs ∧ m.get c = some (E s)) ∧ MemLp E 2 μ ∧
                ∫ s, (E s - ∫ ω, φ (Y t ω) ∂P) ^ 2 ∂μ ≤
                  2 * Var[fun ω => φ (Y t ω); P] / (R * N) + 3 * (M ^ 2 * (K * δ)) := by
  obtain ⟨K, hK, h⟩ := C89_estimate hT hL y0 hpr hv hmo
  refine ⟨K, hK, ?_⟩
  intro σ C O N _ _ μ _ e S x0 hN hS hdt hids hcoef hinit hx0 hdraw Ω _ P _ Z Y hZ hY fuel steps i0 tl grid δ hδ ha hm
  have : Nonempty (Fin N) := ⟨⟨0, hN⟩⟩
  obtain ⟨X, ss, e0, e1, e2⟩ := h e hS hdt hids hcoef hinit hx0 hdraw hZ hY hδ ha hm
  refine ⟨X, ss, e0, e1, ?_⟩
  intro R hR t ht htI φ M hM hφ auto bins range vs c smp mc hau hc hs hmc
  obtain ⟨f1, -, f2⟩ := e2 R hR t ht htI φ M hM hφ
  rw [Fintype.card_fin] at f1 f2
  exact ⟨_, fun s => mean_of_samples hau hc hN hR (hs s) (hmc s), f1, f2⟩

end

section
variable {σ O : Type} [MeasurableSpace σ] {μ : Measure σ} [IsProbabilityMeasure μ]
  {paths : ℕ} {wshape : List ℕ} {rng : Rng σ} {draw : (List ℕ → ℝ) → List ℕ → σ → (List ℕ → ℤ) × σ}

/-- **C89** (sources). The sources of the library, with a Wiener source and a compound Poisson source whose intensity and
jumps do not depend on time, draw such noise, with paths along the last axis, from a random generator that provides normal
and Poisson variates, and jumps. -/
theorem C89_sources (hr : NormalDraws μ rng) (hd : PoissonDraws μ draw) (hne : Nonempty (Cells (wshape ++ [paths])))
    {l : ℝ} (hl : 0 ≤ l) {y : ℝ → Py (Rvs ℝ σ)} {rvs : Rvs ℝ σ} (hy : ∀ t, y t = .ok rvs) {ν : Measure ℝ}
    [IsProbabilityMeasure ν] (hv : VariatesLaw μ ν rvs) {S : SDE ℝ (Cells (wshape ++ [paths]) → ℝ) O ℕ σ}
    (hsrc : S.sources = [(idT, dtSource), (idW, wienerCells (wshape ++ [paths]) ⟨paths, wshape, .none⟩ rng),
      (idJ, cpoissonNoise (wshape ++ [paths]) ⟨paths, wshape, poissonCall ⟨paths, wshape, .arr (.scalar l)⟩ draw, y⟩)]) :
    (equation S).DrawsNoise idT μ (fun j h => pathsLaw (cellPath wshape paths) (jumpLaw idJ l ν j.1 h)) := by
  have h := C87_sources hr hd hne hl hy hv hsrc
  have e : (fun j h => pathsLaw (cellPath wshape paths) (jumpLaw idJ l ν j.1 h)) =
      (jumpNoise idJ l ν : (equation S).Stochastic idT → ℝ → Measure (Cells (wshape ++ [paths]) → ℝ)) := by
    funext j h
    have : IsProbabilityMeasure (compoundPoisson (l * h) ν) :=
      Measure.isProbabilityMeasure_map measurable_sumTo.aemeasurable
    unfold jumpLaw jumpNoise
    split_ifs
    · exact (pi_paths _ _).symm
    · exact (pi_paths _ _).symm
  rw [e]
  exact h

end

/-! ### Example -/

instance : Nonempty {id // id ∈ ({idT, idW, idJ} : Finset ℕ).erase idT} := ⟨⟨idW, by simp [idT, idW, idJ]⟩⟩

/-- `dx = x/20*dt + x/5*dw + x/10*dj`, with the sources of the library, for 3 jumps per unit of time of law
`N(-1, 1/4)`, with three paths and two components, in each of two runs: the mean, by `montecarlo`, of the absolute value
at 2 of the second component. -/
example : ∃ (Ω : Type) (_ : MeasurableSpace Ω) (P : Measure Ω)
    (Z : ℝ → Ω → {id // id ∈ ({idT, idW, idJ} : Finset ℕ).erase idT} → Cells [2] → ℝ) (Y : ℝ → Ω → Cells [2] → ℝ) (K : ℝ)
    (X : ℕ → ℝ → (ℕ → Item ℝ) → Cells ([2] ++ [3]) → ℝ) (ss : ℕ → (ℕ → Item ℝ) → ℕ → Item ℝ)
    (mc : (ℕ → Item ℝ) → MC ℝ) (E : (ℕ → Item ℝ) → ℝ),
    Solves P (fun _ x k => exCoef idT * x k) (fun j _ x k => exCoef j.1 * x k) 1 1 (fun _ => 10)
      (fun u ω c => Z u ω c.1 c.2) Y ∧
    (∀ r s, exMerton.call 10 .none 0 ⟨[3], [1, 3 / 2, 2]⟩ (ss r s) =
      .ok ([some (X r 1 s), some (X r (3 / 2) s), some (X r 2 s)], ss (r + 1) s)) ∧
    (∀ s, McHistory exAuto .none none "all" ((List.range 2).map fun r => exSmp fun i =>
      |X r 2 s ((cellPath [2] 3).symm (i, ⟨[1], by decide⟩))|) (mc s)) ∧
    (∀ s, ∃ m, (mc s).mean = some m ∧ m.shape = [] ∧ m.get [] = some (E s)) ∧
    ∫ s, (E s - ∫ ω, |Y 2 ω ⟨[1], by decide⟩| ∂P) ^ 2 ∂exState ≤
      2 * Var[fun ω => |Y 2 ω ⟨[1], by decide⟩|; P] / 6 + 3 * (K * (1 / 2)) := by
  have h2 : MemLp id 2 exJumpLaw := memLp_id_gaussianReal 2
  obtain ⟨Ω, mΩ, P, Z, hP, hI, hN⟩ := exists_noise_paths (ι := Cells [2]) (({idT, idW, idJ} : Finset ℕ).erase idT)
    (by norm_num : (0 : ℝ) ≤ 3) exJumpLaw h2
  have hL := exLipschitzN (ι := Cells [2]) (exCoef idT)
    (fun j : {id // id ∈ ({idT, idW, idJ} : Finset ℕ).erase idT} => exCoef j.1) 1 1
  have hv : ∀ j : ℕ, (0 : ℝ) < if j = idJ then 3 * ∫ x, x ^ 2 ∂exJumpLaw else 1 := fun j => by
    split_ifs
    · exact mul_pos (by norm_num) exJumpLaw_sq
    · exact one_pos
  obtain ⟨K0, -, h0⟩ := exists_solution_all zero_le_one hL (fun _ => 10) _
    (v := fun j => if j.1 = idJ then 3 * ∫ x, x ^ 2 ∂exJumpLaw else 1) fun j => hv j.1
  obtain ⟨Y, hY, -⟩ := h0 hN
  obtain ⟨K, -, h⟩ := C89_montecarlo (ids := {idT, idW, idJ}) (a := fun id _ x k => exCoef id * x k) (t0 := 1) (T := 1)
    zero_le_one hL (fun _ : Cells [2] => 10) (law := jumpLaw idJ 3 exJumpLaw)
    (fun j _ h _ => by
      have : IsProbabilityMeasure (compoundPoisson (3 * h) exJumpLaw) :=
        Measure.isProbabilityMeasure_map measurable_sumTo.aemeasurable
      unfold jumpLaw
      infer_instance)
    (m := fun j => if j = idJ then 3 * ∫ x, x ∂exJumpLaw else 0) (fun j _ => hv j)
    (fun j hj => jumpDiffusion_moments (J := ({idT, idW, idJ} : Finset ℕ).erase idT) (by norm_num) h2 ⟨j, hj⟩)
  obtain ⟨X, ss, -, e1, e2⟩ := h (N := 3) (cellPath [2] 3) (S := exMerton) (by norm_num) (exJumps_ok _ _) rfl
    (exJumps_ids _ _) (fun t x => by
      rw [exJumps_coef]
      congr 1
      funext id p
      simp only [Prod.mk.eta, Equiv.symm_apply_apply]) rfl (fun _ => rfl)
    (C89_sources (itemRng_draws stdNormal) (itemDraw_draws stdNormal) exCells (by norm_num) (fun _ => rfl) (by
      rw [exJumpLaw, ← stdNormal_affine]
      refine rvsOf_law (by fun_prop) (fun z => ?_) (itemSample_draws stdNormal)
      simp only [frozen]
      rw [if_neg (by norm_num)]) rfl) hI hY (δ := 1 / 2) (by norm_num) exAlongS exMesh
  choose mc hmc using fun s => exHistory (fun r => exSmp fun i => |X r 2 s ((cellPath [2] 3).symm (i, ⟨[1], by decide⟩))|)
    (fun r => rfl) (fun r => ⟨by simp [exSmp], by simp [exSmp], .inl rfl⟩) 2
  obtain ⟨E, f1, -, f2⟩ := e2 2 (by norm_num) 2 (by simp) (by norm_num) (fun x => |x ⟨[1], by decide⟩|) 1 zero_le_one
    (fun x y => by
      rw [one_mul]
      refine (abs_abs_sub_abs_le_abs_sub _ _).trans (Real.le_sqrt_of_sq_le ?_)
      rw [sq_abs]
      exact Finset.single_le_sum (f := fun c => (x c - y c) ^ 2) (fun p _ => sq_nonneg _) (Finset.mem_univ _))
    exAuto_ok (vs := []) (c := []) (by simp [InRange]) (fun s r _ => ⟨rfl, by
      simp [exSmp, Batch.raw, Batch.ax, List.ofFn_succ, List.range_succ]⟩) hmc
  refine ⟨Ω, mΩ, P, Z, Y, K, X, ss, mc, E, hY, e1, hmc, f1, f2.trans (le_of_eq ?_)⟩
  norm_num

end Sdepy
