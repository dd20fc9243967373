import Verif.Spec.Chain
import Verif.Lemmas.Draws
import Verif.Lemmas.OuLaw

/-!
# Simulated values as a recursion driven by independent noise
-/

set_option linter.unusedSectionVars false

open MeasureTheory ProbabilityTheory

namespace Sdepy

open Spec

variable {σ A B C X : Type} [MeasurableSpace σ] [MeasurableSpace A] [MeasurableSpace B]
  [MeasurableSpace C] {μ : Measure σ} [IsProbabilityMeasure μ]

/-- If `x` is independent of `z` and `s` together, and `z` of `s`, then `x` and `z` together are
independent of `s`. -/
theorem indep_assoc {Ω : Type} [MeasurableSpace Ω] {P : Measure Ω} [IsProbabilityMeasure P]
    {x : Ω → C} {z : Ω → B} {s : Ω → A} (hx : Measurable x) (hz : Measurable z) (hs : Measurable s)
    (h1 : IndepFun x (fun ω => (z ω, s ω)) P) (h2 : IndepFun z s P) :
    IndepFun (fun ω => (x ω, z ω)) s P := by
  have h0 : IndepFun x z P := h1.comp measurable_id measurable_fst
  rw [indepFun_iff_map_prod_eq_prod_map_map (by fun_prop) (by fun_prop)] at h0 h1 h2 ⊢
  have px : IsProbabilityMeasure (P.map x) := Measure.isProbabilityMeasure_map hx.aemeasurable
  have pz : IsProbabilityMeasure (P.map z) := Measure.isProbabilityMeasure_map hz.aemeasurable
  have ps : IsProbabilityMeasure (P.map s) := Measure.isProbabilityMeasure_map hs.aemeasurable
  rw [h0]
  rw [h2] at h1
  have e : (fun ω => ((x ω, z ω), s ω)) =
      (MeasurableEquiv.prodAssoc (α := C) (β := B) (γ := A)).symm ∘ fun ω => (x ω, z ω, s ω) := rfl
  rw [e, ← Measure.map_map (MeasurableEquiv.measurable _) (by fun_prop), h1,
    ← Measure.prodAssoc_prod, Measure.map_map (MeasurableEquiv.measurable _)
      (MeasurableEquiv.measurable _), MeasurableEquiv.symm_comp_self, Measure.map_id]

section
variable [CommRing X] {E : Equation ℝ X ℕ σ} {z : ℝ → ℝ → σ → Py (A × σ)} {F : ℝ → ℝ → X → A → X}
  {N : ℝ → ℝ → Measure A} {φ : X → C} {ψ : A → B} {f : ℝ → ℝ → C → B → C}

theorem chain_path
    (hstep : ∀ t x t' s, E.step t x t' s = (z t (t' - t) s).map fun r => (F t t' x r.1, r.2))
    (hz : ∀ t dt, dt ≠ 0 → DrawsLaw μ (N t dt) (z t dt)) (hψ : Measurable ψ)
    (hf : ∀ t t', Measurable (Function.uncurry (f t t')))
    (hφ : ∀ t t' x r, φ (F t t' x r) = f t t' (φ x) (ψ r)) :
    ∀ (l : List ℝ) (t : ℝ) (x : σ → X) (st : σ → σ), Measurable st → Measurable (fun s => φ (x s)) →
    IndepFun (fun s => φ (x s)) st μ → μ.map st = μ → (t :: l).Nodup →
    ∃ (Y : ℝ → σ → X) (st' : σ → σ), Measurable st' ∧ μ.map st' = μ ∧
      (∀ s, E.path t (x s) l (st s) = .ok (l.map fun u => (u, Y u s), st' s)) ∧
      Y t = x ∧ (∀ u ∈ t :: l, Measurable fun s => φ (Y u s)) ∧
      ∀ l1 a b l2, t :: l = l1 ++ a :: b :: l2 → ∃ Z : σ → B, Measurable Z ∧
        HasLaw Z ((N a (b - a)).map ψ) μ ∧ IndepFun (fun s => φ (Y a s)) Z μ ∧
        ∀ s, φ (Y b s) = f a b (φ (Y a s)) (Z s) := by
  intro l
  induction l with
  | nil =>
    intro t x st hst hx _ hμ _
    refine ⟨fun _ => x, st, hst, hμ, fun s => rfl, rfl, fun _ _ => hx, ?_⟩
    intro l1 a b l2 h
    have := congrArg List.length h
    simp at this
    omega
  | cons v l ih =>
    intro t x st hst hx hind hμ hnd
    have hne : v ≠ t := by
      rw [List.nodup_cons] at hnd
      rintro rfl
      exact hnd.1 (by simp)
    have hlaw := hz t (v - t) (sub_ne_zero.2 hne)
    have hpN := hlaw.isProb
    obtain ⟨g, hg, hgz, hgm⟩ := hlaw
    let Z : σ → B := fun s => ψ (g (st s)).1
    let st1 : σ → σ := fun s => (g (st s)).2
    have hZ : Measurable Z := hψ.comp (measurable_fst.comp (hg.comp hst))
    have hst1 : Measurable st1 := measurable_snd.comp (hg.comp hst)
    have hjoint : μ.map (fun s => (Z s, st1 s)) = ((N t (v - t)).map ψ).prod μ := by
      have e : (fun s => (Z s, st1 s)) = Prod.map ψ id ∘ g ∘ st := rfl
      rw [e, ← Measure.map_map (by fun_prop) (hg.comp hst), ← Measure.map_map hg hst, hμ, hgm,
        ← Measure.map_prod_map _ _ hψ measurable_id, Measure.map_id]
    have hpψ : IsProbabilityMeasure ((N t (v - t)).map ψ) :=
      Measure.isProbabilityMeasure_map hψ.aemeasurable
    have hZl : μ.map Z = (N t (v - t)).map ψ := by
      have e : Z = Prod.fst ∘ fun s => (Z s, st1 s) := rfl
      rw [e, ← Measure.map_map measurable_fst (hZ.prodMk hst1), hjoint, Measure.map_fst_prod,
        measure_univ, one_smul]
    have hs1 : μ.map st1 = μ := by
      have e : st1 = Prod.snd ∘ fun s => (Z s, st1 s) := rfl
      rw [e, ← Measure.map_map measurable_snd (hZ.prodMk hst1), hjoint, Measure.map_snd_prod,
        measure_univ, one_smul]
    have hind2 : IndepFun Z st1 μ := by
      rw [indepFun_iff_map_prod_eq_prod_map_map hZ.aemeasurable hst1.aemeasurable, hjoint, hZl, hs1]
    have hind1 : IndepFun (fun s => φ (x s)) (fun s => (Z s, st1 s)) μ :=
      hind.comp measurable_id (show Measurable (Prod.map ψ id ∘ g) by
        exact (Measurable.prodMap hψ measurable_id).comp hg)
    have hind0 : IndepFun (fun s => φ (x s)) Z μ := hind1.comp measurable_id measurable_fst
    let x1 : σ → X := fun s => F t v (x s) (g (st s)).1
    have hx1 : ∀ s, φ (x1 s) = f t v (φ (x s)) (Z s) := fun s => hφ _ _ _ _
    have hx1m : Measurable fun s => φ (x1 s) := by
      simp only [hx1]
      exact (hf t v).comp (hx.prodMk hZ)
    have hind3 : IndepFun (fun s => φ (x1 s)) st1 μ := by
      simp only [hx1]
      exact (indep_assoc hx hZ hst1 hind1 hind2).comp (hf t v) measurable_id
    obtain ⟨Y, st', h1, h2, h3, h4, h5, h6⟩ := ih v x1 st1 hst1 hx1m hind3 hs1 (List.nodup_cons.1 hnd).2
    have htl : t ∉ v :: l := (List.nodup_cons.1 hnd).1
    let Y' : ℝ → σ → X := fun u => if u = t then x else Y u
    have hYt : Y' t = x := by simp [Y']
    have hYu : ∀ u ∈ v :: l, Y' u = Y u := by
      intro u hu
      have : u ≠ t := by rintro rfl; exact htl hu
      simp [Y', this]
    refine ⟨Y', st', h1, h2, ?_, hYt, ?_, ?_⟩
    · intro s
      have e1 : E.step t (x s) v (st s) = .ok (x1 s, st1 s) := by
        rw [hstep, hgz]; rfl
      have e2 := h3 s
      simp only [Equation.path, bind, Except.bind, e1, e2, pure, Except.pure, List.map_cons,
        Except.ok.injEq, Prod.mk.injEq, List.cons.injEq, true_and, and_true]
      refine ⟨by rw [hYu v (by simp), h4], ?_⟩
      apply List.map_congr_left
      intro u hu
      rw [hYu u (by simp [hu])]
    · intro u hu
      rcases List.mem_cons.1 hu with rfl | hu
      · rw [hYt]; exact hx
      · rw [hYu u hu]; exact h5 u hu
    · intro l1 a b l2 h
      cases l1 with
      | nil =>
        simp only [List.nil_append, List.cons.injEq] at h
        obtain ⟨rfl, rfl, rfl⟩ := h
        refine ⟨Z, hZ, ⟨hZ.aemeasurable, hZl⟩, by rw [hYt]; exact hind0, fun s => ?_⟩
        rw [hYt, hYu v (by simp), h4]
        exact hx1 s
      | cons c l1 =>
        simp only [List.cons_append, List.cons.injEq] at h
        obtain ⟨rfl, h⟩ := h
        have ha : a ∈ v :: l := by rw [h]; simp
        have hb : b ∈ v :: l := by rw [h]; simp
        rw [hYu a ha, hYu b hb]
        exact h6 l1 a b l2 h

/-- Two consecutive elements of a sorted list. -/
theorem split_consecutive {R : ℝ → ℝ → Prop} (htr : ∀ a b, R a b → ¬ R b a) {l : List ℝ}
    (hl : l.Pairwise R) {a b : ℝ} (ha : a ∈ l) (hb : b ∈ l) (hab : R a b)
    (hn : ∀ c ∈ l, ¬ (R a c ∧ R c b)) : ∃ l1 l2, l = l1 ++ a :: b :: l2 := by
  obtain ⟨l1, l2, rfl⟩ := List.append_of_mem ha
  rw [List.pairwise_append, List.pairwise_cons] at hl
  obtain ⟨h1, ⟨h2, h3⟩, h4⟩ := hl
  cases l2 with
  | nil =>
    rcases List.mem_append.1 hb with hb | hb
    · exact absurd (h4 b hb a (by simp)) (htr _ _ hab)
    · simp at hb; subst hb; exact absurd hab (htr _ _ hab)
  | cons c l2 =>
    have hac := h2 c (by simp)
    rcases List.mem_append.1 hb with hb | hb
    · exact absurd (h4 b hb a (by simp)) (htr _ _ hab)
    · rcases List.mem_cons.1 hb with rfl | hb
      · exact absurd hab (htr _ _ hab)
      · rcases List.mem_cons.1 hb with rfl | hb
        · exact ⟨l1, l2, rfl⟩
        · exact absurd ⟨hac, (List.pairwise_cons.1 h3).1 b hb⟩ (hn c (by simp))

/-- The solution on a grid, in both directions from `t0`: part of the state, `φ(x)`, whose steps depend on
that part only, and on part of the noise. -/
theorem chain_solution
    (hstep : ∀ t x t' s, E.step t x t' s = (z t (t' - t) s).map fun r => (F t t' x r.1, r.2))
    (hz : ∀ t dt, dt ≠ 0 → DrawsLaw μ (N t dt) (z t dt)) (hψ : Measurable ψ)
    (hf : ∀ t t', Measurable (Function.uncurry (f t t')))
    (hφ : ∀ t t' x r, φ (F t t' x r) = f t t' (φ x) (ψ r)) (x0 : X)
    {grid : List ℝ} (hg : grid.Pairwise (· < ·)) {t0 : ℝ} (h0 : t0 ∈ grid) :
    ∃ (Y : ℝ → σ → X) (st : σ → σ),
      (∀ s, E.solution t0 x0 grid s = .ok (grid.map fun u => (u, Y u s), st s)) ∧
      IsRecursion μ (fun t dt => (N t dt).map ψ) f t0 (φ x0) grid fun u s => φ (Y u s) := by
  have hp1 : (t0 :: (grid.filter (· < t0)).reverse).Pairwise (· > ·) := by
    rw [List.pairwise_cons]
    refine ⟨fun a ha => ?_, ?_⟩
    · simp at ha; exact ha.2
    · rw [List.pairwise_reverse]; exact (hg.filter _)
  have hp2 : (t0 :: grid.filter (t0 < ·)).Pairwise (· < ·) := by
    rw [List.pairwise_cons]
    refine ⟨fun a ha => ?_, hg.filter _⟩
    simp at ha; exact ha.2
  have hc : ∀ s : σ → σ, IndepFun (fun _ : σ => φ x0) s μ := fun s => indepFun_const_left _ _
  obtain ⟨Y1, st1, a1, a2, a3, a4, a5, a6⟩ := chain_path hstep hz hψ hf hφ
    (grid.filter (· < t0)).reverse t0 (fun _ => x0) id measurable_id measurable_const (hc _)
    Measure.map_id (hp1.imp fun h => ne_of_gt h)
  obtain ⟨Y2, st2, b1, b2, b3, b4, b5, b6⟩ := chain_path hstep hz hψ hf hφ
    (grid.filter (t0 < ·)) t0 (fun _ => x0) st1 a1 measurable_const (hc _)
    a2 (hp2.imp fun h => ne_of_lt h)
  let Y : ℝ → σ → X := fun u => if u < t0 then Y1 u else Y2 u
  have hY1 : ∀ u ≤ t0, Y u = Y1 u := by
    intro u hu
    rcases hu.eq_or_lt with rfl | hu
    · simp only [Y, lt_irrefl, if_false, a4, b4]
    · simp only [Y, if_pos hu]
  have hY2 : ∀ u, t0 ≤ u → Y u = Y2 u := fun u hu => by simp only [Y, if_neg (not_lt.2 hu)]
  have m1 : ∀ u ∈ grid, u ≤ t0 → u ∈ t0 :: (grid.filter (· < t0)).reverse := by
    intro u hu hle
    rcases hle.eq_or_lt with rfl | hlt
    · simp
    · simp [hu, hlt]
  have m2 : ∀ u ∈ grid, t0 ≤ u → u ∈ t0 :: grid.filter (t0 < ·) := by
    intro u hu hle
    rcases hle.eq_or_lt with rfl | hlt
    · simp
    · simp [hu, hlt]
  refine ⟨Y, st2, fun s => ?_, ⟨fun s => by rw [hY2 _ le_rfl, b4], fun u hu => ?_, ?_⟩⟩
  · have e1 := a3 s
    have e2 := b3 s
    simp only [id] at e1
    simp only [Equation.solution, bind, Except.bind, pure, Except.pure, e1, e2, Except.ok.injEq,
      Prod.mk.injEq, and_true]
    conv_rhs => rw [← filter_split3 hg h0]
    simp only [List.map_append, List.map_cons, List.map_reverse, List.reverse_reverse]
    congr 1
    · apply List.map_congr_left
      intro u hu
      simp at hu
      rw [hY1 u hu.2.le]
    · rw [hY2 _ le_rfl, b4]
      simp only [List.cons.injEq, true_and]
      apply List.map_congr_left
      intro u hu
      simp at hu
      rw [hY2 u hu.2.le]
  · rcases le_total u t0 with h | h
    · rw [hY1 u h]; exact a5 u (m1 u hu h)
    · rw [hY2 u h]; exact b5 u (m2 u hu h)
  · rintro a b ⟨ha, hb, ⟨h1, h2, h3⟩ | ⟨h1, h2, h3⟩⟩
    · obtain ⟨l1, l2, hl⟩ := split_consecutive (fun a b h => not_lt.2 h.le) hp2 (m2 a ha h1)
        (m2 b hb (h1.trans h2.le)) h2 (fun c hc => h3 c (by
          simp at hc; rcases hc with rfl | hc; exacts [h0, hc.1]))
      rw [hY2 a h1, hY2 b (h1.trans h2.le)]
      exact b6 l1 a b l2 hl
    · obtain ⟨l1, l2, hl⟩ := split_consecutive (R := (· > ·)) (fun a b h => not_lt.2 (le_of_lt h)) hp1
        (m1 a ha h1) (m1 b hb (h2.le.trans h1)) h2 (fun c hc => fun hh => h3 c (by
          simp at hc; rcases hc with rfl | hc; exacts [h0, hc.1]) ⟨hh.2, hh.1⟩)
      rw [hY1 a h1, hY1 b (h2.le.trans h1)]
      exact a6 l1 a b l2 hl

end

/-- Induction along the points of a grid after `t0`. -/
theorem grid_induction {grid : List ℝ} (hg : grid.Pairwise (· < ·)) {t0 : ℝ} (h0 : t0 ∈ grid)
    {Q : ℝ → Prop} (hQ0 : Q t0)
    (hQ : ∀ a b, StepOf grid t0 a b → t0 ≤ a → a < b → Q a → Q b) :
    ∀ u ∈ grid, t0 ≤ u → Q u := by
  intro u hu hle
  have key : ∀ l1 l2, t0 :: grid.filter (t0 < ·) = l1 ++ l2 → ∀ v ∈ l1, Q v := by
    have hp2 : (t0 :: grid.filter (t0 < ·)).Pairwise (· < ·) := by
      rw [List.pairwise_cons]
      refine ⟨fun a ha => ?_, hg.filter _⟩
      simp at ha; exact ha.2
    have hm : ∀ v ∈ t0 :: grid.filter (t0 < ·), v ∈ grid ∧ t0 ≤ v := by
      intro v hv
      simp at hv
      rcases hv with rfl | hv
      · exact ⟨h0, le_rfl⟩
      · exact ⟨hv.1, hv.2.le⟩
    intro l1
    induction l1 using List.reverseRecOn with
    | nil => intro _ _ v hv; simp at hv
    | append_singleton l1 b ih =>
      intro l2 h v hv
      have h' : t0 :: grid.filter (t0 < ·) = l1 ++ b :: l2 := by simpa using h
      rcases List.mem_append.1 hv with hv | hv
      · exact ih _ h' v hv
      · simp at hv
        subst hv
        rcases List.eq_nil_or_concat l1 with rfl | ⟨l, a, rfl⟩
        · simp at h'
          rw [← h'.1]; exact hQ0
        · rw [List.concat_eq_append] at h' ih
          have ha := ih _ h' a (by simp)
          have ham := hm a (by rw [h']; simp)
          have hvm := hm v (by rw [h']; simp)
          rw [h'] at hp2
          have hlt : a < v := (List.pairwise_append.1 hp2).2.2 a (by simp) v (by simp)
          refine hQ a v ⟨ham.1, hvm.1, .inl ⟨ham.2, hlt, ?_⟩⟩ ham.2 hlt ha
          rintro c hc ⟨c1, c2⟩
          have hcm : c ∈ t0 :: grid.filter (t0 < ·) := by simp [hc, ham.2.trans_lt c1]
          rw [h'] at hcm
          rcases List.mem_append.1 hcm with hc | hc
          · rcases List.mem_append.1 hc with hc | hc
            · have := (List.pairwise_append.1 (List.pairwise_append.1 hp2).1 |>.2.2 c hc a (by simp))
              linarith
            · simp at hc; linarith
          · rcases List.mem_cons.1 hc with rfl | hc
            · exact lt_irrefl _ c2
            · have := (List.pairwise_cons.1 (List.pairwise_append.1 hp2).2.1).1 c hc
              linarith
  refine key _ [] (by simp; rfl) u ?_
  rcases hle.eq_or_lt with rfl | hlt
  · simp
  · simp [hu, hlt]

end Sdepy
