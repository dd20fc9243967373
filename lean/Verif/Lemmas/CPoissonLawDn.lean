import Verif.Props.PoissonLaw
import Mathlib.MeasureTheory.Measure.Prod

/-!
# Evaluations of the Poisson source underlying a compound Poisson source with memory

Steps of a Poisson source along a given path, on events that also concern something else than the state
of the generator: the sizes of jumps.
-/

set_option linter.unusedSectionVars false
set_option linter.unusedSimpArgs false

open MeasureTheory

namespace Sdepy

open Spec

section pre
variable {Ω σ : Type} [MeasurableSpace Ω] [MeasurableSpace σ] {μ : Measure σ} {π : Measure Ω}
  [SFinite μ] [SFinite π]

/-- A draw with a given outcome, on the product with another space. -/
theorem pre_prod {R : σ → σ → Prop} (hR : ∀ s a b, R s a → R s b → a = b) {p : ENNReal}
    (h : ∀ B, MeasurableSet B → MeasurableSet {s | ∃ s' ∈ B, R s s'} ∧
      μ {s | ∃ s' ∈ B, R s s'} = p * μ B) {C : Set (Ω × σ)} (hC : MeasurableSet C) :
    MeasurableSet {q : Ω × σ | ∃ s', (q.1, s') ∈ C ∧ R q.2 s'} ∧
      (π.prod μ) {q : Ω × σ | ∃ s', (q.1, s') ∈ C ∧ R q.2 s'} = p * (π.prod μ) C := by
  classical
  set D : Set σ := {s | ∃ s' ∈ Set.univ, R s s'} with hD
  have hDm : MeasurableSet D := (h _ MeasurableSet.univ).1
  let f : σ → σ := fun s => if hs : ∃ s', R s s' then hs.choose else s
  have hfD : ∀ s s', R s s' → f s = s' := by
    intro s s' hs
    have hex : ∃ s', R s s' := ⟨s', hs⟩
    simp only [f, dif_pos hex]
    exact hR _ _ _ hex.choose_spec hs
  have hf : Measurable f := by
    intro B hB
    have e : f ⁻¹' B = {s | ∃ s' ∈ B, R s s'} ∪ (Dᶜ ∩ B) := by
      ext s
      by_cases hs : ∃ s', R s s'
      · obtain ⟨s', hs'⟩ := hs
        have hsD : s ∈ D := ⟨s', trivial, hs'⟩
        simp only [Set.mem_preimage, hfD s s' hs', Set.mem_union, Set.mem_setOf_eq, Set.mem_inter_iff,
          Set.mem_compl_iff, hsD, not_true_eq_false, false_and, or_false]
        constructor
        · exact fun hb => ⟨s', hb, hs'⟩
        · rintro ⟨s'', hb, hs''⟩
          rwa [hR _ _ _ hs' hs'']
      · have hsD : s ∉ D := by rintro ⟨s', -, h'⟩; exact hs ⟨s', h'⟩
        have : f s = s := by simp only [f, dif_neg hs]
        simp only [Set.mem_preimage, this, Set.mem_union, Set.mem_setOf_eq, Set.mem_inter_iff,
          Set.mem_compl_iff, hsD, not_false_eq_true, true_and]
        constructor
        · exact .inr
        · rintro (⟨s', -, h'⟩ | hb)
          · exact absurd ⟨s', h'⟩ hs
          · exact hb
    rw [e]
    exact (h B hB).1.union (hDm.compl.inter hB)
  have e : {q : Ω × σ | ∃ s', (q.1, s') ∈ C ∧ R q.2 s'} =
      (Prod.snd ⁻¹' D) ∩ (fun q : Ω × σ => (q.1, f q.2)) ⁻¹' C := by
    ext ⟨w, s⟩
    simp only [Set.mem_setOf_eq, Set.mem_inter_iff, Set.mem_preimage]
    constructor
    · rintro ⟨s', hc, hr⟩
      rw [hfD s s' hr]
      exact ⟨⟨s', trivial, hr⟩, hc⟩
    · rintro ⟨⟨s', -, hr⟩, hc⟩
      rw [hfD s s' hr] at hc
      exact ⟨s', hc, hr⟩
  have hm : MeasurableSet {q : Ω × σ | ∃ s', (q.1, s') ∈ C ∧ R q.2 s'} := by
    rw [e]
    exact (measurable_snd hDm).inter ((measurable_fst.prodMk (hf.comp measurable_snd)) hC)
  refine ⟨hm, ?_⟩
  rw [Measure.prod_apply hm, Measure.prod_apply hC,
    ← lintegral_const_mul _ (measurable_measure_prodMk_left hC)]
  refine lintegral_congr fun w => ?_
  have := (h (Prod.mk w ⁻¹' C) (measurable_prodMk_left hC)).2
  rw [← this]
  rfl

end pre

variable {ι σ : Type} [Fintype ι] [MeasurableSpace σ] {μ : Measure σ} {lam rtol : ℝ}
  {dn : ℝ → ℝ → σ → Py ((ι → ℤ) × σ)} {binomial : (ι → ℤ) → ℝ → σ → (ι → ℤ) × σ}
  {x : ℝ → ι → ℤ}

/-- The path is known at a time, from its values at the times `nts`: it does not change around. -/
def NKnows (x : ℝ → ι → ℤ) (nts : List ℝ) (u : ℝ) : Prop :=
  ∃ a ∈ nts, ∃ b ∈ nts, a ≤ u ∧ u ≤ b ∧ x a = x b

theorem NKnows.of_mem {nts : List ℝ} {u : ℝ} (h : u ∈ nts) : NKnows x nts u :=
  ⟨u, h, u, h, le_rfl, le_rfl, rfl⟩

theorem NKnows.mono {nts nts' : List ℝ} {u : ℝ} (h : NKnows x nts u) (hs : ∀ a ∈ nts, a ∈ nts') :
    NKnows x nts' u := by
  obtain ⟨a, ha, b, hb, h'⟩ := h
  exact ⟨a, hs a ha, b, hs b hb, h'⟩

theorem NKnows.between (hx : Monotone x) {nts : List ℝ} {a b u : ℝ} (ha : NKnows x nts a)
    (hb : NKnows x nts b) (hau : a ≤ u) (hub : u ≤ b) (hab : x a = x b) : NKnows x nts u := by
  obtain ⟨a1, m1, a2, m2, h1, h2, h3⟩ := ha
  obtain ⟨b1, n1, b2, n2, g1, g2, g3⟩ := hb
  refine ⟨a1, m1, b2, n2, h1.trans hau, hub.trans g2, ?_⟩
  have e1 : x a1 = x a := le_antisymm (hx h1) (h3 ▸ hx h2)
  have e2 : x b2 = x b := le_antisymm (g3 ▸ hx g1) (hx g2)
  rw [e1, e2, hab]

theorem sorted_gap {ts : List ℝ} (hts : ts.Pairwise (· < ·)) {s : ℝ} (hs : s ∉ ts) :
    ∃ l1 l2, ts = l1 ++ l2 ∧ (∀ u ∈ l1, u < s) ∧ (∀ u ∈ l2, s < u) ∧
      (l1 ++ s :: l2).Pairwise (· < ·) := by
  have hi := insertIdx_sorted hts hs
  rw [insertIdx_eq (bisectRight_spec ts s hts).2.2] at hi
  have hi' := hi
  rw [List.pairwise_append] at hi'
  exact ⟨_, _, (List.take_append_drop _ _).symm, fun u hu => hi'.2.2 u hu s (by simp),
    (List.pairwise_cons.1 hi'.2.1).1, hi⟩

/-- Evaluations at known times. -/
theorem NKnows.get1 (hx : Monotone x) (hr : 0 ≤ rtol) {nts : List ℝ} (hs : nts.Pairwise (· < ·)) {u : ℝ}
    (hap : ∀ a ∈ nts, u ≠ a → ¬ |u - a| ≤ rtol * |a|) (h : NKnows x nts u) (st : σ) :
    (truePoisson rtol dn binomial).get1 u (pathMem x nts st) = .ok (x u, pathMem x nts st) := by
  by_cases hu : u ∈ nts
  · obtain ⟨l1, l2, rfl, -, -⟩ := sorted_split hs hu
    have e : l1 ++ u :: l2 = l1 ++ [u] ++ l2 := by simp
    rw [e] at hs ⊢
    exact poisson_get1_known hr hs st
  obtain ⟨l1, l2, rfl, h1, h2, -⟩ := sorted_gap hs hu
  obtain ⟨a, ha, b, hb, hau, hub, hab⟩ := h
  have ha1 : a ∈ l1 := by
    rcases List.mem_append.1 ha with h | h
    · exact h
    · exact absurd (h2 a h) (not_lt.2 hau)
  have hb2 : b ∈ l2 := by
    rcases List.mem_append.1 hb with h | h
    · exact absurd (h1 b h) (not_lt.2 hub)
    · exact h
  obtain ⟨l1, a', rfl⟩ : ∃ l a', l1 = l ++ [a'] :=
    ⟨l1.dropLast, l1.getLast (List.ne_nil_of_mem ha1), (List.dropLast_append_getLast _).symm⟩
  cases l2 with
  | nil => simp at hb2
  | cons b' l2 =>
    have haa : a ≤ a' := by
      rcases List.mem_append.1 ha1 with h | h
      · rw [List.pairwise_append, List.pairwise_append] at hs
        exact (hs.1.2.2 a h a' (by simp)).le
      · rw [List.mem_singleton.1 h]
    have hbb : b' ≤ b := by
      rcases List.mem_cons.1 hb2 with rfl | h
      · exact le_rfl
      · rw [List.pairwise_append] at hs
        exact ((List.pairwise_cons.1 hs.2.1).1 b h).le
    have ha'u := h1 a' (by simp)
    have hub' := h2 b' (by simp)
    have hf : x a' = x b' := le_antisymm (hx (ha'u.trans hub').le)
      ((hx hbb).trans (hab ▸ hx haa))
    have hfu : x u = x b' := le_antisymm (hx hub'.le) (hf ▸ hx ha'u.le)
    have e : l1 ++ [a'] ++ b' :: l2 = l1 ++ a' :: b' :: l2 := by simp
    rw [e] at hs hap ⊢
    rw [poisson_get1_between hs ha'u hub' (hap a' (by simp) ha'u.ne'), if_pos (fun i => congrFun hf i),
      hfu]

/-- One evaluation along the path. -/
theorem nstep {Ω : Type} [MeasurableSpace Ω] {π : Measure Ω} [IsProbabilityMeasure π]
    [IsProbabilityMeasure μ]
    (hG : PoissonGenerator μ lam dn binomial) (hl : 0 ≤ lam) (hr : 0 ≤ rtol) (hx : Monotone x)
    {nts : List ℝ} (hs : nts.Pairwise (· < ·)) (hne : nts ≠ []) {u : ℝ}
    (hap : ∀ a ∈ nts, u ≠ a → ¬ |u - a| ≤ rtol * |a|) :
    ∃ nts', nts'.Pairwise (· < ·) ∧ nts' ≠ [] ∧ (∀ a ∈ nts, a ∈ nts') ∧
      (∀ a ∈ nts', a = u ∨ a ∈ nts) ∧ NKnows x nts' u ∧
      ∀ C : Set (Ω × σ), MeasurableSet C → ∃ S : Set (Ω × σ), MeasurableSet S ∧
        ENNReal.ofReal (poissonPathProb lam x nts) * (π.prod μ) S =
          ENNReal.ofReal (poissonPathProb lam x nts') * (π.prod μ) C ∧
        ∀ p ∈ S, ∃ st', (p.1, st') ∈ C ∧
          (truePoisson rtol dn binomial).get1 u (pathMem x nts p.2) = .ok (x u, pathMem x nts' st') := by
  by_cases hk : NKnows x nts u
  · exact ⟨nts, hs, hne, fun _ => id, fun _ => .inr, hk, fun C hC => ⟨C, hC, rfl, fun p hp =>
      ⟨p.2, hp, hk.get1 hx hr hs hap p.2⟩⟩⟩
  have hu : u ∉ nts := fun h => hk (.of_mem h)
  obtain ⟨l1, l2, rfl, h1, h2, hnew⟩ := sorted_gap hs hu
  have hclose : ∀ a ∈ l1 ++ l2, ¬ |u - a| ≤ rtol * |a| := fun a ha => hap a ha fun h => hu (h ▸ ha)
  refine ⟨l1 ++ u :: l2, hnew, by simp, ?_, ?_, .of_mem (by simp), ?_⟩
  · intro a ha
    simp only [List.mem_append, List.mem_cons] at ha ⊢
    tauto
  · intro a ha
    simp only [List.mem_append, List.mem_cons] at ha ⊢
    tauto
  intro C hC
  rcases List.eq_nil_or_concat l1 with rfl | ⟨l1, a, rfl⟩
  · cases l2 with
    | nil => simp at hne
    | cons b l2 =>
      simp only [List.nil_append] at *
      have hsb := h2 b (by simp)
      obtain ⟨g1, g2⟩ := pre_prod (π := π) (μ := μ)
        (R := fun s s' => dn b (u - b) s = .ok (x u - x b, s'))
        (fun s a b h1 h2 => by rw [h1] at h2; simpa using h2)
        (fun B hB => hG.poisson b (u - b) (by linarith [hsb]) (x u - x b) B hB) hC
      refine ⟨_, g1, ?_, ?_⟩
      · rw [g2, ← mul_assoc, ← ENNReal.ofReal_mul (pathProb_nonneg hl hs)]
        congr 2
        rw [poissonPathProb, mul_comm, abs_of_neg (by linarith)]
        have hno : ¬ 0 < u - b := by linarith
        simp only [hno, if_false]
        congr 1
        refine Finset.prod_congr rfl fun i _ => ?_
        rw [Pi.sub_apply, neg_sub, neg_sub]
      · rintro p ⟨st', hc, hd⟩
        refine ⟨st', hc, ?_⟩
        rw [poisson_get1_before hs hsb hclose, hd]
        simp [pathMem]
  · simp only [List.concat_eq_append] at *
    have has := h1 a (by simp)
    cases l2 with
    | nil =>
      simp only [List.append_nil] at *
      obtain ⟨g1, g2⟩ := pre_prod (π := π) (μ := μ)
        (R := fun s s' => dn a (u - a) s = .ok (x u - x a, s'))
        (fun s a b h1 h2 => by rw [h1] at h2; simpa using h2)
        (fun B hB => hG.poisson a (u - a) (by linarith [has]) (x u - x a) B hB) hC
      refine ⟨_, g1, ?_, ?_⟩
      · rw [g2, ← mul_assoc, ← ENNReal.ofReal_mul (pathProb_nonneg hl hs)]
        congr 2
        have e : l1 ++ [a] ++ [u] = l1 ++ a :: [u] := by simp
        rw [e, pathProb_append l1 a [u]]
        congr 1
        simp only [poissonPathProb, mul_one]
        have hyes : 0 < u - a := by linarith
        rw [abs_of_pos hyes]
        simp only [hyes, if_true, Pi.sub_apply]
      · rintro p ⟨st', hc, hd⟩
        refine ⟨st', hc, ?_⟩
        rw [poisson_get1_after hs has (hclose a (by simp)), hd]
        simp [pathMem]
    | cons b l2 =>
      have hsb := h2 b (by simp)
      have e : l1 ++ [a] ++ b :: l2 = l1 ++ a :: b :: l2 := by simp
      have e' : l1 ++ [a] ++ u :: b :: l2 = l1 ++ a :: u :: b :: l2 := by simp
      rw [e] at hs hne hap hclose hk ⊢
      rw [e'] at hnew ⊢
      have hf : ¬ x a = x b := fun hf => hk ⟨a, by simp, b, by simp, has.le, hsb.le, hf⟩
      have hn : ¬ ∃ i, x b i - x a i < 0 := by
        rintro ⟨i, hi⟩
        have := hx (has.trans hsb).le i
        linarith
      have hba : 0 < b - a := by linarith
      have hp0 : 0 ≤ (u - a) / (b - a) := div_nonneg (by linarith) hba.le
      have hp1 : (u - a) / (b - a) ≤ 1 := (div_le_one hba).2 (by linarith)
      have hbin := hG.binomial (x b - x a) ((u - a) / (b - a))
        (fun i => not_lt.1 fun h => hn ⟨i, h⟩) hp0 hp1 (x u - x a)
      obtain ⟨g1, g2⟩ := pre_prod (π := π) (μ := μ)
        (R := fun s s' => (binomial (x b - x a) ((u - a) / (b - a)) s).1 = x u - x a ∧
          (binomial (x b - x a) ((u - a) / (b - a)) s).2 = s')
        (p := ENNReal.ofReal (∏ i, binomialProb ((x b - x a) i) ((u - a) / (b - a)) ((x u - x a) i)))
        (fun s a b h1 h2 => by rw [← h1.2, ← h2.2])
        (fun B hB => by
          have e : {s | ∃ s' ∈ B, (binomial (x b - x a) ((u - a) / (b - a)) s).1 = x u - x a ∧
              (binomial (x b - x a) ((u - a) / (b - a)) s).2 = s'} =
              {s | (binomial (x b - x a) ((u - a) / (b - a)) s).1 = x u - x a ∧
                (binomial (x b - x a) ((u - a) / (b - a)) s).2 ∈ B} := by
            ext s
            simp only [Set.mem_setOf_eq]
            constructor
            · rintro ⟨s', hb, h1, rfl⟩; exact ⟨h1, hb⟩
            · rintro ⟨h1, hb⟩; exact ⟨_, hb, h1, rfl⟩
          rw [e]
          exact hbin B hB) hC
      refine ⟨_, g1, ?_, ?_⟩
      · rw [g2, ← mul_assoc, ← ENNReal.ofReal_mul (pathProb_nonneg hl hs)]
        congr 2
        rw [pathProb_append l1 a (b :: l2), pathProb_append l1 a (u :: b :: l2), mul_assoc]
        congr 1
        simp only [poissonPathProb]
        rw [mul_right_comm, ← mul_assoc, ← Finset.prod_mul_distrib, ← Finset.prod_mul_distrib]
        congr 1
        refine Finset.prod_congr rfl fun i _ => ?_
        have := poisson_split (lam := lam) (a := u - a) (b := b - u) (by linarith) (by linarith)
          (x b i - x a i) (x u i - x a i)
        have e1 : u - a + (b - u) = b - a := by ring
        have e2 : x b i - x a i - (x u i - x a i) = x b i - x u i := by ring
        rwa [e1, e2] at this
      · rintro p ⟨st', hc, hd1, hd2⟩
        refine ⟨st', hc, ?_⟩
        rw [poisson_get1_between hs has hsb (hclose a (by simp)), if_neg (fun h => hf (funext h)),
          if_neg hn, hd1, hd2]
        simp [pathMem]

/-- Times at which the path is known do not change its probability. -/
theorem pathProb_knows (hx : Monotone x) {L L' : List ℝ} (hL : L.Pairwise (· < ·))
    (hL' : L'.Pairwise (· < ·)) {u : ℝ} (hm : ∀ v, v ∈ L' ↔ v = u ∨ v ∈ L) (hk : NKnows x L u) :
    poissonPathProb lam x L' = poissonPathProb lam x L := by
  by_cases hu : u ∈ L
  · rw [sorted_unique hL' hL]
    intro v
    rw [hm]
    constructor
    · rintro (rfl | h)
      · exact hu
      · exact h
    · exact .inr
  obtain ⟨a, ha, b, hb, h1, h2, h3⟩ := hk
  have e1 : x a = x u := le_antisymm (hx h1) (h3 ▸ hx h2)
  exact pathProb_flat_insert hL hL' hm ha hb (lt_of_le_of_ne h1 fun h => hu (h ▸ ha))
    (lt_of_le_of_ne h2 fun h => hu (h ▸ hb)) e1 (e1 ▸ h3)

end Sdepy
