import Verif.Lemmas.PoissonLaw
import Verif.Lemmas.Stream
import Mathlib.Data.Finset.Sort
import Mathlib.Probability.Distributions.Poisson.Basic
import Mathlib.Probability.Distributions.Binomial

/-!
# Property C63: law of the Poisson source with memory
-/

set_option linter.unusedSectionVars false
set_option linter.unusedSimpArgs false

open MeasureTheory

namespace Sdepy

open Spec

variable {ι σ : Type} [Fintype ι] [MeasurableSpace σ] {μ : Measure σ} {lam rtol : ℝ}
  {dn : ℝ → ℝ → σ → Py ((ι → ℤ) × σ)} {binomial : (ι → ℤ) → ℝ → σ → (ι → ℤ) × σ}
  {x : ℝ → ι → ℤ}

theorem exists_sorts (l : List ℝ) : ∃ L, Sorts L l := by
  refine ⟨l.toFinset.sort (· ≤ ·), ?_, fun u => by simp⟩
  exact (Finset.sortedLT_sort _).pairwise

/-- States of the generator such that evaluations return the values of `x`. -/
def evalsTo (rtol : ℝ) (dn : ℝ → ℝ → σ → Py ((ι → ℤ) × σ))
    (binomial : (ι → ℤ) → ℝ → σ → (ι → ℤ) × σ) (x : ℝ → ι → ℤ) (ts ss : List ℝ) : Set σ :=
  {st | ∃ m', (truePoisson rtol dn binomial).getList ss (pathMem x ts st) = .ok (ss.map x, m')}

theorem mem_evalsTo {ts ss : List ℝ} {s : ℝ} {st : σ} :
    st ∈ evalsTo rtol dn binomial x ts (s :: ss) ↔
      ∃ m1, (truePoisson rtol dn binomial).get1 s (pathMem x ts st) = .ok (x s, m1) ∧
        ∃ m', (truePoisson rtol dn binomial).getList ss m1 = .ok (ss.map x, m') := by
  simp only [evalsTo, Set.mem_setOf_eq, TrueSrc.getList]
  cases (truePoisson rtol dn binomial).get1 s (pathMem x ts st) with
  | error e => simp
  | ok r =>
    obtain ⟨v, m1⟩ := r
    simp only
    cases h2 : (truePoisson rtol dn binomial).getList ss m1 with
    | error e =>
      constructor
      · rintro ⟨m', h⟩; simp at h
      · rintro ⟨m2, h, m', h'⟩
        simp only [Except.ok.injEq, Prod.mk.injEq] at h
        rw [← h.2, h2] at h'
        simp at h'
    | ok r2 =>
      obtain ⟨vs, m2⟩ := r2
      simp only [Except.ok.injEq, Prod.mk.injEq, List.map_cons, List.cons.injEq]
      constructor
      · rintro ⟨m', ⟨h, h'⟩, h''⟩
        exact ⟨m1, ⟨h, rfl⟩, m2, by rw [h2, h']⟩
      · rintro ⟨m3, ⟨h, rfl⟩, m', h'⟩
        rw [h2] at h'
        simp only [Except.ok.injEq, Prod.mk.injEq] at h'
        exact ⟨m2, ⟨h, h'.1⟩, rfl⟩

theorem evalsTo_known {l1 l2 : List ℝ} {s : ℝ} (hr : 0 ≤ rtol)
    (h : (l1 ++ [s] ++ l2).Pairwise (· < ·)) (ss : List ℝ) :
    evalsTo rtol dn binomial x (l1 ++ [s] ++ l2) (s :: ss) =
      evalsTo rtol dn binomial x (l1 ++ [s] ++ l2) ss := by
  ext st
  rw [mem_evalsTo, poisson_get1_known hr h]
  constructor
  · rintro ⟨m1, h1, h2⟩
    simp only [Except.ok.injEq, Prod.mk.injEq, true_and] at h1
    rwa [← h1] at h2
  · intro h2
    exact ⟨_, rfl, h2⟩

theorem evalsTo_after {l1 : List ℝ} {a s : ℝ} (h : (l1 ++ [a]).Pairwise (· < ·)) (has : a < s)
    (hc : ¬ |s - a| ≤ rtol * |a|) (ss : List ℝ) :
    evalsTo rtol dn binomial x (l1 ++ [a]) (s :: ss) =
      {st | ∃ st' ∈ evalsTo rtol dn binomial x (l1 ++ [a, s]) ss,
        dn a (s - a) st = .ok (x s - x a, st')} := by
  ext st
  rw [mem_evalsTo, poisson_get1_after h has hc]
  cases hd : dn a (s - a) st with
  | error e => simp [hd]
  | ok r =>
    obtain ⟨d, st'⟩ := r
    simp only [Set.mem_setOf_eq, Except.ok.injEq, Prod.mk.injEq, hd]
    have hm : x a + d = x s → (⟨l1 ++ [a, s], (l1 ++ [a]).map x ++ [x a + d], st'⟩ : Mem ℝ (ι → ℤ) σ)
        = pathMem x (l1 ++ [a, s]) st' := by
      intro hx; simp [pathMem, hx]
    constructor
    · rintro ⟨m1, ⟨hx, rfl⟩, h2⟩
      rw [hm hx] at h2
      exact ⟨st', h2, by rw [← hx]; abel, rfl⟩
    · rintro ⟨st'', h2, hd', rfl⟩
      have hx : x a + d = x s := by rw [hd']; abel
      exact ⟨_, ⟨hx, rfl⟩, by rw [hm hx]; exact h2⟩

theorem evalsTo_before {l2 : List ℝ} {b s : ℝ} (h : (b :: l2).Pairwise (· < ·)) (hsb : s < b)
    (hc : ∀ u ∈ b :: l2, ¬ |s - u| ≤ rtol * |u|) (ss : List ℝ) :
    evalsTo rtol dn binomial x (b :: l2) (s :: ss) =
      {st | ∃ st' ∈ evalsTo rtol dn binomial x (s :: b :: l2) ss,
        dn b (s - b) st = .ok (x s - x b, st')} := by
  ext st
  rw [mem_evalsTo, poisson_get1_before h hsb hc]
  cases hd : dn b (s - b) st with
  | error e => simp [hd]
  | ok r =>
    obtain ⟨d, st'⟩ := r
    simp only [Set.mem_setOf_eq, Except.ok.injEq, Prod.mk.injEq, hd]
    have hm : x b + d = x s → (⟨s :: b :: l2, (x b + d) :: (b :: l2).map x, st'⟩ : Mem ℝ (ι → ℤ) σ)
        = pathMem x (s :: b :: l2) st' := by
      intro hx; simp [pathMem, hx]
    constructor
    · rintro ⟨m1, ⟨hx, rfl⟩, h2⟩
      rw [hm hx] at h2
      exact ⟨st', h2, by rw [← hx]; abel, rfl⟩
    · rintro ⟨st'', h2, hd', rfl⟩
      have hx : x b + d = x s := by rw [hd']; abel
      exact ⟨_, ⟨hx, rfl⟩, by rw [hm hx]; exact h2⟩

theorem evalsTo_between {l1 l2 : List ℝ} {a b s : ℝ} (h : (l1 ++ a :: b :: l2).Pairwise (· < ·))
    (has : a < s) (hsb : s < b) (hc : ¬ |s - a| ≤ rtol * |a|) (ss : List ℝ) :
    evalsTo rtol dn binomial x (l1 ++ a :: b :: l2) (s :: ss) =
      if x a = x b then
        if x s = x b then evalsTo rtol dn binomial x (l1 ++ a :: b :: l2) ss else ∅
      else if ∃ i, x b i - x a i < 0 then ∅
      else {st | (binomial (x b - x a) ((s - a) / (b - a)) st).1 = x s - x a ∧
        (binomial (x b - x a) ((s - a) / (b - a)) st).2 ∈
          evalsTo rtol dn binomial x (l1 ++ a :: s :: b :: l2) ss} := by
  ext st
  rw [mem_evalsTo, poisson_get1_between h has hsb hc]
  by_cases hf : x a = x b
  · rw [if_pos hf, if_pos (fun i => congrFun hf i)]
    by_cases hs : x s = x b
    · rw [if_pos hs]
      constructor
      · rintro ⟨m1, h1, h2⟩
        simp only [Except.ok.injEq, Prod.mk.injEq] at h1
        rwa [← h1.2] at h2
      · intro h2
        exact ⟨_, by rw [hs], h2⟩
    · rw [if_neg hs]
      simp only [Except.ok.injEq, Prod.mk.injEq, Set.mem_empty_iff_false, iff_false]
      rintro ⟨m1, h1, _⟩
      exact hs h1.1.symm
  · rw [if_neg hf, if_neg (fun h => hf (funext h))]
    by_cases hn : ∃ i, x b i - x a i < 0
    · rw [if_pos hn, if_pos hn]
      simp
    · rw [if_neg hn, if_neg hn]
      rw [Set.mem_setOf_eq]
      generalize binomial (x b - x a) ((s - a) / (b - a)) st = r
      obtain ⟨d, st'⟩ := r
      simp only [Except.ok.injEq, Prod.mk.injEq]
      have hm : x a + d = x s → (⟨l1 ++ a :: s :: b :: l2, (l1 ++ [a]).map x ++
          (x a + d) :: (b :: l2).map x, st'⟩ : Mem ℝ (ι → ℤ) σ) =
          pathMem x (l1 ++ a :: s :: b :: l2) st' := by
        intro hx; simp [pathMem, hx]
      constructor
      · rintro ⟨m1, ⟨hx, rfl⟩, h2⟩
        rw [hm hx] at h2
        exact ⟨by rw [← hx]; abel, h2⟩
      · rintro ⟨hd', h2⟩
        have hx : x a + d = x s := by rw [hd']; abel
        exact ⟨_, ⟨hx, rfl⟩, by rw [hm hx]; exact h2⟩

theorem poisson_getList_law (hG : PoissonGenerator μ lam dn binomial) (hl : 0 ≤ lam) (hr : 0 ≤ rtol)
    [IsProbabilityMeasure μ] (ss : List ℝ) : ∀ {ts : List ℝ}, ts.Pairwise (· < ·) → ts ≠ [] →
    ApartTimes rtol (ts ++ ss) →
    MeasurableSet (evalsTo rtol dn binomial x ts ss) ∧
    ∀ {L : List ℝ}, L.Pairwise (· < ·) → (∀ u, u ∈ L ↔ u ∈ ts ∨ u ∈ ss) →
      ENNReal.ofReal (poissonPathProb lam x ts) * μ (evalsTo rtol dn binomial x ts ss) =
        ENNReal.ofReal (poissonPathProb lam x L) := by
  induction ss with
  | nil =>
    intro ts hts _ _
    have e : evalsTo rtol dn binomial x ts [] = Set.univ := by
      ext st; simp [evalsTo, TrueSrc.getList]
    rw [e]
    refine ⟨MeasurableSet.univ, fun {L} hL hm => ?_⟩
    rw [measure_univ, mul_one, sorted_unique hL hts (by simpa using hm)]
  | cons s ss ih =>
    intro ts hts hne hap
    by_cases hs : s ∈ ts
    · obtain ⟨l1, l2, rfl, -, -⟩ := sorted_split hts hs
      have e : l1 ++ s :: l2 = l1 ++ [s] ++ l2 := by simp
      rw [e] at hts hne hap ⊢
      rw [evalsTo_known hr hts]
      obtain ⟨i1, i2⟩ := ih hts hne (fun a ha b hb => hap a (by simp at ha ⊢; tauto) b
        (by simp at hb ⊢; tauto))
      refine ⟨i1, fun {L} hL hm => i2 hL fun u => ?_⟩
      rw [hm]
      simp only [List.mem_cons, List.mem_append]
      tauto
    -- position of `s`
    obtain ⟨l1, l2, rfl, h1, h2⟩ : ∃ l1 l2, ts = l1 ++ l2 ∧ (∀ u ∈ l1, u < s) ∧ ∀ u ∈ l2, s < u := by
      have hi := insertIdx_sorted hts hs
      rw [insertIdx_eq (bisectRight_spec ts s hts).2.2] at hi
      rw [List.pairwise_append] at hi
      exact ⟨_, _, (List.take_append_drop _ _).symm, fun u hu => hi.2.2 u hu s (by simp),
        (List.pairwise_cons.1 hi.2.1).1⟩
    have hnew : (l1 ++ s :: l2).Pairwise (· < ·) := by
      rw [List.pairwise_append] at hts ⊢
      refine ⟨hts.1, List.pairwise_cons.2 ⟨h2, hts.2.1⟩, fun u hu v hv => ?_⟩
      rcases List.mem_cons.1 hv with rfl | hv
      · exact h1 u hu
      · exact hts.2.2 u hu v hv
    have hclose : ∀ u ∈ l1 ++ l2, ¬ |s - u| ≤ rtol * |u| := fun u hu =>
      hap s (by simp) u (List.mem_append.2 (.inl hu)) fun h => hs (h ▸ hu)
    obtain ⟨i1, i2⟩ := ih hnew (by simp) (fun a ha b hb => hap a (by simp at ha ⊢; tauto) b
        (by simp at hb ⊢; tauto))
    have hmem : ∀ {L : List ℝ}, (∀ u, u ∈ L ↔ u ∈ l1 ++ l2 ∨ u ∈ s :: ss) →
        ∀ u, u ∈ L ↔ u ∈ l1 ++ s :: l2 ∨ u ∈ ss := by
      intro L hm u
      rw [hm]
      simp only [List.mem_cons, List.mem_append]
      tauto
    rcases List.eq_nil_or_concat l1 with rfl | ⟨l1, a, rfl⟩
    · -- before all others
      cases l2 with
      | nil => simp at hne
      | cons b l2 =>
        simp only [List.nil_append] at *
        have hsb := h2 b (by simp)
        rw [evalsTo_before hts hsb hclose]
        obtain ⟨g1, g2⟩ := hG.poisson b (s - b) (by linarith [hsb]) (x s - x b) _ i1
        refine ⟨g1, fun {L} hL hm => ?_⟩
        rw [g2, ← i2 hL (hmem hm), ← mul_assoc, ← ENNReal.ofReal_mul (pathProb_nonneg hl hts)]
        congr 2
        rw [poissonPathProb, mul_comm, abs_of_neg (by linarith)]
        have hno : ¬ 0 < s - b := by linarith
        simp only [hno, if_false]
        congr 1
        refine Finset.prod_congr rfl fun i _ => ?_
        rw [Pi.sub_apply, neg_sub, neg_sub]
    · simp only [List.concat_eq_append] at *
      have has := h1 a (by simp)
      cases l2 with
      | nil =>
        -- after all others
        simp only [List.append_nil] at *
        rw [evalsTo_after hts has (hclose a (by simp))]
        have e : l1 ++ [a] ++ [s] = l1 ++ [a, s] := by simp
        rw [e] at i1 i2 hmem
        obtain ⟨g1, g2⟩ := hG.poisson a (s - a) (by linarith [has]) (x s - x a) _ i1
        refine ⟨g1, fun {L} hL hm => ?_⟩
        rw [g2, ← i2 hL (hmem hm), ← mul_assoc, ← ENNReal.ofReal_mul (pathProb_nonneg hl hts)]
        congr 2
        rw [pathProb_append l1 a [s]]
        congr 1
        simp only [poissonPathProb, mul_one]
        have hyes : 0 < s - a := by linarith
        rw [abs_of_pos hyes]
        simp only [hyes, if_true, Pi.sub_apply]
      | cons b l2 =>
        -- between two others
        have hsb := h2 b (by simp)
        have e : l1 ++ [a] ++ b :: l2 = l1 ++ a :: b :: l2 := by simp
        have e' : l1 ++ [a] ++ s :: b :: l2 = l1 ++ a :: s :: b :: l2 := by simp
        rw [e] at hts hne hap hclose hmem ⊢
        rw [e'] at i1 i2 hnew hmem
        rw [evalsTo_between hts has hsb (hclose a (by simp))]
        by_cases hf : x a = x b
        · rw [if_pos hf]
          by_cases hxs : x s = x b
          · rw [if_pos hxs]
            obtain ⟨j1, j2⟩ := ih hts hne (fun a ha b hb => hap a (by simp at ha ⊢; tauto) b
              (by simp at hb ⊢; tauto))
            refine ⟨j1, fun {L} hL hm => ?_⟩
            obtain ⟨L0, hL0, hm0⟩ := exists_sorts (l1 ++ a :: b :: l2 ++ ss)
            have hm0' : ∀ u, u ∈ L0 ↔ u ∈ l1 ++ a :: b :: l2 ∨ u ∈ ss := fun u => by
              rw [hm0, List.mem_append]
            rw [j2 hL0 hm0', pathProb_flat_insert (x := x) (lam := lam) hL0 hL (s := s) (a := a) (b := b)
              ?_ ((hm0 a).2 (by simp)) ((hm0 b).2 (by simp)) has hsb (hf.trans hxs.symm) hxs]
            intro u
            rw [hm, hm0', List.mem_cons]
            tauto
          · rw [if_neg hxs]
            refine ⟨MeasurableSet.empty, fun {L} hL hm => ?_⟩
            rw [measure_empty, mul_zero, eq_comm, ENNReal.ofReal_eq_zero]
            by_contra hpos
            have hne := (not_le.1 hpos).ne'
            have k1 := pathProb_le hL hne ((hm a).2 (by simp)) ((hm s).2 (by simp)) has.le
            have k2 := pathProb_le hL hne ((hm s).2 (by simp)) ((hm b).2 (by simp)) hsb.le
            exact hxs (le_antisymm k2 (hf ▸ k1))
        · rw [if_neg hf]
          by_cases hn : ∃ i, x b i - x a i < 0
          · rw [if_pos hn]
            refine ⟨MeasurableSet.empty, fun {L} hL hm => ?_⟩
            rw [measure_empty, mul_zero, eq_comm, ENNReal.ofReal_eq_zero]
            by_contra hpos
            have hne := (not_le.1 hpos).ne'
            have k1 := pathProb_le hL hne ((hm a).2 (by simp)) ((hm b).2 (by simp)) (has.trans hsb).le
            obtain ⟨i, hi⟩ := hn
            linarith [k1 i]
          · rw [if_neg hn]
            have hba : 0 < b - a := by linarith
            have hp0 : 0 ≤ (s - a) / (b - a) := div_nonneg (by linarith) hba.le
            have hp1 : (s - a) / (b - a) ≤ 1 := (div_le_one hba).2 (by linarith)
            obtain ⟨g1, g2⟩ := hG.binomial (x b - x a) ((s - a) / (b - a))
              (fun i => not_lt.1 fun h => hn ⟨i, h⟩) hp0 hp1 (x s - x a) _ i1
            refine ⟨g1, fun {L} hL hm => ?_⟩
            rw [g2, ← i2 hL (hmem hm), ← mul_assoc, ← ENNReal.ofReal_mul (pathProb_nonneg hl hts)]
            congr 2
            rw [pathProb_append l1 a (b :: l2), pathProb_append l1 a (s :: b :: l2), mul_assoc]
            congr 1
            simp only [poissonPathProb]
            rw [mul_right_comm, ← mul_assoc, ← Finset.prod_mul_distrib, ← Finset.prod_mul_distrib]
            congr 1
            refine Finset.prod_congr rfl fun i _ => ?_
            have := poisson_split (lam := lam) (a := s - a) (b := b - s) (by linarith) (by linarith)
              (x b i - x a i) (x s i - x a i)
            have e1 : s - a + (b - s) = b - a := by ring
            have e2 : x b i - x a i - (x s i - x a i) = x b i - x s i := by ring
            rwa [e1, e2] at this

/-- **C63** (joint law). Evaluate a Poisson source with memory, of constant intensity, at any
sequence of times, in any order, before or after `t0`, with repetitions: the probability that the
values returned are those of `x`, whatever `x`, is the one that a Poisson process going through `z0`
at `t0` takes these values. Increments over intervals that do not overlap, and different cells, are
thus independent, and the law does not depend on the order of evaluation. -/
theorem C63_law (hG : PoissonGenerator μ lam dn binomial) (hl : 0 ≤ lam) (hr : 0 ≤ rtol)
    [IsProbabilityMeasure μ] (t0 : ℝ) (z0 : ι → ℤ) (ss : List ℝ) (hap : ApartTimes rtol (t0 :: ss))
    (L : List ℝ) (hL : Sorts L (t0 :: ss)) (x : ℝ → ι → ℤ) (hx : x t0 = z0) :
    μ {st | ∃ m', (truePoisson rtol dn binomial).call ss none (Mem.new t0 z0 st) =
      .ok (ss.map x, m')} = ENNReal.ofReal (poissonPathProb lam x L) := by
  obtain ⟨-, h2⟩ := poisson_getList_law (x := x) hG hl hr ss (ts := [t0]) (by simp) (by simp)
    (by simpa using hap)
  have h3 := h2 hL.1 (fun u => by rw [hL.2]; simp)
  have e : evalsTo rtol dn binomial x [t0] ss = {st | ∃ m', (truePoisson rtol dn binomial).call ss
      none (Mem.new t0 z0 st) = .ok (ss.map x, m')} := by
    simp [evalsTo, TrueSrc.call, pathMem, Mem.new, hx]
  rw [← h3, e]
  simp [poissonPathProb]

/-- **C63** (order). The law does not depend on the order of evaluation. -/
theorem C63_order (hG : PoissonGenerator μ lam dn binomial) (hl : 0 ≤ lam) (hr : 0 ≤ rtol)
    [IsProbabilityMeasure μ] (t0 : ℝ) (z0 : ι → ℤ) {ss ss' : List ℝ} (hperm : ss.Perm ss')
    (hap : ApartTimes rtol (t0 :: ss)) (x : ℝ → ι → ℤ) (hx : x t0 = z0) :
    μ {st | ∃ m', (truePoisson rtol dn binomial).call ss none (Mem.new t0 z0 st) =
      .ok (ss.map x, m')} =
    μ {st | ∃ m', (truePoisson rtol dn binomial).call ss' none (Mem.new t0 z0 st) =
      .ok (ss'.map x, m')} := by
  obtain ⟨L, hL⟩ := exists_sorts (t0 :: ss)
  have hm : ∀ u, u ∈ t0 :: ss ↔ u ∈ t0 :: ss' := fun u => (hperm.cons t0).mem_iff
  rw [C63_law hG hl hr t0 z0 ss hap L hL x hx, C63_law hG hl hr t0 z0 ss'
    (fun a ha b hb => hap a ((hm a).2 ha) b ((hm b).2 hb)) L ⟨hL.1, fun u => (hL.2 u).trans (hm u)⟩
    x hx]

/-- **C63** (one time). The value at a time `s` differs from `z0` by independent Poisson variates,
with mean `lam` times the distance from `t0`, and negative sign before `t0`. -/
theorem C63_at (hG : PoissonGenerator μ lam dn binomial) (hl : 0 ≤ lam) (hr : 0 ≤ rtol)
    [IsProbabilityMeasure μ] (t0 : ℝ) (z0 : ι → ℤ) (s : ℝ) (hs : s ≠ t0)
    (hap : ApartTimes rtol [t0, s]) (d : ι → ℤ) :
    μ {st | ∃ m', (truePoisson rtol dn binomial).call [s] none (Mem.new t0 z0 st) =
      .ok ([z0 + d], m')} =
    ENNReal.ofReal (∏ i, poissonProb (lam * |s - t0|) (if t0 < s then d i else -d i)) := by
  have hx : (fun u => if u = t0 then z0 else z0 + d) t0 = z0 := if_pos rfl
  have hxs : (if s = t0 then z0 else z0 + d) = z0 + d := if_neg hs
  rcases lt_or_gt_of_ne hs with h | h
  · have := C63_law hG hl hr t0 z0 [s] hap [s, t0] ⟨by simpa using h, fun u => by simp [or_comm]⟩ (fun u => if u = t0 then z0 else z0 + d) hx
    rw [List.map_singleton, hxs] at this
    rw [this]
    simp only [poissonPathProb, hs, if_true, if_false, mul_one, not_lt.2 h.le]
    congr 1
    refine Finset.prod_congr rfl fun i _ => ?_
    rw [abs_of_neg (by linarith), neg_sub, Pi.add_apply]
    congr 1
    ring
  · have := C63_law hG hl hr t0 z0 [s] hap [t0, s] ⟨by simpa using h, fun u => by simp⟩ (fun u => if u = t0 then z0 else z0 + d) hx
    rw [List.map_singleton, hxs] at this
    rw [this]
    simp only [poissonPathProb, hs, if_true, if_false, mul_one, h]
    congr 1
    refine Finset.prod_congr rfl fun i _ => ?_
    rw [abs_of_pos (by linarith), Pi.add_apply]
    congr 1
    ring

/-! ### Probabilities sum to one -/

theorem poissonProb_measure {m : ℝ} (hm : 0 ≤ m) (k : ℤ) :
    ((ProbabilityTheory.poissonMeasure m.toNNReal).map (fun n : ℕ => (n : ℤ))) {k} =
      ENNReal.ofReal (poissonProb m k) := by
  rw [Measure.map_apply .of_discrete (measurableSet_singleton k)]
  by_cases hk : 0 ≤ k
  · obtain ⟨n, rfl⟩ := Int.eq_ofNat_of_zero_le hk
    have : (fun n : ℕ => (n : ℤ)) ⁻¹' {(n : ℤ)} = {n} := by ext; simp
    rw [this, ProbabilityTheory.poissonMeasure_singleton, poissonProb, if_pos hk]
    simp [Real.coe_toNNReal _ hm]
  · have : (fun n : ℕ => (n : ℤ)) ⁻¹' {k} = ∅ := by ext n; simp; omega
    rw [this, measure_empty, poissonProb_neg (by omega), ENNReal.ofReal_zero]

theorem binomialProb_measure {n : ℤ} (hn : 0 ≤ n) {p : ℝ} (h0 : 0 ≤ p) (h1 : p ≤ 1) (k : ℤ) :
    ((ProbabilityTheory.binomial n.toNat ⟨p, h0, h1⟩).map (fun n : ℕ => (n : ℤ))) {k} =
      ENNReal.ofReal (binomialProb n p k) := by
  rw [Measure.map_apply .of_discrete (measurableSet_singleton k)]
  by_cases hk : 0 ≤ k
  · obtain ⟨j, rfl⟩ := Int.eq_ofNat_of_zero_le hk
    obtain ⟨n, rfl⟩ := Int.eq_ofNat_of_zero_le hn
    have : (fun n : ℕ => (n : ℤ)) ⁻¹' {(j : ℤ)} = {j} := by ext; simp
    rw [this, ProbabilityTheory.binomial_singleton, binomialProb]
    by_cases hjn : j ≤ n
    · rw [if_pos ⟨hk, by exact_mod_cast hjn⟩]
      have e : ((n : ℤ) - (j : ℤ)).toNat = n - j := by omega
      simp only [Int.toNat_natCast, e]
    · rw [if_neg (by omega)]
      rw [Int.toNat_natCast, Nat.choose_eq_zero_of_lt (by omega)]
      simp
  · have : (fun n : ℕ => (n : ℤ)) ⁻¹' {k} = ∅ := by ext n; simp; omega
    rw [this, measure_empty, binomialProb, if_neg (by omega), ENNReal.ofReal_zero]

theorem tsum_prod_one {f : ι → ℤ → ℝ} (hf : ∀ i k, 0 ≤ f i k) (ν : ι → Measure ℤ)
    [∀ i, IsProbabilityMeasure (ν i)] (hν : ∀ i k, ν i {k} = ENNReal.ofReal (f i k)) :
    ∑' y : ι → ℤ, ENNReal.ofReal (∏ i, f i (y i)) = 1 := by
  have h1 : ∀ y : ι → ℤ, ENNReal.ofReal (∏ i, f i (y i)) = Measure.pi ν {y} := by
    intro y
    rw [Measure.pi_singleton, ENNReal.ofReal_prod_of_nonneg fun i _ => hf i _]
    exact Finset.prod_congr rfl fun i _ => (hν i _).symm
  rw [tsum_congr h1]
  have h2 := Measure.tsum_indicator_apply_singleton (Measure.pi ν) Set.univ MeasurableSet.univ
  simp only [Set.indicator_univ] at h2
  rw [h2, measure_univ]

theorem tsum_prod_poisson {m : ℝ} (hm : 0 ≤ m) :
    ∑' y : ι → ℤ, ENNReal.ofReal (∏ i, poissonProb m (y i)) = 1 := by
  haveI : IsProbabilityMeasure
      ((ProbabilityTheory.poissonMeasure m.toNNReal).map (fun n : ℕ => (n : ℤ))) :=
    Measure.isProbabilityMeasure_map .of_discrete
  exact tsum_prod_one (fun _ _ => poissonProb_nonneg hm _)
    (fun _ => (ProbabilityTheory.poissonMeasure m.toNNReal).map (fun n : ℕ => (n : ℤ)))
    (fun _ k => poissonProb_measure hm k)

theorem tsum_prod_binomial {n : ι → ℤ} (hn : ∀ i, 0 ≤ n i) {p : ℝ} (h0 : 0 ≤ p) (h1 : p ≤ 1) :
    ∑' y : ι → ℤ, ENNReal.ofReal (∏ i, binomialProb (n i) p (y i)) = 1 := by
  haveI : ∀ i, IsProbabilityMeasure ((ProbabilityTheory.binomial (n i).toNat ⟨p, h0, h1⟩).map
      (fun n : ℕ => (n : ℤ))) := fun i => Measure.isProbabilityMeasure_map .of_discrete
  exact tsum_prod_one (fun _ _ => binomialProb_nonneg h0 h1 _)
    (fun i => (ProbabilityTheory.binomial (n i).toNat ⟨p, h0, h1⟩).map (fun n : ℕ => (n : ℤ)))
    (fun i k => binomialProb_measure (hn i) h0 h1 k)

theorem call_dt {S : TrueSrc ℝ (ι → ℤ) (ι → ℤ) σ} {t dt : ℝ} {m : Mem ℝ (ι → ℤ) σ} {d : ι → ℤ} :
    (∃ m', S.call [t] (some [dt]) m = .ok ([d], m')) ↔
      ∃ y m', S.call [t + dt, t] none m = .ok ([y, y - d], m') := by
  simp only [TrueSrc.call, TrueSrc.getList, List.zipWith_cons_cons, List.zipWith_nil_left]
  cases S.get1 (t + dt) m with
  | error e => simp
  | ok r =>
    obtain ⟨v, m1⟩ := r
    simp only
    cases S.get1 t m1 with
    | error e => simp
    | ok r2 =>
      obtain ⟨v2, m2⟩ := r2
      simp only [List.zipWith_cons_cons, List.zipWith_nil_left, Except.ok.injEq, Prod.mk.injEq,
        List.cons.injEq, and_true]
      constructor
      · rintro ⟨_, h, _⟩
        exact ⟨v, m2, ⟨rfl, by rw [← h]; abel⟩, rfl⟩
      · rintro ⟨y, m', ⟨h, h'⟩, _⟩
        exact ⟨m2, by rw [h', h]; abel, rfl⟩

/-- **C63** (increments). `dz(t, dt)` is made of independent Poisson variates with mean
`lam * dt`, wherever `t` and `t + dt` are with respect to `t0`. -/
theorem C63_increment (hG : PoissonGenerator μ lam dn binomial) (hl : 0 ≤ lam) (hr : 0 ≤ rtol)
    [IsProbabilityMeasure μ] (t0 : ℝ) (z0 : ι → ℤ) (t dt : ℝ) (hdt : 0 < dt) (h0 : t ≠ t0)
    (h1 : t + dt ≠ t0) (hap : ApartTimes rtol [t0, t + dt, t]) (d : ι → ℤ) :
    μ {st | ∃ m', (truePoisson rtol dn binomial).call [t] (some [dt]) (Mem.new t0 z0 st) =
      .ok ([d], m')} = ENNReal.ofReal (∏ i, poissonProb (lam * dt) (d i)) := by
  set E : (ι → ℤ) → Set σ := fun y => {st | ∃ m', (truePoisson rtol dn binomial).call [t + dt, t] none
    (Mem.new t0 z0 st) = .ok ([z0 + y, z0 + y - d], m')} with hE
  have e : {st | ∃ m', (truePoisson rtol dn binomial).call [t] (some [dt]) (Mem.new t0 z0 st) =
      .ok ([d], m')} = ⋃ y, E y := by
    ext st
    simp only [hE, Set.mem_setOf_eq, Set.mem_iUnion]
    rw [call_dt]
    constructor
    · rintro ⟨y, m', h⟩
      exact ⟨y - z0, m', by rw [h]; congr 3 <;> abel⟩
    · rintro ⟨y, m', h⟩
      exact ⟨z0 + y, m', h⟩
  set x : (ι → ℤ) → ℝ → ι → ℤ := fun y u => if u = t0 then z0 else if u = t + dt then z0 + y else
    z0 + y - d with hxdef
  have x0 : ∀ y, x y t0 = z0 := fun y => if_pos rfl
  have x1 : ∀ y, x y (t + dt) = z0 + y := fun y => (if_neg h1).trans (if_pos rfl)
  have hne : t ≠ t + dt := by linarith
  have x2 : ∀ y, x y t = z0 + y - d := fun y => by
    simp only [hxdef]; rw [if_neg h0, if_neg hne]
  have hmeas : ∀ y, MeasurableSet (E y) := by
    intro y
    have := (poisson_getList_law (x := x y) hG hl hr [t + dt, t] (ts := [t0]) (by simp) (by simp)
      (by simpa using hap)).1
    simp only [evalsTo, pathMem, List.map_cons, List.map_nil, x0, x1, x2] at this
    exact this
  have hdisj : Pairwise (Function.onFun Disjoint E) := by
    intro y y' hyy
    rw [Function.onFun, Set.disjoint_left]
    rintro st ⟨m1, e1⟩ ⟨m2, e2⟩
    rw [e1] at e2
    simp only [Except.ok.injEq, Prod.mk.injEq, List.cons.injEq] at e2
    exact hyy (add_left_cancel e2.1.1)
  rw [e, measure_iUnion hdisj hmeas]
  have hlaw : ∀ L, Sorts L [t0, t + dt, t] → ∀ y, μ (E y) =
      ENNReal.ofReal (poissonPathProb lam (x y) L) := by
    intro L hL y
    have := C63_law hG hl hr t0 z0 [t + dt, t] hap L hL (x y) (x0 y)
    simpa only [List.map_cons, List.map_nil, x1, x2] using this
  have hd0 : 0 ≤ ∏ i, poissonProb (lam * dt) (d i) :=
    Finset.prod_nonneg fun i _ => poissonProb_nonneg (by positivity) _
  rcases lt_or_gt_of_ne h0 with ht | ht
  · rcases lt_or_gt_of_ne h1 with ht' | ht'
    · -- before `t0`
      have hs : ∀ y, μ (E y) = ENNReal.ofReal (∏ i, poissonProb (lam * dt) (d i)) *
          ENNReal.ofReal (∏ i, poissonProb (lam * (t0 - (t + dt))) ((-y) i)) := by
        intro y
        rw [hlaw [t, t + dt, t0] ⟨by simp; exact ⟨⟨hdt, ht⟩, ht'⟩, fun u => by simp; tauto⟩,
          ← ENNReal.ofReal_mul hd0]
        simp only [poissonPathProb, x0, x1, x2, mul_one]
        congr 2
        · refine Finset.prod_congr rfl fun i _ => ?_
          congr 1
          · ring
          · simp
        · refine Finset.prod_congr rfl fun i _ => ?_
          congr 1
          simp
      have hneg := (Equiv.neg (ι → ℤ)).tsum_eq
        (fun y => ENNReal.ofReal (∏ i, poissonProb (lam * (t0 - (t + dt))) (y i)))
      simp only [Equiv.neg_apply] at hneg
      rw [tsum_congr hs, ENNReal.tsum_mul_left, hneg, tsum_prod_poisson (mul_nonneg hl (by linarith)), mul_one]
    · -- across `t0`
      by_cases hd : ∀ i, 0 ≤ d i
      · have hs : ∀ y, μ (E y) = ENNReal.ofReal (∏ i, poissonProb (lam * dt) (d i)) *
            ENNReal.ofReal (∏ i, binomialProb (d i) ((t + dt - t0) / dt) (y i)) := by
          intro y
          rw [hlaw [t, t0, t + dt] ⟨by simp; exact ⟨⟨ht, hdt⟩, ht'⟩, fun u => by simp; tauto⟩,
            ← ENNReal.ofReal_mul hd0]
          simp only [poissonPathProb, x0, x1, x2, mul_one]
          congr 1
          rw [← Finset.prod_mul_distrib, ← Finset.prod_mul_distrib]
          refine Finset.prod_congr rfl fun i _ => ?_
          have := poisson_split (lam := lam) (a := t + dt - t0) (b := t0 - t) (by linarith)
            (by linarith) (d i) (y i)
          have e1 : t + dt - t0 + (t0 - t) = dt := by ring
          rw [e1] at this
          rw [this, mul_comm]
          congr 2
          · simp
          · simp only [Pi.sub_apply, Pi.add_apply]; ring
        rw [tsum_congr hs, ENNReal.tsum_mul_left, tsum_prod_binomial hd
          (div_nonneg (by linarith) hdt.le) ((div_le_one hdt).2 (by linarith)), mul_one]
      · push Not at hd
        obtain ⟨j, hj⟩ := hd
        have hz : ∏ i, poissonProb (lam * dt) (d i) = 0 :=
          Finset.prod_eq_zero (Finset.mem_univ j) (poissonProb_neg hj)
        rw [hz, ENNReal.ofReal_zero, ENNReal.tsum_eq_zero]
        intro y
        rw [hlaw [t, t0, t + dt] ⟨by simp; exact ⟨⟨ht, hdt⟩, ht'⟩, fun u => by simp; tauto⟩]
        simp only [poissonPathProb, x0, x1, x2, mul_one]
        rw [← Finset.prod_mul_distrib, Finset.prod_eq_zero (Finset.mem_univ j), ENNReal.ofReal_zero]
        by_cases hy : (z0 + y) j - z0 j < 0
        · rw [poissonProb_neg hy, mul_zero]
        · rw [poissonProb_neg, zero_mul]
          simp only [Pi.add_apply, Pi.sub_apply] at hy ⊢
          omega
  · -- after `t0`
    have hs : ∀ y, μ (E y) = ENNReal.ofReal (∏ i, poissonProb (lam * dt) (d i)) *
        ENNReal.ofReal (∏ i, poissonProb (lam * (t - t0)) ((y - d) i)) := by
      intro y
      rw [hlaw [t0, t, t + dt] ⟨by simp; exact ⟨⟨ht, by linarith⟩, hdt⟩, fun u => by simp; tauto⟩,
        ← ENNReal.ofReal_mul hd0]
      simp only [poissonPathProb, x0, x1, x2, mul_one]
      rw [mul_comm]
      congr 2
      · refine Finset.prod_congr rfl fun i _ => ?_
        congr 1
        · ring
        · simp
      · refine Finset.prod_congr rfl fun i _ => ?_
        congr 1
        simp only [Pi.add_apply, Pi.sub_apply]; ring
    have hsub := (Equiv.subRight d).tsum_eq
      (fun y => ENNReal.ofReal (∏ i, poissonProb (lam * (t - t0)) (y i)))
    simp only [Equiv.subRight_apply] at hsub
    rw [tsum_congr hs, ENNReal.tsum_mul_left, hsub, tsum_prod_poisson (mul_nonneg hl (by linarith)), mul_one]

/-! ### A generator -/

/-- What may be drawn: Poisson variates for a time and a time step, or binomial variates. -/
abbrev PDraw (ι : Type) := (ℝ × ℝ) ⊕ ((ι → ℤ) × ℝ)

open Classical in
/-- Law of each of the draws. -/
noncomputable def drawLaw (lam : ℝ) : PDraw ι → Measure (ι → ℤ)
  | .inl (_, dt) => Measure.pi fun _ => (ProbabilityTheory.poissonMeasure (lam * |dt|).toNNReal).map
      (fun n : ℕ => if 0 < dt then (n : ℤ) else -(n : ℤ))
  | .inr (n, p) => if h : 0 ≤ p ∧ p ≤ 1 then
      Measure.pi fun i => (ProbabilityTheory.binomial (n i).toNat ⟨p, h⟩).map (fun n : ℕ => (n : ℤ))
    else Measure.dirac 0

instance (lam : ℝ) (d : PDraw ι) : IsProbabilityMeasure (drawLaw lam d) := by
  match d with
  | .inl (_, dt) =>
    unfold drawLaw
    haveI : IsProbabilityMeasure ((ProbabilityTheory.poissonMeasure (lam * |dt|).toNNReal).map
      (fun n : ℕ => if 0 < dt then (n : ℤ) else -(n : ℤ))) :=
      Measure.isProbabilityMeasure_map .of_discrete
    infer_instance
  | .inr (n, p) =>
    unfold drawLaw
    simp only
    split_ifs with h
    · haveI : ∀ i, IsProbabilityMeasure ((ProbabilityTheory.binomial (n i).toNat ⟨p, h⟩).map
        (fun n : ℕ => (n : ℤ))) := fun i => Measure.isProbabilityMeasure_map .of_discrete
      infer_instance
    · infer_instance

/-- Law of a sequence of independent outcomes, each one with a value for whatever may be drawn. -/
noncomputable def seedLaw (ι : Type) [Fintype ι] (lam : ℝ) : Measure (ℕ → PDraw ι → ι → ℤ) :=
  Measure.infinitePi fun _ : ℕ => Measure.infinitePi (drawLaw (ι := ι) lam)

instance (lam : ℝ) : IsProbabilityMeasure (seedLaw ι lam) := by
  unfold seedLaw; infer_instance

/-- Poisson draws out of a sequence of outcomes. -/
def seedDn (t dt : ℝ) (s : ℕ → PDraw ι → ι → ℤ) : Py ((ι → ℤ) × (ℕ → PDraw ι → ι → ℤ)) :=
  .ok (s 0 (.inl (t, dt)), fun n => s (n + 1))

/-- Binomial draws out of a sequence of outcomes. -/
def seedBin (n : ι → ℤ) (p : ℝ) (s : ℕ → PDraw ι → ι → ℤ) : (ι → ℤ) × (ℕ → PDraw ι → ι → ℤ) :=
  (s 0 (.inr (n, p)), fun n => s (n + 1))

theorem seed_event (lam : ℝ) (d : PDraw ι) (k : ι → ℤ) {B : Set (ℕ → PDraw ι → ι → ℤ)}
    (hB : MeasurableSet B) :
    MeasurableSet {s : ℕ → PDraw ι → ι → ℤ | s 0 d = k ∧ (fun n => s (n + 1)) ∈ B} ∧
    seedLaw ι lam {s | s 0 d = k ∧ (fun n => s (n + 1)) ∈ B} = drawLaw lam d {k} * seedLaw ι lam B := by
  have hA : MeasurableSet {e : PDraw ι → ι → ℤ | e d = k} :=
    (measurable_pi_apply (X := fun _ : PDraw ι => ι → ℤ) d) (measurableSet_singleton k)
  have h := stream_event (Measure.infinitePi (drawLaw (ι := ι) lam)) hA hB
  refine ⟨h.1, h.2.trans ?_⟩
  congr 1
  rw [← Measure.infinitePi_map_eval (drawLaw lam) d,
    Measure.map_apply (measurable_pi_apply d) (measurableSet_singleton k)]
  rfl

/-- There are generators as required. -/
theorem seed_generator (hl : 0 ≤ lam) :
    PoissonGenerator (seedLaw ι lam) lam seedDn (seedBin (ι := ι)) := by
  constructor
  · intro t dt hdt d B hB
    have e : {s : ℕ → PDraw ι → ι → ℤ | ∃ s' ∈ B, seedDn t dt s = .ok (d, s')} =
        {s | s 0 (.inl (t, dt)) = d ∧ (fun n => s (n + 1)) ∈ B} := by
      ext s
      simp only [seedDn, Set.mem_setOf_eq, Except.ok.injEq, Prod.mk.injEq]
      constructor
      · rintro ⟨s', h1, h2, rfl⟩; exact ⟨h2, h1⟩
      · rintro ⟨h2, h1⟩; exact ⟨_, h1, h2, rfl⟩
    rw [e]
    obtain ⟨h1, h2⟩ := seed_event lam (.inl (t, dt)) d hB
    refine ⟨h1, h2.trans ?_⟩
    congr 1
    have hm : 0 ≤ lam * |dt| := by positivity
    haveI : IsProbabilityMeasure ((ProbabilityTheory.poissonMeasure (lam * |dt|).toNNReal).map
      (fun n : ℕ => if 0 < dt then (n : ℤ) else -(n : ℤ))) :=
      Measure.isProbabilityMeasure_map .of_discrete
    rw [drawLaw, Measure.pi_singleton, ENNReal.ofReal_prod_of_nonneg
      fun i _ => poissonProb_nonneg hm _]
    refine Finset.prod_congr rfl fun i _ => ?_
    rw [← poissonProb_measure hm, Measure.map_apply .of_discrete (measurableSet_singleton _),
      Measure.map_apply .of_discrete (measurableSet_singleton _)]
    congr 1
    ext n
    by_cases h : 0 < dt
    · simp [h]
    · simp only [h, if_false, Set.mem_preimage, Set.mem_singleton_iff]
      omega
  · intro n p hn h0 h1 d B hB
    obtain ⟨g1, g2⟩ := seed_event lam (.inr (n, p)) d hB
    refine ⟨g1, g2.trans ?_⟩
    congr 1
    haveI : ∀ i, IsProbabilityMeasure ((ProbabilityTheory.binomial (n i).toNat ⟨p, h0, h1⟩).map
        (fun n : ℕ => (n : ℤ))) := fun i => Measure.isProbabilityMeasure_map .of_discrete
    rw [drawLaw, dif_pos ⟨h0, h1⟩, Measure.pi_singleton, ENNReal.ofReal_prod_of_nonneg
      fun i _ => binomialProb_nonneg h0 h1 _]
    exact Finset.prod_congr rfl fun i _ => binomialProb_measure (hn i) h0 h1 _

/-- Two evaluations, the second one between `t0` and the first, of two cells: a jump in each interval
for the first cell, none for the second one. -/
example : seedLaw (Fin 2) 1 {st | ∃ m', (truePoisson (1 / 100) seedDn seedBin).call [2, 1] none
    (Mem.new 0 ![5, 7] st) = .ok ([![7, 7], ![6, 7]], m')} = ENNReal.ofReal (Real.exp (-4)) := by
  have h := C63_law (seed_generator (ι := Fin 2) (lam := 1) (by norm_num)) (by norm_num)
    (rtol := 1 / 100) (by norm_num) 0 ![5, 7] [2, 1] (by
      intro a ha b hb hab
      simp only [List.mem_cons, List.not_mem_nil, or_false] at ha hb
      rcases ha with rfl | rfl | rfl <;> rcases hb with rfl | rfl | rfl <;>
        first | exact absurd rfl hab | norm_num [abs_of_pos, abs_of_neg])
    [0, 1, 2] ⟨by norm_num, fun u => by simp; tauto⟩
    (fun u => if u = 0 then ![5, 7] else if u = 1 then ![6, 7] else ![7, 7]) (by simp)
  have e : ([2, 1] : List ℝ).map (fun u => if u = 0 then (![5, 7] : Fin 2 → ℤ) else
      if u = 1 then ![6, 7] else ![7, 7]) = [![7, 7], ![6, 7]] := by norm_num
  rw [e] at h
  rw [h]
  congr 1
  norm_num [poissonPathProb, poissonProb, Fin.prod_univ_two, ← Real.exp_add]

/-- The same, in the other order. -/
example (x : ℝ → Fin 2 → ℤ) (hx : x 0 = ![5, 7]) :
    seedLaw (Fin 2) 1 {st | ∃ m', (truePoisson 0 seedDn seedBin).call [2, 1] none
      (Mem.new 0 ![5, 7] st) = .ok ([x 2, x 1], m')} =
    seedLaw (Fin 2) 1 {st | ∃ m', (truePoisson 0 seedDn seedBin).call [1, 2] none
      (Mem.new 0 ![5, 7] st) = .ok ([x 1, x 2], m')} :=
  C63_order (seed_generator (ι := Fin 2) (lam := 1) (by norm_num)) (by norm_num) le_rfl 0 _
    (List.Perm.swap _ _ _) (fun a _ b _ hab => by simpa [sub_eq_zero] using hab) x hx

/-- Two jumps within the first three units of time before `t0`. -/
example : seedLaw (Fin 1) 2 {st | ∃ m', (truePoisson 0 seedDn seedBin).call [-3] none
    (Mem.new 0 ![1] st) = .ok ([![1] + ![-2]], m')} = ENNReal.ofReal (Real.exp (-6) * 18) := by
  rw [C63_at (seed_generator (ι := Fin 1) (lam := 2) (by norm_num)) (by norm_num) le_rfl 0 _ (-3)
    (by norm_num) (fun a _ b _ hab => by simpa [sub_eq_zero] using hab)]
  congr 1
  norm_num [poissonProb, Nat.factorial]
  have e : Int.toNat 2 = 2 := rfl
  rw [e]
  norm_num [Nat.factorial]
  ring

/-- An increment across `t0`. -/
example : seedLaw (Fin 1) 2 {st | ∃ m', (truePoisson 0 seedDn seedBin).call [-1] (some [3])
    (Mem.new 0 ![1] st) = .ok ([![2]], m')} = ENNReal.ofReal (Real.exp (-6) * 18) := by
  rw [C63_increment (seed_generator (ι := Fin 1) (lam := 2) (by norm_num)) (by norm_num) le_rfl 0 _
    (-1) 3 (by norm_num) (by norm_num) (by norm_num)
    (fun a _ b _ hab => by simpa [sub_eq_zero] using hab)]
  congr 1
  norm_num [poissonProb, Nat.factorial]
  have e : Int.toNat 2 = 2 := rfl
  rw [e]
  norm_num [Nat.factorial]
  ring

end Sdepy
