import Verif.Lemmas.CPoissonLawMain

/-!
# Probability of sequences of values of a compound Poisson source with memory, along a given Poisson path
-/

set_option linter.unusedSectionVars false
set_option linter.unusedSimpArgs false

open MeasureTheory ProbabilityTheory

namespace Sdepy

open Spec

variable {σ : Type} [MeasurableSpace σ] {μ : Measure σ} [IsProbabilityMeasure μ]
  {ν : Measure ℝ} [IsProbabilityMeasure ν] {paths : ℕ} {vshape : List ℕ}
  {rN rtol lam : ℝ} {dn0 : ℝ → ℝ → σ → Py ((Pos (vshape ++ [paths]) → ℤ) × σ)}
  {bin : (Pos (vshape ++ [paths]) → ℤ) → ℝ → σ → (Pos (vshape ++ [paths]) → ℤ) × σ}
  {x : ℝ → Pos (vshape ++ [paths]) → ℤ} {y : ℝ → Py (Rvs ℝ σ)} {z0 : Pos (vshape ++ [paths]) → ℝ}
  {t0 : ℝ}

/-- Sizes of jumps and state of the generator such that evaluations at the times `ss` return the values
given by some sizes of jumps in `AY`, and the Poisson source follows `x`. -/
def JGoal (rN rtol : ℝ) (dn0 : ℝ → ℝ → σ → Py ((Pos (vshape ++ [paths]) → ℤ) × σ))
    (bin : (Pos (vshape ++ [paths]) → ℤ) → ℝ → σ → (Pos (vshape ++ [paths]) → ℤ) × σ)
    (y : ℝ → Py (Rvs ℝ σ)) (x : ℝ → Pos (vshape ++ [paths]) → ℤ) (z0 : Pos (vshape ++ [paths]) → ℝ)
    (t0 : ℝ) (Dl : List ℝ) (AY : Set (Pos (vshape ++ [paths]) × ℤ → ℝ)) (ts nts ss : List ℝ)
    (p : (Pos (vshape ++ [paths]) × ℤ → ℝ) × σ) : Prop :=
  (∀ a ∈ ts, ∀ b ∈ ts, GoodOn (x a) (x b) p.1) ∧
  ∀ m, JM z0 t0 x p.1 ts nts p.2 m → ∃ Y' m' nts' st',
    (trueCPoisson rtol paths vshape (truePoisson rN dn0 bin) y).getList ss m =
      .ok (ss.map (jv z0 t0 x Y'), m') ∧ Y' ∈ AY ∧
    (∀ a ∈ ts, ∀ b ∈ ts, AgreeOn (x a) (x b) p.1 Y') ∧
    (truePoisson rN dn0 bin).get1 t0 m'.s = .ok (x t0, pathMem x nts' st') ∧
    nts'.Pairwise (· < ·) ∧ (∀ u ∈ nts', u ∈ Dl) ∧
    ∀ u, u ∈ nts ∨ u = t0 ∨ u ∈ ss → NKnows x nts' u

theorem JGoal.cons (hx : Monotone x) {Dl : List ℝ} {AY : Set (Pos (vshape ++ [paths]) × ℤ → ℝ)}
    {ts ts' nts nts' ss : List ℝ} {s : ℝ} {p q : (Pos (vshape ++ [paths]) × ℤ → ℝ) × σ}
    (h0 : t0 ∈ ts') (hsub : ∀ a ∈ ts, a ∈ ts') (hw : ∃ w ∈ ts', x w = x s)
    (hn : ∀ a ∈ nts, a ∈ nts') (hk : s = t0 ∨ NKnows x nts' s)
    (hagree : ∀ a ∈ ts, ∀ b ∈ ts, AgreeOn (x a) (x b) p.1 q.1)
    (hstep : ∀ m, JM z0 t0 x p.1 ts nts p.2 m → ∃ m',
      (trueCPoisson rtol paths vshape (truePoisson rN dn0 bin) y).get1 s m =
        .ok (jv z0 t0 x q.1 s, m') ∧ JM z0 t0 x q.1 ts' nts' q.2 m')
    (h : JGoal rN rtol dn0 bin y x z0 t0 Dl AY ts' nts' ss q) :
    JGoal rN rtol dn0 bin y x z0 t0 Dl AY ts nts (s :: ss) p := by
  refine ⟨fun a ha b hb => (h.1 a (hsub a ha) b (hsub b hb)).congr le_rfl le_rfl (hagree a ha b hb),
    fun m hm => ?_⟩
  obtain ⟨m1, e1, hm1⟩ := hstep m hm
  obtain ⟨Y', m', n', st', e2, hY, hag, hN, hs', hD, hall⟩ := h.2 m1 hm1
  refine ⟨Y', m', n', st', ?_, hY, fun a ha b hb => (hagree a ha b hb).trans
    (hag a (hsub a ha) b (hsub b hb)), hN, hs', hD, ?_⟩
  · simp only [TrueSrc.getList, e1, e2, List.map_cons]
    obtain ⟨w, hw, hws⟩ := hw
    rw [← jv_same hws, ← jv_same (Y := Y') hws, jv_congr hx (hag _ h0 _ hw) (hag _ hw _ h0)]
  · rintro u (hu | hu | hu)
    · exact hall u (.inl (hn u hu))
    · exact hall u (.inr (.inl hu))
    · rcases List.mem_cons.1 hu with rfl | hu
      · rcases hk with rfl | hk
        · exact hall _ (.inr (.inl rfl))
        · obtain ⟨a, ha, b, hb, hau, hub, hab⟩ := hk
          exact (hall a (.inl ha)).between hx (hall b (.inl hb)) hau hub hab
      · exact hall u (.inr (.inr hu))

theorem prob_lists (hx : Monotone x) {L L' nts nts' ss : List ℝ} {s : ℝ}
    (hL : L.Pairwise (· < ·)) (hL' : L'.Pairwise (· < ·))
    (hm : ∀ u, u ∈ L ↔ u ∈ nts ∨ u = t0 ∨ u ∈ s :: ss) (hm' : ∀ u, u ∈ L' ↔ u ∈ nts' ∨ u = t0 ∨ u ∈ ss)
    (h1 : ∀ u ∈ nts, u ∈ nts') (h2 : ∀ u ∈ nts', u ∈ nts ∨ u = s ∨ u = t0 ∨ NKnows x nts u)
    (hk : s = t0 ∨ NKnows x nts' s) :
    poissonPathProb lam x L' = poissonPathProb lam x L := by
  refine pathProb_same hx hL hL' (fun u hu => ?_) fun u hu => ?_
  · rcases (hm' u).1 hu with h | h | h
    · rcases h2 u h with h | h | h | h
      · exact .of_mem ((hm u).2 (.inl h))
      · exact .of_mem ((hm u).2 (by simp [h]))
      · exact .of_mem ((hm u).2 (by simp [h]))
      · exact h.mono fun a ha => (hm a).2 (.inl ha)
    · exact .of_mem ((hm u).2 (by simp [h]))
    · exact .of_mem ((hm u).2 (by simp [h]))
  · rcases (hm u).1 hu with h | h | h
    · exact .of_mem ((hm' u).2 (.inl (h1 u h)))
    · exact .of_mem ((hm' u).2 (by simp [h]))
    · rcases List.mem_cons.1 h with h | h
      · rcases hk with hk | hk
        · exact .of_mem ((hm' u).2 (by simp [h, hk]))
        · rw [h]
          exact hk.mono fun a ha => (hm' a).2 (.inl ha)
      · exact .of_mem ((hm' u).2 (by simp [h]))

set_option maxHeartbeats 1000000 in
theorem jump_getList_law (hG : PoissonGenerator μ lam dn0 bin) (hl : 0 ≤ lam) (hrN : 0 ≤ rN)
    (hr : 0 ≤ rtol) (hv : ∀ t, ∃ rvs, y t = .ok rvs ∧ VariatesLaw μ ν rvs)
    (c0 : Pos (vshape ++ [paths])) (hx : Monotone x) {Dl : List ℝ} (hapN : ApartTimes rN Dl)
    {Dj : List ℝ} (hDj : ∀ u ∈ Dj, u ∈ Dl) (hap : ApartTimes rtol Dj) {AY : Set (Pos (vshape ++ [paths]) × ℤ → ℝ)} (hAY : MeasurableSet AY)
    (hgood : ∀ Y ∈ AY, ∀ lo hi, GoodOn lo hi Y) (h0D : t0 ∈ Dl) : ∀ (ss : List ℝ) {ts nts : List ℝ},
    ts.Pairwise (· < ·) → nts.Pairwise (· < ·) → nts ≠ [] → t0 ∈ ts → (∀ u ∈ ts, u ∈ Dj) →
    (∀ u ∈ nts, u ∈ Dl) → (∀ u ∈ ss, u ∈ Dj) → (ts = [t0] ∨ ∀ t ∈ ts, NKnows x nts t) →
    ∃ S : Set ((Pos (vshape ++ [paths]) × ℤ → ℝ) × σ), MeasurableSet S ∧
      (∀ L : List ℝ, L.Pairwise (· < ·) → (∀ u, u ∈ L ↔ u ∈ nts ∨ u = t0 ∨ u ∈ ss) →
        ENNReal.ofReal (poissonPathProb lam x nts) *
          ((Measure.infinitePi fun _ : Pos (vshape ++ [paths]) × ℤ => ν).prod μ) S =
        ENNReal.ofReal (poissonPathProb lam x L) *
          (Measure.infinitePi fun _ : Pos (vshape ++ [paths]) × ℤ => ν) AY) ∧
      ∀ p ∈ S, JGoal rN rtol dn0 bin y x z0 t0 Dl AY ts nts ss p
  | [], ts, nts, hts, hnts, hne, h0, htD, hnD, hsD, hkn => by
    obtain ⟨n1, s1, ne1, sub1, mem1, k1, hset⟩ := nstep
      (π := Measure.infinitePi fun _ : Pos (vshape ++ [paths]) × ℤ => ν) hG hl hrN hx hnts hne (u := t0)
      (fun a ha hne => hapN _ h0D _ (hnD a ha) hne)
    obtain ⟨S, hS, hp, hrun⟩ := hset (AY ×ˢ Set.univ) (hAY.prod MeasurableSet.univ)
    refine ⟨S, hS, fun L hL hm => ?_, fun p hpS => ?_⟩
    · rw [hp, Measure.prod_prod, measure_univ, mul_one]
      congr 2
      refine pathProb_same hx hL s1 (fun u hu => ?_) fun u hu => ?_
      · rcases mem1 u hu with h | h
        · exact .of_mem ((hm u).2 (by simp [h]))
        · exact .of_mem ((hm u).2 (by simp [h]))
      · rcases (hm u).1 hu with h | h | h
        · exact .of_mem (sub1 u h)
        · rw [h]; exact k1
        · simp at h
    · obtain ⟨st', hc, hget⟩ := hrun p hpS
      have hAYp : p.1 ∈ AY := hc.1
      refine ⟨fun a _ b _ => hgood _ hAYp _ _, ?_⟩
      rintro m ⟨ps, hps, rfl, hval, hch⟩
      refine ⟨p.1, _, n1, st', rfl, hAYp, fun _ _ _ _ _ _ _ _ => rfl, hget, s1, ?_, ?_⟩
      · intro u hu
        rcases mem1 u hu with h | h
        · rw [h]; exact h0D
        · exact hnD u h
      · rintro u (h | h | h)
        · exact .of_mem (sub1 u h)
        · rw [h]; exact k1
        · simp at h
  | s :: ss, ts, nts, hts, hnts, hne, h0, htD, hnD, hsD, hkn => by
    have hsJ : s ∈ Dj := hsD s (by simp)
    have hsD' : s ∈ Dl := hDj s hsJ
    have hssD : ∀ u ∈ ss, u ∈ Dj := fun u hu => hsD u (by simp [hu])
    by_cases hst : s ∈ ts
    · -- known time
      obtain ⟨S, hS, hp, hrun⟩ := jump_getList_law hG hl hrN hr hv c0 hx hapN hDj hap hAY hgood h0D ss hts hnts
        hne h0 htD hnD hssD hkn
      have hk : s = t0 ∨ NKnows x nts s := by
        rcases hkn with rfl | h
        · exact .inl (by simpa using hst)
        · exact .inr (h s hst)
      refine ⟨S, hS, fun L hL hm => ?_, fun p hpS => ?_⟩
      · obtain ⟨L', hL', hm'⟩ := exists_sorts (nts ++ t0 :: ss)
        have hm' : ∀ u, u ∈ L' ↔ u ∈ nts ∨ u = t0 ∨ u ∈ ss := fun u => by
          rw [hm', List.mem_append, List.mem_cons]
        rw [hp L' hL' hm', prob_lists hx hL hL' hm hm' (fun _ h => h) (fun _ h => .inl h) hk]
      · refine JGoal.cons hx h0 (fun _ h => h) ⟨s, hst, rfl⟩ (fun _ h => h) hk
          (fun _ _ _ _ _ _ _ _ => rfl) (fun m hm => ?_) (hrun p hpS)
        obtain ⟨ps, hps, rfl, hval, hch⟩ := hm
        have hst' := hst
        rw [← hps] at hst'
        obtain ⟨⟨s', z⟩, hz, hzs⟩ := List.mem_map.1 hst'
        simp only at hzs
        subst hzs
        obtain ⟨A, B, rfl⟩ := List.append_of_mem hz
        refine ⟨_, ?_, A ++ (s', z) :: B, hps, rfl, hval, hch⟩
        rw [pair_known (S := trueCPoisson rtol paths vshape (truePoisson rN dn0 bin) y) hr _
          (by rw [hps]; exact hts)]
        rw [← hval (s', z) hz]
        rfl
    have hclose : ∀ u ∈ ts, ¬ |s - u| ≤ rtol * |u| := fun u hu =>
      hap s hsJ u (htD u hu) fun h => hst (h ▸ hu)
    obtain ⟨l1, l2, rfl, g1, g2, gs⟩ := sorted_gap hts hst
    rcases List.eq_nil_or_concat l1 with rfl | ⟨l1, a, rfl⟩
    · -- before
      cases l2 with
      | nil => simp at h0
      | cons b l2 =>
        simp only [List.nil_append] at *
        have hsb := g2 b (by simp)
        obtain ⟨n1, s1, ne1, sub1, mem1, k1, hset1⟩ := nstep
          (π := Measure.infinitePi fun _ : Pos (vshape ++ [paths]) × ℤ => ν) hG hl hrN hx hnts hne (u := s)
          (fun a ha hne => hapN _ hsD' _ (hnD a ha) hne)
        have hn1 : ∀ u ∈ n1, u ∈ Dl := fun u hu => (mem1 u hu).elim (fun h => h ▸ hsD') (hnD u)
        obtain ⟨n2, s2, ne2, sub2, mem2, k2, hset2⟩ := nstep
          (π := Measure.infinitePi fun _ : Pos (vshape ++ [paths]) × ℤ => ν) hG hl hrN hx s1 ne1 (u := b)
          (fun a ha hne => hapN _ (hDj _ (htD b (by simp))) _ (hn1 a ha) hne)
        have hn2 : ∀ u ∈ n2, u ∈ Dl := fun u hu =>
          (mem2 u hu).elim (fun h => h ▸ hDj _ (htD b (by simp))) (hn1 u)
        have hsub : ∀ u ∈ nts, u ∈ n2 := fun u hu => sub2 u (sub1 u hu)
        obtain ⟨S3, hS3, hp3, hrun3⟩ := jump_getList_law hG hl hrN hr hv c0 hx hapN hDj hap hAY hgood h0D ss
          (ts := s :: b :: l2) (nts := n2) gs s2 ne2
          (List.mem_cons_of_mem _ h0) (by
            intro u hu
            rcases List.mem_cons.1 hu with h | h
            · rw [h]; exact hsJ
            · exact htD u h) hn2 hssD (.inr (by
              intro t ht
              rcases List.mem_cons.1 ht with h | h
              · rw [h]; exact k1.mono sub2
              · rcases List.mem_cons.1 h with h' | h'
                · rw [h']; exact k2
                · rcases hkn with hkn | hkn
                  · simp only [List.cons.injEq] at hkn
                    rw [hkn.2] at h'
                    simp at h'
                  · exact (hkn t h).mono hsub))
        obtain ⟨Φ, hΦ, hΦrun⟩ := step_before (rN := rN) (dn0 := dn0) (bin := bin) (z0 := z0) hv hx c0 hts
          hsb hclose h0
        obtain ⟨S2, hS2, hp2, hrun2⟩ := hset2 (Φ ⁻¹' S3) (hΦ.measurable hS3)
        obtain ⟨S1, hS1, hp1, hrun1⟩ := hset1 S2 hS2
        refine ⟨S1, hS1, fun L hL hm => ?_, fun p hpS => ?_⟩
        · obtain ⟨L', hL', hm'⟩ := exists_sorts (n2 ++ t0 :: ss)
          have hm' : ∀ u, u ∈ L' ↔ u ∈ n2 ∨ u = t0 ∨ u ∈ ss := fun u => by
            rw [hm', List.mem_append, List.mem_cons]
          rw [hp1, hp2, hΦ.measure_preimage hS3.nullMeasurableSet, hp3 L' hL' hm',
            prob_lists hx hL hL' hm hm' hsub ?_ (.inr (k1.mono sub2))]
          intro u hu
          rcases mem2 u hu with h | h
          · rcases hkn with hkn | hkn
            · simp only [List.cons.injEq] at hkn
              exact .inr (.inr (.inl (h.trans hkn.1)))
            · rw [h]; exact .inr (.inr (.inr (hkn b (by simp))))
          · rcases mem1 u h with h | h
            · exact .inr (.inl h)
            · exact .inl h
        · obtain ⟨st1, q2, e1⟩ := hrun1 p hpS
          obtain ⟨st2, q3, e2⟩ := hrun2 _ q2
          obtain ⟨hag, hst⟩ := hΦrun p.1 p.2 _ nts n2 st2 e1 e2
          exact JGoal.cons hx (List.mem_cons_of_mem _ h0) (fun u hu => List.mem_cons_of_mem _ hu)
            ⟨s, by simp, rfl⟩ hsub (.inr (k1.mono sub2)) hag hst (hrun3 _ q3)
    simp only [List.concat_eq_append] at *
    have has := g1 a (by simp)
    cases l2 with
    | nil =>
      simp only [List.append_nil] at *
      have haD : a ∈ Dl := hDj _ (htD a (by simp))
      have gs' : (l1 ++ [a, s]).Pairwise (· < ·) := by
        have e : l1 ++ [a, s] = l1 ++ [a] ++ [s] := by simp
        rw [e]; exact gs
      have hsubt : ∀ u ∈ l1 ++ [a], u ∈ l1 ++ [a, s] := by
        intro u hu
        simp only [List.mem_append, List.mem_cons, List.not_mem_nil, or_false] at hu ⊢
        tauto
      obtain ⟨n1, s1, ne1, sub1, mem1, k1, hset1⟩ := nstep
        (π := Measure.infinitePi fun _ : Pos (vshape ++ [paths]) × ℤ => ν) hG hl hrN hx hnts hne (u := s)
        (fun a ha hne => hapN _ hsD' _ (hnD a ha) hne)
      have hn1 : ∀ u ∈ n1, u ∈ Dl := fun u hu => (mem1 u hu).elim (fun h => h ▸ hsD') (hnD u)
      obtain ⟨n2, s2, ne2, sub2, mem2, k2, hset2⟩ := nstep
        (π := Measure.infinitePi fun _ : Pos (vshape ++ [paths]) × ℤ => ν) hG hl hrN hx s1 ne1 (u := a)
        (fun b hb hne => hapN _ haD _ (hn1 b hb) hne)
      have hn2 : ∀ u ∈ n2, u ∈ Dl := fun u hu =>
        (mem2 u hu).elim (fun h => h ▸ haD) (hn1 u)
      have hsub : ∀ u ∈ nts, u ∈ n2 := fun u hu => sub2 u (sub1 u hu)
      have honly : l1 ++ [a] = [t0] → l1 = [] ∧ a = t0 := by
        intro h
        cases l1 with
        | nil => simpa using h
        | cons _ _ => simp at h
      obtain ⟨S3, hS3, hp3, hrun3⟩ := jump_getList_law hG hl hrN hr hv c0 hx hapN hDj hap hAY hgood h0D ss
        (ts := l1 ++ [a, s]) (nts := n2) gs' s2 ne2
        (hsubt _ h0) (by
          intro u hu
          have : u ∈ l1 ++ [a] ∨ u = s := by
            simp only [List.mem_append, List.mem_cons, List.not_mem_nil, or_false] at hu ⊢
            tauto
          rcases this with h | h
          · exact htD u h
          · rw [h]; exact hsJ) hn2 hssD (.inr (by
            intro t ht
            have : t ∈ l1 ++ [a] ∨ t = s := by
              simp only [List.mem_append, List.mem_cons, List.not_mem_nil, or_false] at ht ⊢
              tauto
            rcases this with h | h
            · rcases hkn with hkn | hkn
              · obtain ⟨rfl, rfl⟩ := honly hkn
                have : t = a := by simpa using h
                rw [this]; exact k2
              · exact (hkn t h).mono hsub
            · rw [h]; exact k1.mono sub2))
      obtain ⟨Φ, hΦ, hΦrun⟩ := step_after (rN := rN) (rtol := rtol) (dn0 := dn0) (bin := bin) (z0 := z0)
        hv hx c0 hts has (hclose a (by simp)) h0
      obtain ⟨S2, hS2, hp2, hrun2⟩ := hset2 (Φ ⁻¹' S3) (hΦ.measurable hS3)
      obtain ⟨S1, hS1, hp1, hrun1⟩ := hset1 S2 hS2
      refine ⟨S1, hS1, fun L hL hm => ?_, fun p hpS => ?_⟩
      · obtain ⟨L', hL', hm'⟩ := exists_sorts (n2 ++ t0 :: ss)
        have hm' : ∀ u, u ∈ L' ↔ u ∈ n2 ∨ u = t0 ∨ u ∈ ss := fun u => by
          rw [hm', List.mem_append, List.mem_cons]
        rw [hp1, hp2, hΦ.measure_preimage hS3.nullMeasurableSet, hp3 L' hL' hm',
          prob_lists hx hL hL' hm hm' hsub ?_ (.inr (k1.mono sub2))]
        intro u hu
        rcases mem2 u hu with h | h
        · rcases hkn with hkn | hkn
          · exact .inr (.inr (.inl (h.trans (honly hkn).2)))
          · rw [h]; exact .inr (.inr (.inr (hkn a (by simp))))
        · rcases mem1 u h with h | h
          · exact .inr (.inl h)
          · exact .inl h
      · obtain ⟨st1, q2, e1⟩ := hrun1 p hpS
        obtain ⟨st2, q3, e2⟩ := hrun2 _ q2
        obtain ⟨hag, hst⟩ := hΦrun p.1 p.2 _ nts n2 st2 e1 e2
        exact JGoal.cons hx (hsubt _ h0) hsubt
          ⟨s, by simp, rfl⟩ hsub (.inr (k1.mono sub2)) hag hst (hrun3 _ q3)
    | cons b l2 =>
      have hsb := g2 b (by simp)
      have e : l1 ++ [a] ++ b :: l2 = l1 ++ a :: b :: l2 := by simp
      have e' : l1 ++ [a] ++ s :: b :: l2 = l1 ++ a :: s :: b :: l2 := by simp
      rw [e] at hts h0 htD hkn hclose hst ⊢
      rw [e'] at gs
      have hkn : ∀ t ∈ l1 ++ a :: b :: l2, NKnows x nts t := by
        rcases hkn with h | h
        · exfalso
          have := congrArg List.length h
          simp at this
          omega
        · exact h
      have ka := hkn a (by simp)
      have kb := hkn b (by simp)
      by_cases hf : x a = x b
      · -- flat
        obtain ⟨S, hS, hp, hrun⟩ := jump_getList_law hG hl hrN hr hv c0 hx hapN hDj hap hAY hgood h0D ss hts
          hnts hne h0 htD hnD hssD (.inr hkn)
        have ks : NKnows x nts s := ka.between hx kb has.le hsb.le hf
        refine ⟨S, hS, fun L hL hm => ?_, fun p hpS => ?_⟩
        · obtain ⟨L', hL', hm'⟩ := exists_sorts (nts ++ t0 :: ss)
          have hm' : ∀ u, u ∈ L' ↔ u ∈ nts ∨ u = t0 ∨ u ∈ ss := fun u => by
            rw [hm', List.mem_append, List.mem_cons]
          rw [hp L' hL' hm', prob_lists hx hL hL' hm hm' (fun _ h => h) (fun _ h => .inl h) (.inr ks)]
        · refine JGoal.cons hx h0 (fun _ h => h)
            ⟨b, by simp, le_antisymm (hf ▸ hx has.le) (hx hsb.le)⟩ (fun _ h => h) (.inr ks)
            (fun _ _ _ _ _ _ _ _ => rfl) (fun m hm => ⟨m, step_flat hx hts has hsb (hclose a (by simp)) hf hm, hm⟩)
            (hrun p hpS)
      · obtain ⟨n1, s1, ne1, sub1, mem1, k1, hset1⟩ := nstep
          (π := Measure.infinitePi fun _ : Pos (vshape ++ [paths]) × ℤ => ν) hG hl hrN hx hnts hne (u := s)
          (fun a ha hne => hapN _ hsD' _ (hnD a ha) hne)
        have hn1 : ∀ u ∈ n1, u ∈ Dl := fun u hu => (mem1 u hu).elim (fun h => h ▸ hsD') (hnD u)
        have hsubt : ∀ u ∈ l1 ++ a :: b :: l2, u ∈ l1 ++ a :: s :: b :: l2 := by
          intro u hu
          simp only [List.mem_append, List.mem_cons] at hu ⊢
          tauto
        have hback : ∀ u ∈ l1 ++ a :: s :: b :: l2, u ∈ l1 ++ a :: b :: l2 ∨ u = s := by
          intro u hu
          simp only [List.mem_append, List.mem_cons] at hu ⊢
          tauto
        obtain ⟨S3, hS3, hp3, hrun3⟩ := jump_getList_law hG hl hrN hr hv c0 hx hapN hDj hap hAY hgood h0D ss
          (ts := l1 ++ a :: s :: b :: l2) (nts := n1) gs s1 ne1
          (hsubt _ h0) (fun u hu => (hback u hu).elim (htD u) (fun h => h ▸ hsJ)) hn1 hssD
          (.inr fun t ht => (hback t ht).elim (fun h => (hkn t h).mono sub1) (fun h => h ▸ k1))
        obtain ⟨S1, hS1, hp1, hrun1⟩ := hset1 S3 hS3
        refine ⟨S1, hS1, fun L hL hm => ?_, fun p hpS => ?_⟩
        · obtain ⟨L', hL', hm'⟩ := exists_sorts (n1 ++ t0 :: ss)
          have hm' : ∀ u, u ∈ L' ↔ u ∈ n1 ∨ u = t0 ∨ u ∈ ss := fun u => by
            rw [hm', List.mem_append, List.mem_cons]
          rw [hp1, hp3 L' hL' hm', prob_lists hx hL hL' hm hm' sub1 ?_ (.inr k1)]
          intro u hu
          rcases mem1 u hu with h | h
          · exact .inr (.inl h)
          · exact .inl h
        · obtain ⟨st1, q3, e1⟩ := hrun1 p hpS
          have hq := hrun3 _ q3
          refine JGoal.cons (q := (p.1, st1)) hx (hsubt _ h0) hsubt ⟨s, by simp, rfl⟩ sub1 (.inr k1)
            (fun _ _ _ _ _ _ _ _ => rfl) (fun m hm => ?_) hq
          exact step_between hx c0 hts has hsb (hclose a (by simp)) (hq.1 a (by simp) b (by simp)) hf
            (ka.get1 hx hrN hnts (fun w hw hne => hapN _ (hDj _ (htD a (by simp))) _ (hnD w hw) hne) _) e1
            ((kb.mono sub1).get1 hx hrN s1 (fun w hw hne => hapN _ (hDj _ (htD b (by simp))) _ (hn1 w hw) hne) _)
            hm

end Sdepy
