import Verif.Lemmas.CPoissonLawSum

/-!
# Law of the values of a compound Poisson source with memory
-/

set_option linter.unusedSectionVars false
set_option linter.unusedSimpArgs false

open MeasureTheory ProbabilityTheory

namespace Sdepy

open Spec

/-- Jumps that never cancel out: with probability one, the sum of any number of independent ones is not
zero. -/
def Spec.NoCancel (ν : Measure ℝ) [IsProbabilityMeasure ν] : Prop :=
  ∀ m : ℕ, 0 < m → (Measure.infinitePi fun _ : ℕ => ν) {y | ∑ i ∈ Finset.range m, y i = 0} = 0

theorem Spec.IsLevyProcess.subset {σ A : Type} [MeasurableSpace σ] [MeasurableSpace A] [AddCommGroup A]
    {μ : Measure σ} {law : ℝ → Measure A} {t0 : ℝ} {D D' : Set ℝ} {X : ℝ → σ → A}
    (h : IsLevyProcess μ law t0 D X) (hs : D' ⊆ D) : IsLevyProcess μ law t0 D' X :=
  ⟨h.start, fun a ha b hb => h.law a (hs ha) b (hs hb), fun n t ht hD =>
    h.indep n t ht fun k => hs (hD k)⟩

section good
variable {shape : List ℕ} (ν : Measure ℝ) [IsProbabilityMeasure ν]

/-- Sizes of jumps of which no sum vanishes. -/
def goodY (shape : List ℕ) : Set (Pos shape × ℤ → ℝ) :=
  ⋂ q : Pos shape × ℤ × ℕ, {Y | 0 < q.2.2 → ∑ k ∈ Finset.range q.2.2, Y (q.1, q.2.1 + k) ≠ 0}

theorem goodY_good {Y : Pos shape × ℤ → ℝ} (h : Y ∈ goodY shape) (lo hi : Pos shape → ℤ) :
    GoodOn lo hi Y := fun c i m hm _ _ => Set.mem_iInter.1 h (c, i, m) hm

theorem goodY_measurable : MeasurableSet (goodY shape) := by
  refine MeasurableSet.iInter fun q => ?_
  by_cases hq : 0 < q.2.2
  · simp only [hq, true_imp_iff]
    have hm : Measurable fun Y : Pos shape × ℤ → ℝ => ∑ k ∈ Finset.range q.2.2, Y (q.1, q.2.1 + k) := by
      fun_prop
    exact (hm (measurableSet_singleton 0)).compl
  · simp [hq]

theorem goodY_ae (hν : NoCancel ν) : ∀ᵐ Y ∂(Measure.infinitePi fun _ : Pos shape × ℤ => ν),
    Y ∈ goodY shape := by
  simp only [goodY, Set.mem_iInter]
  rw [ae_all_iff]
  rintro ⟨c, i, m⟩
  by_cases hm : 0 < m
  · have h1 := block_law ν (e := fun k : Fin m => ((c, i + ((k : ℕ) : ℤ)) : Pos shape × ℤ))
      (fun a b h => by
        simp only [Prod.mk.injEq, add_right_inj, Nat.cast_inj, true_and] at h
        exact Fin.ext h)
    rw [sumLaw_eq] at h1
    have h2 := congrArg (fun M : Measure ℝ => M {0}) h1
    rw [Measure.map_apply (by fun_prop) (measurableSet_singleton 0),
      Measure.map_apply (by fun_prop) (measurableSet_singleton 0)] at h2
    have h3 : (Measure.infinitePi fun _ : ℕ => ν)
        ((fun x => ∑ i ∈ Finset.range m, x i) ⁻¹' {0}) = 0 := hν m hm
    rw [h3] at h2
    rw [ae_iff]
    refine Eq.trans (congrArg _ ?_) h2
    ext Y
    simp only [Set.mem_setOf_eq, hm, true_imp_iff, not_not, Set.mem_preimage, Set.mem_singleton_iff,
      Finset.sum_range, ne_eq]
  · exact Filter.Eventually.of_forall fun Y h => absurd h hm

end good

section law
variable {σ : Type} [MeasurableSpace σ] {μ : Measure σ} [IsProbabilityMeasure μ]
  {ν : Measure ℝ} [IsProbabilityMeasure ν] {paths : ℕ} {vshape : List ℕ}
  {rN rtol lam : ℝ} {dn0 : ℝ → ℝ → σ → Py ((Pos (vshape ++ [paths]) → ℤ) × σ)}
  {bin : (Pos (vshape ++ [paths]) → ℤ) → ℝ → σ → (Pos (vshape ++ [paths]) → ℤ) × σ}
  {y : ℝ → Py (Rvs ℝ σ)}

theorem known_eq {ι : Type} [Fintype ι] {x x' : ℝ → ι → ℤ} (hx : Monotone x) (hx' : Monotone x')
    {nts : List ℝ} (h : ∀ a ∈ nts, x a = x' a) {u : ℝ} (hk : NKnows x nts u) : x u = x' u := by
  obtain ⟨a, ha, b, hb, h1, h2, h3⟩ := hk
  have e1 : x u = x a := le_antisymm (h3 ▸ hx h2) (hx h1)
  have e2 : x' u = x' a := le_antisymm ((hx' h2).trans (by rw [← h b hb, ← h a ha, h3])) (hx' h1)
  rw [e1, e2, h a ha]

set_option maxHeartbeats 1000000 in
/-- Sets of states on which the values are in a given set. -/
theorem cpoisson_cover (hG : PoissonGenerator μ lam dn0 bin) (hl : 0 ≤ lam) (hrN : 0 ≤ rN)
    (hr : 0 ≤ rtol) (hv : ∀ t, ∃ rvs, y t = .ok rvs ∧ VariatesLaw μ ν rvs) (hν : NoCancel ν)
    (c0 : Pos (vshape ++ [paths])) (t0 tn : ℝ) (z0 : Pos (vshape ++ [paths]) → ℝ)
    (n0 : Pos (vshape ++ [paths]) → ℤ) (ss : List ℝ) (hapN : ApartTimes rN (tn :: t0 :: ss))
    (hap : ApartTimes rtol (t0 :: ss)) {L : List ℝ} (hL : Sorts L (tn :: t0 :: ss))
    {A : Set (Fin (L.length - 1) → Pos (vshape ++ [paths]) → ℝ)} (hA : MeasurableSet A) :
    ∃ W : Set ((Pos (vshape ++ [paths]) × ℤ → ℝ) × σ), MeasurableSet W ∧
      ((Measure.infinitePi fun _ : Pos (vshape ++ [paths]) × ℤ => ν).prod μ) W =
        idealLaw (Pos (vshape ++ [paths])) lam ν L A ∧
      ∀ p ∈ W, ∃ inc ∈ A, ∃ m', (trueCPoisson rtol paths vshape (truePoisson rN dn0 bin) y).getList ss
        (Mem.new t0 (z0, none) (Mem.new tn n0 p.2)) =
          .ok (ss.map fun u => z0 + idealX L t0 u inc, m') := by
  have hJM : ∀ (D : Fin (L.length - 1) × Pos (vshape ++ [paths]) → ℤ) Y (st : σ),
      JM z0 t0 (pathD tn n0 D) Y [t0] [tn] st (Mem.new t0 (z0, none) (Mem.new tn n0 st)) := by
    intro D Y st
    refine ⟨[(t0, (z0, none))], rfl, ?_, ?_, by simp⟩
    · simp [pairMem, pathMem, Mem.new, pathD_start]
    · intro p hp
      rw [List.mem_singleton.1 hp, jv_start]
  have hS : ∀ D : Fin (L.length - 1) × Pos (vshape ++ [paths]) → ℤ,
      ∃ S : Set ((Pos (vshape ++ [paths]) × ℤ → ℝ) × σ), MeasurableSet S ∧
        ((Measure.infinitePi fun _ : Pos (vshape ++ [paths]) × ℤ => ν).prod μ) S =
          (Measure.pi fun kc : Fin (L.length - 1) × Pos (vshape ++ [paths]) => (poissonMeasure
            (lam * (L.getD (kc.1 + 1) 0 - L.getD kc.1 0)).toNNReal).map ((↑) : ℕ → ℤ)) {D} *
          (Measure.pi fun kc => sumLaw ν (D kc).toNat) {g | (fun k c => g (k, c)) ∈ A} ∧
        ∀ p ∈ S, (∀ kc, 0 ≤ D kc) ∧ JGoal rN rtol dn0 bin y (pathD tn n0 D) z0 t0 (tn :: t0 :: ss)
          (goodY (vshape ++ [paths]) ∩ {Y | (fun k c => binc tn n0 D Y (k, c)) ∈ A}) [t0] [tn] ss p := by
    intro D
    by_cases hD : ∀ kc, 0 ≤ D kc
    · have hAY : MeasurableSet {Y : Pos (vshape ++ [paths]) × ℤ → ℝ |
          (fun k c => binc (L := L) tn n0 D Y (k, c)) ∈ A} := by
        have h1 : Measurable fun (Y : Pos (vshape ++ [paths]) × ℤ → ℝ) (k : Fin (L.length - 1))
            (c : Pos (vshape ++ [paths])) => binc tn n0 D Y (k, c) :=
          measurable_pi_lambda _ fun k => measurable_pi_lambda _ fun c =>
            (measurable_pi_apply (k, c)).comp measurable_binc
        exact h1 hA
      obtain ⟨S, hS1, hS2, hS3⟩ := jump_getList_law (x := pathD tn n0 D) (z0 := z0) (t0 := t0)
        (rtol := rtol) (Dl := tn :: t0 :: ss) (Dj := t0 :: ss) hG hl hrN hr hv c0 pathD_mono hapN
        (fun u hu => List.mem_cons_of_mem _ hu) hap
        (goodY_measurable.inter hAY) (fun Y hY lo hi => goodY_good hY.1 lo hi) (by simp) ss
        (ts := [t0]) (nts := [tn]) (by simp) (by simp) (by simp) (by simp) (by simp) (by simp)
        (fun u hu => by simp [hu]) (.inl rfl)
      refine ⟨S, hS1, ?_, fun p hp => ⟨hD, hS3 p hp⟩⟩
      have h := hS2 L hL.1 (fun u => by rw [hL.2]; simp)
      have h1 : poissonPathProb lam (pathD tn n0 D) [tn] = 1 := rfl
      rw [h1, ENNReal.ofReal_one, one_mul, pathD_prob hl hL.1 hD] at h
      rw [h]
      congr 1
      have hA' : MeasurableSet {g : Fin (L.length - 1) × Pos (vshape ++ [paths]) → ℝ |
          (fun k c => g (k, c)) ∈ A} :=
        (by fun_prop : Measurable fun (g : Fin (L.length - 1) × Pos (vshape ++ [paths]) → ℝ) k c =>
          g (k, c)) hA
      rw [← binc_law (tn := tn) (n0 := n0) ν, Measure.map_apply measurable_binc hA']
      refine measure_congr ?_
      filter_upwards [goodY_ae (shape := vshape ++ [paths]) ν hν] with Y hY
      apply propext
      exact ⟨fun h => h.2, fun h => ⟨hY, h⟩⟩
    · refine ⟨∅, MeasurableSet.empty, ?_, fun p hp => absurd hp (by simp)⟩
      have hp : ∀ m : ℝ, IsProbabilityMeasure ((poissonMeasure m.toNNReal).map ((↑) : ℕ → ℤ)) :=
        fun m => Measure.isProbabilityMeasure_map (by fun_prop)
      push Not at hD
      obtain ⟨kc, hkc⟩ := hD
      rw [measure_empty, Measure.pi_singleton, Finset.prod_eq_zero (Finset.mem_univ kc), zero_mul]
      rw [Measure.map_apply .of_discrete (measurableSet_singleton _)]
      have : (fun n : ℕ => (n : ℤ)) ⁻¹' {D kc} = ∅ := by ext n; simp; omega
      exact (congrArg _ this).trans measure_empty
  choose S hS1 hS2 hS3 using hS
  have hdisj : Pairwise (Function.onFun Disjoint S) := by
    intro D D' hDD
    rw [Function.onFun, Set.disjoint_left]
    intro p hp hp'
    obtain ⟨hD, hg⟩ := hS3 D p hp
    obtain ⟨hD', hg'⟩ := hS3 D' p hp'
    obtain ⟨Y1, m1, n1, s1, e1, -, -, k1, -, -, a1⟩ := hg.2 _ (hJM D p.1 p.2)
    obtain ⟨Y2, m2, n2, s2, e2, -, -, k2, -, -, a2⟩ := hg'.2 _ (hJM D' p.1 p.2)
    rw [e1] at e2
    simp only [Except.ok.injEq, Prod.mk.injEq] at e2
    obtain ⟨-, rfl⟩ := e2
    rw [k1] at k2
    simp only [Except.ok.injEq, Prod.mk.injEq, pathMem, Mem.mk.injEq] at k2
    obtain ⟨-, rfl, hmap, -⟩ := k2
    refine hDD (pathD_inj (tn := tn) (n0 := n0) hL.1 hD hD' fun u hu => ?_)
    refine known_eq pathD_mono pathD_mono (List.map_inj_left.1 hmap) (a1 u ?_)
    have := (hL.2 u).1 hu
    simpa using this
  refine ⟨⋃ D, S D, MeasurableSet.iUnion hS1, ?_, fun p hp => ?_⟩
  · rw [measure_iUnion hdisj hS1, idealLaw_bind ν hA]
    exact tsum_congr hS2
  · obtain ⟨D, hpD⟩ := Set.mem_iUnion.1 hp
    obtain ⟨-, hg⟩ := hS3 D p hpD
    obtain ⟨Y, m', -, -, e1, hY, -⟩ := hg.2 _ (hJM D p.1 p.2)
    refine ⟨_, hY.2, m', ?_⟩
    rw [e1]
    congr 2
    exact List.map_congr_left fun u _ => jv_path Y u

/-- The value at a time, in a list of values at given times. -/
noncomputable def valueAt {B : Type} [Zero B] (t0 : ℝ) (ss : List ℝ) (u : ℝ) (e : Fin ss.length → B) : B := by
  classical exact if u = t0 then 0 else if h : ss.idxOf u < ss.length then e ⟨ss.idxOf u, h⟩ else 0

theorem valueAt_map {B : Type} [Zero B] {t0 : ℝ} {ss : List ℝ} {X : ℝ → B} (h0 : X t0 = 0) {u : ℝ}
    (hu : u = t0 ∨ u ∈ ss) : valueAt t0 ss u (fun i => X ss[i]) = X u := by
  classical
  unfold valueAt
  split_ifs with h h'
  · rw [h, h0]
  · simp only [Fin.getElem_fin]
    rw [List.getElem_idxOf]
  · exact absurd (List.idxOf_lt_length_iff.2 (hu.resolve_left h)) h'

/-- **C78** (law). Evaluate a compound Poisson source with memory, of constant intensity, at any
sequence of times, in any order, before or after `t0`, with repetitions: with probability one no
exception is raised, and the values returned are those of a process through `z0` at `t0`, with
independent increments over intervals that do not overlap, each increment being, in each cell
independently, the sum of a Poisson number of jumps. This holds whatever the state of the underlying
Poisson source, which was started at any time `tn` and any value `n0`, for jumps that do not cancel out,
and for times that are not taken for the same. -/
theorem C78_law (hG : PoissonGenerator μ lam dn0 bin) (hl : 0 ≤ lam) (hrN : 0 ≤ rN)
    (hr : 0 ≤ rtol) (hv : ∀ t, ∃ rvs, y t = .ok rvs ∧ VariatesLaw μ ν rvs) (hν : NoCancel ν)
    (c0 : Pos (vshape ++ [paths])) (t0 tn : ℝ) (z0 : Pos (vshape ++ [paths]) → ℝ)
    (n0 : Pos (vshape ++ [paths]) → ℤ) (ss : List ℝ) (hapN : ApartTimes rN (tn :: t0 :: ss))
    (hap : ApartTimes rtol (t0 :: ss)) :
    ∃ X : ℝ → σ → Pos (vshape ++ [paths]) → ℝ,
      IsLevyProcess μ (fun h => Measure.pi fun _ : Pos (vshape ++ [paths]) => compoundPoisson (lam * h) ν)
        t0 {u | u ∈ t0 :: ss} X ∧
      ∀ᵐ st ∂μ, ∃ m', (trueCPoisson rtol paths vshape (truePoisson rN dn0 bin) y).call ss none
        (Mem.new t0 (z0, none) (Mem.new tn n0 st)) = .ok (ss.map fun u => z0 + X u st, m') := by
  obtain ⟨L, hL⟩ := exists_sorts (tn :: t0 :: ss)
  have hLne : L ≠ [] := fun h => by
    have := (hL.2 tn).2 (by simp)
    rw [h] at this
    simp at this
  let J := trueCPoisson rtol paths vshape (truePoisson rN dn0 bin) y
  let F : (Fin (L.length - 1) → Pos (vshape ++ [paths]) → ℝ) → Fin ss.length →
      Pos (vshape ++ [paths]) → ℝ := fun inc i => idealX L t0 ss[i] inc
  have hF : Measurable F := measurable_pi_lambda _ fun i => measurable_idealX _ _
  let V : σ → Fin ss.length → Pos (vshape ++ [paths]) → ℝ := fun st i =>
    match J.getList ss (Mem.new t0 (z0, none) (Mem.new tn n0 st)) with
    | .ok (vs, _) => vs.getD i 0 - z0
    | .error _ => 0
  have hVval : ∀ {st inc m'}, J.getList ss (Mem.new t0 (z0, none) (Mem.new tn n0 st)) =
      .ok (ss.map fun u => z0 + idealX L t0 u inc, m') → V st = F inc := by
    intro st inc m' h
    funext i
    simp only [V, h, F]
    have hi : (i : ℕ) < (ss.map fun u => z0 + idealX L t0 u inc).length := by simp
    rw [List.getD_eq_getElem?_getD, List.getElem?_eq_getElem hi]
    simp
  have : IsProbabilityMeasure ((idealLaw (Pos (vshape ++ [paths])) lam ν L).map F) :=
    Measure.isProbabilityMeasure_map hF.aemeasurable
  obtain ⟨hae, hV, hmap⟩ := law_of_cover (μ := μ)
    (π := Measure.infinitePi fun _ : Pos (vshape ++ [paths]) × ℤ => ν)
    (κ := (idealLaw (Pos (vshape ++ [paths])) lam ν L).map F) (V := V)
    (G := fun st => ∃ inc m', J.getList ss (Mem.new t0 (z0, none) (Mem.new tn n0 st)) =
      .ok (ss.map fun u => z0 + idealX L t0 u inc, m')) (by
    intro A hA
    obtain ⟨W, hW1, hW2, hW3⟩ := cpoisson_cover hG hl hrN hr hv hν c0 t0 tn z0 n0 ss hapN hap hL (hF hA)
    refine ⟨W, hW1, by rw [hW2, Measure.map_apply hF hA], fun p hp => ?_⟩
    obtain ⟨inc, hinc, m', e⟩ := hW3 p hp
    refine ⟨⟨inc, m', e⟩, ?_⟩
    rw [hVval e]
    exact hinc)
  have h0 : ∀ inc, idealX (ι := Pos (vshape ++ [paths])) L t0 t0 inc = 0 := fun inc => by simp [idealX]
  refine ⟨fun u st => valueAt t0 ss u (V st), ?_, ?_⟩
  · refine levy_transfer (D := {u | u ∈ t0 :: ss}) hV hF hmap (fun u _ => ?_) (fun e => ?_) ?_
    · classical
      unfold valueAt
      split_ifs
      · exact measurable_const
      · exact measurable_pi_apply _
      · exact measurable_const
    · unfold valueAt
      rw [if_pos rfl]
    · have hid := (idealX_levy (ι := Pos (vshape ++ [paths])) hl ν hL.1 hLne t0).subset
        (D' := {u | u ∈ t0 :: ss}) fun u hu => (hL.2 u).2 (List.mem_cons_of_mem _ hu)
      refine ⟨fun w => by unfold valueAt; rw [if_pos rfl], fun a ha b hb hab => ?_, fun n t ht hD => ?_⟩
      · have := hid.law a ha b hb hab
        convert this using 2 with w
        rw [valueAt_map (X := fun u => idealX L t0 u w) (h0 w) (List.mem_cons.1 ha),
          valueAt_map (X := fun u => idealX L t0 u w) (h0 w) (List.mem_cons.1 hb)]
      · have := hid.indep n t ht hD
        convert this using 2 with k
        funext w
        rw [valueAt_map (X := fun u => idealX L t0 u w) (h0 w) (List.mem_cons.1 (hD _)),
          valueAt_map (X := fun u => idealX L t0 u w) (h0 w) (List.mem_cons.1 (hD _))]
  · filter_upwards [hae] with st hst
    obtain ⟨inc, m', e⟩ := hst
    refine ⟨m', ?_⟩
    rw [hVval e]
    refine e.trans ?_
    congr 2
    refine List.map_congr_left fun u hu => ?_
    rw [valueAt_map (X := fun u => idealX L t0 u inc) (h0 inc) (.inr hu)]

end law

/-! ### Jumps that do not cancel out -/

theorem sumLaw_conv (ν : Measure ℝ) [IsProbabilityMeasure ν] (m : ℕ) :
    sumLaw ν (m + 1) = (sumLaw ν m).conv ν := by
  have hf : iIndepFun (fun (k : ℕ) (Y : ℕ → ℝ) => Y k) (Measure.infinitePi fun _ : ℕ => ν) :=
    iIndepFun_infinitePi (X := fun _ w => w) (by fun_prop)
  have hi := hf.indepFun_finsetSum_of_notMem (fun k => by fun_prop) (s := Finset.range m) (i := m)
    (by simp)
  have e1 : (∑ j ∈ Finset.range m, fun Y : ℕ → ℝ => Y j) = fun Y => ∑ j ∈ Finset.range m, Y j := by
    funext Y; simp
  rw [e1] at hi
  rw [sumLaw_eq, sumLaw_eq]
  have e2 : (fun x : ℕ → ℝ => ∑ i ∈ Finset.range (m + 1), x i) =
      (fun x => ∑ i ∈ Finset.range m, x i) + fun x => x m := by
    funext x
    simp [Finset.sum_range_succ]
  rw [e2, hi.map_add_eq_map_conv_map₀ (Measurable.aemeasurable (by fun_prop))
    (measurable_pi_apply m).aemeasurable]
  congr 1
  exact Measure.infinitePi_map_eval (fun _ : ℕ => ν) m

/-- **C78** (jumps with a density). Jumps of a law without atoms do not cancel out. -/
theorem C78_noAtoms (ν : Measure ℝ) [IsProbabilityMeasure ν] [NullSingletonClass ν] : NoCancel ν := by
  intro m hm
  obtain ⟨m, rfl⟩ : ∃ k, m = k + 1 := ⟨m - 1, by omega⟩
  have h : sumLaw ν (m + 1) {0} = 0 := by
    rw [sumLaw_conv, Measure.conv, Measure.map_apply (by fun_prop) (measurableSet_singleton 0),
      Measure.prod_apply ((by fun_prop : Measurable fun p : ℝ × ℝ => p.1 + p.2)
        (measurableSet_singleton 0)), lintegral_eq_zero_of_ae_eq_zero]
    refine Filter.Eventually.of_forall fun x => ?_
    have : Prod.mk x ⁻¹' ((fun p : ℝ × ℝ => p.1 + p.2) ⁻¹' {0}) = {-x} := by
      ext z
      simp only [Set.mem_preimage, Set.mem_singleton_iff]
      constructor
      · intro h; linarith
      · intro h; linarith
    show ν _ = 0
    rw [this]
    exact measure_singleton _
  rw [sumLaw_eq, Measure.map_apply (by fun_prop) (measurableSet_singleton 0)] at h
  exact h

/-- **C78** (positive jumps). Jumps that are all positive do not cancel out. -/
theorem C78_positive (ν : Measure ℝ) [IsProbabilityMeasure ν] (h : ∀ᵐ x ∂ν, 0 < x) : NoCancel ν := by
  intro m hm
  have hae : ∀ᵐ Y ∂(Measure.infinitePi fun _ : ℕ => ν), ∀ k, 0 < Y k := by
    rw [ae_all_iff]
    intro k
    have e := Measure.infinitePi_map_eval (fun _ : ℕ => ν) k
    exact ae_of_ae_map (measurable_pi_apply k).aemeasurable (by rw [e]; exact h)
  have : ∀ᵐ Y ∂(Measure.infinitePi fun _ : ℕ => ν), ¬ ∑ i ∈ Finset.range m, Y i = 0 := by
    filter_upwards [hae] with Y hY
    exact (Finset.sum_pos (fun i _ => hY i) (Finset.nonempty_range_iff.2 hm.ne')).ne'
  rw [ae_iff] at this
  simpa using this

/-- **C78** (normal jumps). Normal jumps of positive standard deviation do not cancel out. -/
theorem C78_normal (a : ℝ) {b : ℝ} (hb : b ≠ 0) : NoCancel (gaussianReal a (b ^ 2).toNNReal) := by
  haveI := nullSingletonClass_gaussianReal (μ := a) (v := (b ^ 2).toNNReal) (by
    rw [ne_eq, Real.toNNReal_eq_zero, not_le]; positivity)
  exact C78_noAtoms _

/-- **C78** (double exponential jumps). Double exponential jumps do not cancel out. -/
theorem C78_double_exp {a b pa : ℝ} [IsProbabilityMeasure (twoSided a b pa)] : NoCancel (twoSided a b pa) := by
  have hna : ∀ r x, expMeasure r {x} = 0 := fun r x => by
    unfold expMeasure gammaMeasure
    exact withDensity_absolutelyContinuous _ _ (measure_singleton x)
  haveI : NullSingletonClass (twoSided a b pa) := ⟨fun x => by
    simp only [twoSided, Measure.add_apply, Measure.smul_apply, smul_eq_mul, hna, mul_zero, zero_add]
    rw [Measure.map_apply (by fun_prop) (measurableSet_singleton x)]
    have : (fun x : ℝ => -x) ⁻¹' {x} = {-x} := by ext z; simp [neg_eq_iff_eq_neg]
    rw [this, hna, mul_zero]⟩
  exact C78_noAtoms _

/-! ### Jumps that cancel out -/

section cancel
variable {σ Zn : Type} {paths : ℕ} {vshape : List ℕ} {rtol : ℝ}
  {N : TrueSrc ℝ Zn (Pos (vshape ++ [paths]) → ℤ) σ} {y : ℝ → Py (Rvs ℝ σ)}

/-- **C78** (no jump seen). Evaluate a new compound Poisson source at a time `b` and then at a time `s`
between `t0` and `b`: if its value at `b` is the one it has at `t0`, so is its value at `s`, even if it
went through an even number of jumps, that cancel each other. -/
theorem C78_stuck {t0 s b : ℝ} (hs : t0 < s) (hb : s < b) (hcb : ¬ |b - t0| ≤ rtol * |t0|)
    (hcs : ¬ |s - t0| ≤ rtol * |t0|) {z0 vs : Pos (vshape ++ [paths]) → ℝ} {n : Mem ℝ Zn σ} {m'}
    (h : (trueCPoisson rtol paths vshape N y).call [b, s] none (Mem.new t0 (z0, none) n) =
      .ok ([z0, vs], m')) : vs = z0 := by
  have hm : Mem.new t0 ((z0, none) : JumpZ ℝ (vshape ++ [paths])) n = pairMem ([] ++ [(t0, (z0, none))]) n := rfl
  have h1 : (trueCPoisson rtol paths vshape N y).getList [b, s]
      (pairMem ([] ++ [(t0, (z0, none))]) n) = .ok ([z0, vs], m') := h
  simp only [TrueSrc.getList] at h1
  cases ho : (trueCPoisson rtol paths vshape N y).outside (z0, none) t0 b n with
  | error e =>
    have hk : bisectRight [t0] b = 1 := by
      have := bisect_split (l1 := [t0]) (l2 := []) (s := b) (by simp) (by simp; linarith) (by simp)
      simpa using this
    have hc' : ¬ isClose (trueCPoisson rtol paths vshape N y).rtol b t0 := hcb
    have hg : (trueCPoisson rtol paths vshape N y).get1 b (pairMem ([] ++ [(t0, (z0, none))]) n) =
        .error e := by
      simp only [TrueSrc.get1, pairMem, List.nil_append, List.map_cons, List.map_nil, hk]
      simp [hc', ho]
    rw [hg] at h1
    simp at h1
  | ok r =>
    obtain ⟨⟨z', znew⟩, st'⟩ := r
    rw [pair_after (S := trueCPoisson rtol paths vshape N y) (A := []) n (by simp) (hs.trans hb)
      hcb ho] at h1
    have hz' : z'.1 = z0 := by
      simp only [trueCPoisson, jumpOutside] at ho
      split at ho
      · cases ho
      · split at ho
        · simp only [Except.ok.injEq, Prod.mk.injEq] at ho
          rw [← ho.1.1]
        · simp only [Except.ok.injEq, Prod.mk.injEq] at ho
          rw [← ho.1.1]
    have hb' := pair_between_aux (S := trueCPoisson rtol paths vshape N y) (A := []) (B := [])
      (a := t0) (b := b) (s := s) (z1 := z') (z2 := znew) st' (by simp; linarith) hs hb hcs
    simp only [List.nil_append] at h1 hb'
    by_cases hz : znew.1 = z0
    · have hi : (trueCPoisson rtol paths vshape N y).inside z' znew t0 b s st' =
          .ok ((z', none), st') := by
        simp only [trueCPoisson, jumpInside]
        rw [if_pos (fun c => by rw [hz', hz])]
      rw [hi] at hb'
      simp only at hb'
      simp only [hb', Except.ok.injEq, Prod.mk.injEq, List.cons.injEq, and_true] at h1
      rw [← h1.1.2]
      exact hz
    · exfalso
      split at h1
      · cases h1
      · rename_i hgl
        split at hgl
        · cases hgl
        · simp only [Except.ok.injEq, Prod.mk.injEq] at hgl h1
          rw [← hgl.1] at h1
          simp only [List.cons.injEq] at h1
          exact hz h1.1.1

theorem compoundPoisson_pos {m x : ℝ} {ν : Measure ℝ} [IsProbabilityMeasure ν] (hm : 0 < m) (hx : ν {x} ≠ 0) :
    compoundPoisson m ν {x} ≠ 0 := by
  rw [compoundPoisson_apply _ _ (measurableSet_singleton x), lintegral_countable']
  intro h
  have h1 := (ENNReal.tsum_eq_zero.1 h) 1
  rcases mul_eq_zero.1 h1 with h1 | h1
  · rw [sumLaw_eq, Measure.map_apply (by fun_prop) (measurableSet_singleton x)] at h1
    apply hx
    rw [← Measure.infinitePi_map_eval (fun _ : ℕ => ν) 0,
      Measure.map_apply (by fun_prop) (measurableSet_singleton x), ← h1]
    congr 1
    ext w
    simp
  · rw [poissonMeasure_singleton] at h1
    simp only [pow_one, Nat.factorial_one, Nat.cast_one, div_one, ENNReal.ofReal_eq_zero,
      Real.coe_toNNReal', max_eq_left hm.le] at h1
    exact absurd h1 (not_le.2 (by positivity))

/-- **C78** (violated). If the jumps may take two opposite values, the values at `[2, 1]` are not those
of a process with independent increments distributed as sums of a Poisson number of jumps, whatever the
generator. -/
theorem C78_false [MeasurableSpace σ] {μ : Measure σ} [IsProbabilityMeasure μ] {ν : Measure ℝ}
    [IsProbabilityMeasure ν] {lam x : ℝ} (hl : 0 < lam) (hx : x ≠ 0) (h1 : ν {x} ≠ 0) (h2 : ν {-x} ≠ 0)
    (c0 : Pos (vshape ++ [paths])) (z0 : Pos (vshape ++ [paths]) → ℝ) (n : σ → Mem ℝ Zn σ) :
    ¬ ∃ X : ℝ → σ → Pos (vshape ++ [paths]) → ℝ,
      IsLevyProcess μ (fun h => Measure.pi fun _ : Pos (vshape ++ [paths]) => compoundPoisson (lam * h) ν)
        0 {u | u ∈ [0, 2, 1]} X ∧
      ∀ᵐ st ∂μ, ∃ m', (trueCPoisson rtol paths vshape N y).call [2, 1] none
        (Mem.new 0 (z0, none) (n st)) = .ok ([2, 1].map fun u => z0 + X u st, m') := by
  rintro ⟨X, hX, hae⟩
  have hp : ∀ m, IsProbabilityMeasure (compoundPoisson m ν) := fun m => by
    unfold compoundPoisson
    exact Measure.isProbabilityMeasure_map measurable_sumTo.aemeasurable
  have hi := hX.indep 2 ![0, 1, 2] (by
    refine Fin.strictMono_iff_lt_succ.2 fun k => ?_
    fin_cases k <;> simp) (fun k => by fin_cases k <;> simp)
  have hind := hi.indepFun (i := 0) (j := 1) (by decide)
  have e := hind.measure_inter_preimage_eq_mul {fun _ => x} {fun _ => -x} (measurableSet_singleton _)
    (measurableSet_singleton _)
  have l1 := hX.law 0 (by simp) 1 (by simp) (by norm_num)
  have l2 := hX.law 1 (by simp) 2 (by simp) (by norm_num)
  have p1 : μ ((fun s => X 1 s - X 0 s) ⁻¹' {fun _ => x}) ≠ 0 := by
    rw [← Measure.map_apply_of_aemeasurable l1.aemeasurable (measurableSet_singleton _), l1.map_eq,
      Measure.pi_singleton]
    exact Finset.prod_ne_zero_iff.2 fun c _ => compoundPoisson_pos (by linarith) h1
  have p2 : μ ((fun s => X 2 s - X 1 s) ⁻¹' {fun _ => -x}) ≠ 0 := by
    rw [← Measure.map_apply_of_aemeasurable l2.aemeasurable (measurableSet_singleton _), l2.map_eq,
      Measure.pi_singleton]
    exact Finset.prod_ne_zero_iff.2 fun c _ => compoundPoisson_pos (by linarith) h2
  have hne : μ ((fun s => X 1 s - X 0 s) ⁻¹' {fun _ => x} ∩ (fun s => X 2 s - X 1 s) ⁻¹' {fun _ => -x}) ≠ 0 := by
    refine ne_of_eq_of_ne ?_ (mul_ne_zero p1 p2)
    exact e
  apply hne
  rw [← compl_compl (_ ∩ _)]
  refine mem_ae_iff.1 ?_
  filter_upwards [hae] with st hst
  rintro ⟨q1, q2⟩
  obtain ⟨m', hm⟩ := hst
  have q1' : X 1 st = fun _ => x := by
    have : X 1 st - X 0 st = fun _ => x := q1
    rwa [hX.start, sub_zero] at this
  have q2' : X 2 st = 0 := by
    have h : X 2 st - X 1 st = fun _ => -x := q2
    funext c
    have := congrFun h c
    simp only [Pi.sub_apply, q1'] at this
    simp only [Pi.zero_apply]
    linarith
  simp only [List.map_cons, List.map_nil, q1', q2', add_zero] at hm
  have := C78_stuck (by norm_num) (by norm_num) (by simp) (by simp) hm
  have := congrFun this c0
  simp only [Pi.add_apply, add_eq_left] at this
  exact hx this

end cancel

/-! ### Examples -/

section examples
variable {Ω σ : Type} [MeasurableSpace Ω] [MeasurableSpace σ] {π : Measure Ω} {μ : Measure σ}
  [IsProbabilityMeasure π] [IsProbabilityMeasure μ]

/-- Draws from the second of two generators. -/
def onSnd {A : Type} (f : σ → Py (A × σ)) (q : Ω × σ) : Py (A × (Ω × σ)) :=
  (f q.2).map fun r => (r.1, (q.1, r.2))

/-- Draws from the first of two generators. -/
def onFst {A : Type} (f : Ω → Py (A × Ω)) (q : Ω × σ) : Py (A × (Ω × σ)) :=
  (f q.1).map fun r => (r.1, (r.2, q.2))

theorem onSnd_generator {ι : Type} [Fintype ι] {lam : ℝ} {dn : ℝ → ℝ → σ → Py ((ι → ℤ) × σ)}
    {bin : (ι → ℤ) → ℝ → σ → (ι → ℤ) × σ} (h : PoissonGenerator μ lam dn bin) :
    PoissonGenerator (π.prod μ) lam (fun t dt => onSnd (dn t dt))
      (fun n p q => ((bin n p q.2).1, (q.1, (bin n p q.2).2))) := by
  constructor
  · intro t dt hdt d B hB
    have := pre_prod (π := π) (R := fun s s' => dn t dt s = .ok (d, s'))
      (fun s a b ha hb => by rw [ha] at hb; simpa using hb) (h.poisson t dt hdt d) hB
    convert this using 3 <;>
    · ext q
      simp only [onSnd, Set.mem_setOf_eq]
      cases dn t dt q.2 with
      | error e => simp [Except.map]
      | ok r =>
        simp only [Except.map, Except.ok.injEq, Prod.mk.injEq]
        constructor
        · rintro ⟨s', hs', h1, rfl⟩
          exact ⟨_, hs', Prod.ext h1 rfl⟩
        · rintro ⟨s', hs', rfl⟩
          exact ⟨_, hs', rfl, rfl⟩
  · intro n p hn h0 h1 d B hB
    have := pre_prod (π := π) (R := fun s s' => (bin n p s).1 = d ∧ (bin n p s).2 = s')
      (fun s a b ha hb => ha.2.symm.trans hb.2) (fun B hB => by
        have := h.binomial n p hn h0 h1 d B hB
        convert this using 3 <;>
        · ext s
          constructor
          · rintro ⟨s', h1, h2, rfl⟩; exact ⟨h2, h1⟩
          · rintro ⟨h2, h1⟩; exact ⟨_, h1, h2, rfl⟩) hB
    convert this using 3 <;>
    · ext q
      simp only [Set.mem_setOf_eq]
      constructor
      · rintro ⟨h1, h2⟩; exact ⟨_, h2, h1, rfl⟩
      · rintro ⟨s', h1, h2, rfl⟩; exact ⟨h2, h1⟩

theorem onFst_draws {A : Type} [MeasurableSpace A] {ν : Measure A} [IsProbabilityMeasure ν]
    {f : Ω → Py (A × Ω)} (h : DrawsLaw π ν f) : DrawsLaw (π.prod μ) ν (onFst f) := by
  obtain ⟨g, hg, h1, h2⟩ := h
  refine ⟨fun q => ((g q.1).1, ((g q.1).2, q.2)), by fun_prop, fun q => by simp [onFst, h1, Except.map], ?_⟩
  have e : (fun q : Ω × σ => ((g q.1).1, ((g q.1).2, q.2))) =
      (MeasurableEquiv.prodAssoc : (A × Ω) × σ ≃ᵐ A × Ω × σ) ∘ Prod.map g id := rfl
  rw [e, ← Measure.map_map (MeasurableEquiv.measurable _) (by fun_prop),
    ← Measure.map_prod_map _ _ hg measurable_id, h2, Measure.map_id]
  exact (measurePreserving_prodAssoc ν π μ).map_eq

theorem onFst_variates {ν : Measure ℝ} [IsProbabilityMeasure ν] {rvs : Rvs ℝ Ω} (h : VariatesLaw π ν rvs) :
    VariatesLaw (π.prod μ) ν fun n j => onFst (rvs n j) := by
  intro n j
  have := onFst_draws (μ := μ) (h n j)
  convert this using 1
  funext q
  simp only [onFst]
  cases rvs n j q.1 <;> rfl

theorem sample_variates {ν : Measure ℝ} {sample : ℕ → ℕ → Ω → (ℕ → ℕ → ℝ) × Ω}
    (h : SampleDraws π ν sample) : VariatesLaw π ν fun n j s => .ok (sample n j s) := h

/-- Two paths of a source with normal jumps, on two generators, one for the number of jumps and one for
their size, evaluated at several times, before and after the starting ones. -/
example := C78_law (paths := 2) (vshape := []) (rN := 0) (rtol := 1 / 100)
  (onSnd_generator (π := Measure.infinitePi fun _ : ℕ => itemLaw (gaussianReal 1 (2 ^ 2 : ℝ).toNNReal))
    (seed_generator (ι := Pos ([] ++ [2])) (lam := 3) (by norm_num)))
  (y := fun _ => .ok fun n j => onFst fun s => .ok (itemSample ℝ n j s))
  (by norm_num) le_rfl (by norm_num)
  (fun t => ⟨_, rfl, onFst_variates (sample_variates (itemSample_draws (gaussianReal 1 (2 ^ 2 : ℝ).toNNReal)))⟩)
  (C78_normal 1 (b := 2) (by norm_num))
  ⟨[1], by decide⟩ 0 (1 / 2) (fun c => c.1.headD 0) (fun _ => 5) [2, 1, -1, 1]
  (by intro a ha b hb hab h; rw [zero_mul] at h; exact hab (sub_eq_zero.1 (abs_nonpos_iff.1 h)))
  (by
    intro a ha b hb hab h
    simp only [List.mem_cons, List.not_mem_nil, or_false] at ha hb
    rcases ha with rfl | rfl | rfl | rfl | rfl <;> rcases hb with rfl | rfl | rfl | rfl | rfl <;>
      first | exact hab rfl | (norm_num [abs_le] at h))

/-- Jumps of fixed size. -/
example : NoCancel (Measure.dirac (3 : ℝ)) := C78_positive _ (by rw [ae_dirac_eq]; simp)

/-- Jumps `1, -1` from time `0` to time `2`: the value at time `1` is null, although with jumps `3, -1` it
is the size of the first one. -/
example : ((exJump 1 (-1)).getList [2, 1] exJump0).toOption.map (fun r => showJump r.2) =
      some [(0, 0, [[[1, -1]]]), (2, 0, [])] ∧
    ((exJump 1 (-1)).getList [2, 1] exJump0).toOption.map (fun r => r.1.map fun v => v ⟨[0], by decide⟩) =
      some [0, 0] ∧
    ((exJump 3 (-1)).getList [2, 1] exJump0).toOption.map (fun r => r.1.map fun v => v ⟨[0], by decide⟩) =
      some [2, 3] := by
  decide +kernel

example {Zn : Type} {N : TrueSrc ℝ Zn (Pos ([] ++ [2]) → ℤ) σ} {y : ℝ → Py (Rvs ℝ σ)}
    {vs : Pos ([] ++ [2]) → ℝ} {n : Mem ℝ Zn σ} {m'}
    (h : (trueCPoisson (1 / 100) 2 [] N y).call [3, 2] none (Mem.new 1 (fun _ => 7, none) n) =
      .ok ([fun _ => 7, vs], m')) : vs = fun _ => 7 :=
  C78_stuck (by norm_num) (by norm_num) (by norm_num [abs_le]) (by norm_num [abs_le]) h

/-- Jumps of size one, up or down. -/
noncomputable def coin : Measure ℝ := (ENNReal.ofReal (1 / 2)) • Measure.dirac 1 +
  (ENNReal.ofReal (1 / 2)) • Measure.dirac (-1)

instance : IsProbabilityMeasure coin := by
  constructor
  simp only [coin, Measure.add_apply, Measure.smul_apply, measure_univ, smul_eq_mul, mul_one]
  rw [← ENNReal.ofReal_add (by norm_num) (by norm_num)]
  norm_num

theorem coin_up : coin {1} ≠ 0 ∧ coin {-1} ≠ 0 := by
  constructor <;> simp [coin]

/-- A source that meets all other requirements of `C78_law`, with jumps that cancel out. -/
example : (PoissonGenerator ((Measure.infinitePi fun _ : ℕ => itemLaw coin).prod
      (seedLaw (Pos ([] ++ [2])) 3)) 3 (fun t dt => onSnd (seedDn t dt))
      (fun n p q => ((seedBin n p q.2).1, (q.1, (seedBin n p q.2).2))) ∧
    VariatesLaw ((Measure.infinitePi fun _ : ℕ => itemLaw coin).prod (seedLaw (Pos ([] ++ [2])) 3)) coin
      (fun n j => onFst fun s => .ok (itemSample ℝ n j s))) ∧
    ¬ ∃ X : ℝ → (ℕ → Item ℝ) × (ℕ → PDraw (Pos ([] ++ [2])) → Pos ([] ++ [2]) → ℤ) → Pos ([] ++ [2]) → ℝ,
      IsLevyProcess ((Measure.infinitePi fun _ : ℕ => itemLaw coin).prod (seedLaw (Pos ([] ++ [2])) 3))
        (fun h => Measure.pi fun _ : Pos ([] ++ [2]) => compoundPoisson (3 * h) coin) 0
        {u | u ∈ [0, 2, 1]} X ∧
      ∀ᵐ st ∂((Measure.infinitePi fun _ : ℕ => itemLaw coin).prod (seedLaw (Pos ([] ++ [2])) 3)),
        ∃ m', (trueCPoisson 0 2 [] (truePoisson 0 (fun t dt => onSnd (seedDn t dt))
            (fun n p q => ((seedBin n p q.2).1, (q.1, (seedBin n p q.2).2))))
            (fun _ => .ok fun n j => onFst fun s => .ok (itemSample ℝ n j s))).call [2, 1] none
          (Mem.new 0 (0, none) (Mem.new 0 0 st)) = .ok ([2, 1].map fun u => 0 + X u st, m') :=
  ⟨⟨onSnd_generator (seed_generator (by norm_num)),
    onFst_variates (sample_variates (itemSample_draws coin))⟩,
    C78_false (by norm_num) one_ne_zero coin_up.1 coin_up.2 ⟨[1], by decide⟩ 0 _⟩

end examples

end Sdepy
