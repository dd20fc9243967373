import Verif.Lemmas.Draws

/-!
# Processes with independent increments, along a grid of times
-/

set_option linter.unusedSectionVars false

open MeasureTheory ProbabilityTheory

namespace Sdepy

open Spec

variable {σ E : Type} [MeasurableSpace σ] [MeasurableSpace E] {μ : Measure σ} [IsProbabilityMeasure μ]

/-! ### Sums over disjoint sets of indices -/

/-- Sums of independent variates over sets that do not overlap are independent. -/
theorem iIndepFun_sums [AddCommGroup E] [MeasurableAdd₂ E] {ι κ : Type} [DecidableEq ι] [DecidableEq κ]
    {f : ι → σ → E} (hf : iIndepFun f μ) (hm : ∀ i, Measurable (f i)) {S : κ → Finset ι}
    (hS : Pairwise fun a b => Disjoint (S a) (S b)) :
    iIndepFun (fun k s => ∑ i ∈ S k, f i s) μ := by
  rw [iIndepFun_iff_measure_inter_preimage_eq_mul]
  intro T B hB
  induction T using Finset.induction_on with
  | empty => simp
  | insert k T hk ih =>
    rw [Finset.set_biInter_insert, Finset.prod_insert hk]
    set U := T.biUnion S with hU
    have hd : Disjoint (S k) U := by
      rw [hU, Finset.disjoint_biUnion_right]
      intro j hj
      exact hS (by rintro rfl; exact hk hj)
    have hind := hf.indepFun_finset (S k) U hd hm
    let ext (V : Finset ι) (x : V → E) (i : ι) : E := if h : i ∈ V then x ⟨i, h⟩ else 0
    have hext : ∀ (V : Finset ι) i, Measurable fun x : V → E => ext V x i := by
      intro V i
      simp only [ext]
      split_ifs with h
      · exact measurable_pi_apply _
      · exact measurable_const
    have hsum : ∀ (V : Finset ι) j, Measurable fun x : V → E => ∑ i ∈ S j, ext V x i := fun V j =>
      Finset.measurable_sum _ fun i _ => hext V i
    have h1 : (fun s => ∑ i ∈ S k, f i s) ⁻¹' B k =
        (fun s (i : S k) => f i s) ⁻¹' {x | ∑ i ∈ S k, ext (S k) x i ∈ B k} := by
      ext s
      simp only [Set.mem_preimage, Set.mem_setOf_eq]
      rw [Finset.sum_congr rfl (g := fun i => ext (S k) (fun (i : S k) => f i s) i)]
      intro i hi
      simp [ext, hi]
    have h2 : (⋂ j ∈ T, (fun s => ∑ i ∈ S j, f i s) ⁻¹' B j) =
        (fun s (i : U) => f i s) ⁻¹' ⋂ j ∈ T, {x | ∑ i ∈ S j, ext U x i ∈ B j} := by
      ext s
      simp only [Set.mem_preimage, Set.mem_iInter, Set.mem_setOf_eq]
      refine forall₂_congr fun j hj => ?_
      rw [Finset.sum_congr rfl (g := fun i => ext U (fun (i : U) => f i s) i)]
      intro i hi
      have : i ∈ U := Finset.mem_biUnion.2 ⟨j, hj, hi⟩
      simp [ext, this]
    have hB' : ∀ j ∈ T, MeasurableSet (B j) := fun j hj => hB j (Finset.mem_insert_of_mem hj)
    have h3 := hind.measure_inter_preimage_eq_mul {x | ∑ i ∈ S k, ext (S k) x i ∈ B k}
      (⋂ j ∈ T, {x | ∑ i ∈ S j, ext U x i ∈ B j}) (hsum _ k (hB k (Finset.mem_insert_self _ _)))
      (Finset.measurableSet_biInter _ fun j hj => hsum U j (hB' j hj))
    rw [h1, h2, h3, ← h2, ih hB']

/-! ### From steps to increments -/

/-- Increments of a process, sampled at points `u 0 < u 1 < ... < u N`: independent steps of given laws
make a process with independent increments. -/
theorem levy_of_steps [AddCommGroup E] [MeasurableAdd₂ E] [MeasurableSub₂ E] {law : ℝ → Measure E}
    (hsemi : ∀ a b, 0 < a → 0 < b → (law a).conv (law b) = law (a + b))
    {N : ℕ} {u : ℕ → ℝ} (hu : ∀ p q, p < q → q ≤ N → u p < u q) {t0 : ℝ} {X : ℝ → σ → E}
    (h0 : ∀ s, X t0 s = 0) (hX : ∀ p ≤ N, Measurable (X (u p)))
    (hi : iIndepFun (fun (p : Fin N) s => X (u (p + 1)) s - X (u p) s) μ)
    (hl : ∀ p < N, HasLaw (fun s => X (u (p + 1)) s - X (u p) s) (law (u (p + 1) - u p)) μ) :
    IsLevyProcess μ law t0 {v | ∃ p ≤ N, v = u p} X := by
  set Δ : Fin N → σ → E := fun p s => X (u (p + 1)) s - X (u p) s with hΔ
  have hΔm : ∀ p, Measurable (Δ p) := fun p =>
    (hX _ (Nat.succ_le_of_lt p.2)).sub (hX _ p.2.le)
  let I (p q : ℕ) : Finset (Fin N) := Finset.univ.filter fun k => p ≤ k ∧ (k : ℕ) < q
  have hsum : ∀ p q s, p ≤ q → q ≤ N → X (u q) s - X (u p) s = ∑ k ∈ I p q, Δ k s := by
    intro p q s hpq hq
    induction q, hpq using Nat.le_induction with
    | base =>
      have : I p p = ∅ := by
        simp only [I, Finset.filter_eq_empty_iff]
        intro k _; omega
      rw [this]; simp
    | succ q hpq ih =>
      have e : I p (q + 1) = insert ⟨q, hq⟩ (I p q) := by
        ext k
        simp only [I, Finset.mem_filter, Finset.mem_univ, true_and, Finset.mem_insert, Fin.ext_iff]
        omega
      rw [e, Finset.sum_insert (by simp [I]), ← ih (by omega)]
      simp only [hΔ]
      abel
  have hstrict : ∀ p q, p ≤ N → q ≤ N → u p < u q → p < q := by
    intro p q hp hq h
    by_contra hc
    rcases (not_lt.1 hc).eq_or_lt with rfl | hlt
    · exact lt_irrefl _ h
    · exact lt_asymm h (hu _ _ hlt hp)
  refine ⟨h0, ?_, ?_⟩
  · rintro _ ⟨p, hp, rfl⟩ _ ⟨q, hq, rfl⟩ hlt
    have hpq : p + 1 ≤ q := hstrict p q hp hq hlt
    clear hlt hp
    induction q, hpq using Nat.le_induction with
    | base => exact hl p (by omega)
    | succ q hpq ih =>
      have e : (fun s => X (u (q + 1)) s - X (u p) s) = (fun s => X (u q) s - X (u p) s) +
          fun s => X (u (q + 1)) s - X (u q) s := by
        funext s; simp
      have h1 := ih (by omega)
      have h2 := hl q (by omega)
      have hmq : Measurable fun s => X (u q) s - X (u p) s :=
        (hX q (by omega)).sub (hX p (by omega))
      have hm1 : Measurable fun s => X (u (q + 1)) s - X (u q) s :=
        (hX (q + 1) hq).sub (hX q (by omega))
      have hind : IndepFun (fun s => X (u q) s - X (u p) s)
          (fun s => X (u (q + 1)) s - X (u q) s) μ := by
        have := hi.indepFun_finsetSum_of_notMem hΔm (s := I p q) (i := ⟨q, hq⟩) (by simp [I])
        have e1 : (∑ j ∈ I p q, fun s => X (u (j + 1)) s - X (u j) s) =
            fun s => X (u q) s - X (u p) s := by
          funext s
          rw [Finset.sum_apply]
          exact (hsum p q s (by omega) (by omega)).symm
        rw [e1] at this
        exact this
      refine ⟨(hmq.add hm1).aemeasurable.congr (by rw [e]), ?_⟩
      rw [e, hind.map_add_eq_map_conv_map₀ hmq.aemeasurable hm1.aemeasurable, h1.map_eq, h2.map_eq,
        hsemi _ _ (sub_pos.2 (hu _ _ (by omega) (by omega))) (sub_pos.2 (hu _ _ (by omega) hq))]
      congr 1; ring
  · intro n t ht hD
    choose p hp hpt using hD
    have hmono : StrictMono p := fun a b hab => hstrict _ _ (hp a) (hp b) (by
      rw [← hpt, ← hpt]; exact ht hab)
    have := iIndepFun_sums hi hΔm (S := fun k : Fin n => I (p k.castSucc) (p k.succ)) (by
      intro a b hab
      rw [Finset.disjoint_left]
      intro k hk hk'
      simp only [I, Finset.mem_filter, Finset.mem_univ, true_and] at hk hk'
      rcases lt_or_gt_of_ne hab with h | h
      · have := hmono.monotone (show a.succ ≤ b.castSucc from by
          rw [Fin.le_def]; simp; exact h)
        omega
      · have := hmono.monotone (show b.succ ≤ a.castSucc from by
          rw [Fin.le_def]; simp; exact h)
        omega)
    refine this.congr fun k => ?_
    refine Filter.Eventually.of_forall fun s => ?_
    simp only
    rw [hpt, hpt, hsum _ _ s (hmono (Fin.castSucc_lt_succ)).le (hp _)]

/-! ### Cumulated draws -/

section
variable [AddCommGroup E] [MeasurableAdd₂ E] [MeasurableSub₂ E] [MeasurableNeg E]

/-- The process at the `p`-th point of the grid, `m` being the position of the initial time: steps
backwards come first. -/
def walk (V : ℕ → σ → E) (m p : ℕ) (s : σ) : E :=
  if p ≤ m then ∑ k ∈ Finset.range (m - p), V k s else ∑ k ∈ Finset.range (p - m), V (m + k) s

theorem walk_start (V : ℕ → σ → E) (m : ℕ) (s : σ) : walk V m m s = 0 := by simp [walk]

theorem walk_up (V : ℕ → σ → E) {m p : ℕ} (h : m ≤ p) (s : σ) :
    walk V m (p + 1) s = walk V m p s + V p s := by
  rcases h.eq_or_lt with rfl | h
  · simp [walk]
  · rw [walk, walk, if_neg (by omega), if_neg (by omega), show p + 1 - m = (p - m) + 1 by omega,
      Finset.sum_range_succ, show m + (p - m) = p by omega]

theorem walk_down (V : ℕ → σ → E) {m p : ℕ} (h : p < m) (s : σ) :
    walk V m p s = walk V m (p + 1) s + V (m - (p + 1)) s := by
  rw [walk, walk, if_pos h.le, if_pos (by omega), show m - p = m - (p + 1) + 1 by omega,
    Finset.sum_range_succ]

theorem measurable_walk {V : ℕ → σ → E} (hV : ∀ k, Measurable (V k)) (m p : ℕ) :
    Measurable (walk V m p) := by
  unfold walk
  split_ifs
  · exact Finset.measurable_sum _ fun k _ => hV k
  · exact Finset.measurable_sum _ fun k _ => hV _

/-- The steps of `W` along the grid are independent; each has law `N t dt` if it is after `t0`, or is
the opposite of a step backwards of such law. -/
structure IndepSteps (μ : Measure σ) (N : ℝ → ℝ → Measure E) (t0 : ℝ) (grid : List ℝ)
    (W : ℝ → σ → E) : Prop where
  start : ∀ s, W t0 s = 0
  meas : ∀ u, Measurable (W u)
  indep : iIndepFun (fun (p : Fin (grid.length - 1)) s =>
    W (grid.getD (p + 1) 0) s - W (grid.getD p 0) s) μ
  law : ∀ p < grid.length - 1, (t0 ≤ grid.getD p 0 ∧
      HasLaw (fun s => W (grid.getD (p + 1) 0) s - W (grid.getD p 0) s)
        (N (grid.getD p 0) (grid.getD (p + 1) 0 - grid.getD p 0)) μ) ∨
    (grid.getD (p + 1) 0 ≤ t0 ∧
      HasLaw (fun s => W (grid.getD (p + 1) 0) s - W (grid.getD p 0) s)
        ((N (grid.getD (p + 1) 0) (grid.getD p 0 - grid.getD (p + 1) 0)).map (- ·)) μ)

/-- Values drawn, up to a given one. -/
def firstSeq (V : ℕ → σ → E) (n : ℕ) (s : σ) (k : ℕ) : E := if k < n then V k s else 0

/-- The state left is independent of the values drawn, and distributed as it was before. -/
theorem valSeq_state {N : ℕ → Measure E} {g : ℕ → σ → E × σ} [∀ n, IsProbabilityMeasure (N n)]
    (hg : ∀ n, Measurable (g n)) (hm : ∀ n, μ.map (g n) = (N n).prod μ) (n : ℕ) :
    μ.map (fun s => (firstSeq (valSeq g) n s, stateSeq g n s)) = (μ.map (firstSeq (valSeq g) n)).prod μ := by
  have hmeas : ∀ n, Measurable (firstSeq (valSeq g) n) := by
    intro n
    refine measurable_pi_lambda _ fun k => ?_
    unfold firstSeq
    split_ifs
    · exact measurable_valSeq hg k
    · exact measurable_const
  induction n with
  | zero =>
    have e : firstSeq (valSeq g) 0 = fun _ _ => 0 := by
      funext s k
      simp [firstSeq]
    rw [e, Measure.map_const, measure_univ, one_smul, Measure.dirac_prod]
    rfl
  | succ n ih =>
    have hpr : IsProbabilityMeasure (μ.map (firstSeq (valSeq g) n)) :=
      Measure.isProbabilityMeasure_map (hmeas n).aemeasurable
    let ψ : (ℕ → E) × E → ℕ → E := fun p => Function.update p.1 n p.2
    have hψ : Measurable ψ := by
      refine measurable_pi_lambda _ fun k => ?_
      by_cases h : k = n
      · subst h
        simp only [ψ, Function.update_self]
        exact measurable_snd
      · simp only [ψ, Function.update_of_ne h]
        exact (measurable_pi_apply k).comp measurable_fst
    have e : firstSeq (valSeq g) (n + 1) = ψ ∘ fun s => (firstSeq (valSeq g) n s, valSeq g n s) := by
      funext s k
      simp only [ψ, Function.comp_apply]
      by_cases h : k = n
      · subst h
        simp [firstSeq]
      · simp only [Function.update_of_ne h, firstSeq, show k < n + 1 ↔ k < n by omega]
    have h1 : μ.map (fun s => ((firstSeq (valSeq g) n s, valSeq g n s), stateSeq g (n + 1) s)) =
        ((μ.map (firstSeq (valSeq g) n)).prod (N n)).prod μ := by
      have e1 : (fun s => ((firstSeq (valSeq g) n s, valSeq g n s), stateSeq g (n + 1) s)) =
          MeasurableEquiv.prodAssoc.symm ∘ Prod.map id (g n) ∘
            fun s => (firstSeq (valSeq g) n s, stateSeq g n s) := rfl
      have hms : Measurable fun s => (firstSeq (valSeq g) n s, stateSeq g n s) :=
        (hmeas n).prodMk (measurable_stateSeq hg n)
      have := hg n
      rw [e1, ← Measure.map_map (by fun_prop) (by fun_prop), ← Measure.map_map (by fun_prop) hms, ih]
      have h2 := Measure.map_prod_map (μ.map (firstSeq (valSeq g) n)) μ measurable_id (hg n)
      rw [← h2, Measure.map_id, hm, ← Measure.prodAssoc_prod, Measure.map_map (by fun_prop) (by fun_prop)]
      simp
    have hms' : Measurable fun s => ((firstSeq (valSeq g) n s, valSeq g n s), stateSeq g (n + 1) s) :=
      ((hmeas n).prodMk (measurable_valSeq hg n)).prodMk (measurable_stateSeq hg (n + 1))
    have h3 : μ.map (fun s => (firstSeq (valSeq g) n s, valSeq g n s)) = (μ.map (firstSeq (valSeq g) n)).prod (N n) := by
      have := congrArg (Measure.map Prod.fst) h1
      rw [Measure.map_map measurable_fst hms', Measure.map_fst_prod, measure_univ, one_smul] at this
      exact this
    have h4 := congrArg (Measure.map (Prod.map ψ id)) h1
    rw [Measure.map_map (hψ.prodMap measurable_id) hms', ← Measure.map_prod_map _ _ hψ measurable_id, Measure.map_id,
      ← h3, Measure.map_map hψ ((hmeas n).prodMk (measurable_valSeq hg n)), ← e] at h4
    rw [← h4]
    congr 1
    funext s
    simp only [e, Function.comp_apply, Prod.map_apply, id]

/-- Draws cumulated along a grid, from one of its points: they are a process whose steps are
independent, each having the law of the draw, or that of its opposite if it is before the initial time. The state
left is independent of them, and distributed as it was before. -/
theorem cumulated_steps_state {z : ℝ → ℝ → σ → Py (E × σ)} {N : ℝ → ℝ → Measure E}
    (hz : ∀ t dt, dt ≠ 0 → DrawsLaw μ (N t dt) (z t dt)) {grid : List ℝ}
    (hg : grid.Pairwise (· < ·)) {t0 : ℝ} (h0 : t0 ∈ grid) :
    ∃ (W : ℝ → σ → E) (st : σ → σ), IndepSteps μ N t0 grid W ∧
      (∀ s, cumulated z t0 grid s = .ok (grid.map fun u => (u, W u s), st s)) ∧ Measurable st ∧
      μ.map (fun s => (fun u : {u : ℝ // u ∈ grid} => W u s, st s)) =
        (μ.map fun s (u : {u : ℝ // u ∈ grid}) => W u s).prod μ := by
  obtain ⟨l1, l2, rfl⟩ := List.append_of_mem h0
  set grid := l1 ++ t0 :: l2 with hgrid
  set m := l1.length with hm
  set u : ℕ → ℝ := fun p => grid.getD p 0 with hu
  have hlen : grid.length = m + 1 + l2.length := by simp [hgrid, hm]; omega
  have hum : u m = t0 := by simp [hu, hgrid, hm]
  have hget : ∀ p (hp : p < grid.length), u p = grid[p] := by
    intro p hp
    simp [hu, List.getD_eq_getElem?_getD, hp]
  have hmono : ∀ p q, p < q → q < grid.length → u p < u q := by
    intro p q hpq hq
    rw [hget p (hpq.trans hq), hget q hq]
    exact List.pairwise_iff_getElem.1 hg p q _ _ hpq
  -- times and steps of draws
  let τ : ℕ → ℝ × ℝ := fun k => if k < m then (u (m - k), u (m - (k + 1)) - u (m - k))
    else if k + 1 < grid.length then (u k, u (k + 1) - u k) else (0, 1)
  have hτ : ∀ k, (τ k).2 ≠ 0 := by
    intro k
    simp only [τ]
    split_ifs with h1 h2
    · exact (sub_neg.2 (hmono _ _ (by omega) (by omega))).ne
    · exact (sub_pos.2 (hmono _ _ (by omega) h2)).ne'
    · exact one_ne_zero
  choose g hg1 hg2 hg3 using fun k => hz (τ k).1 (τ k).2 (hτ k)
  have hpr : ∀ k, IsProbabilityMeasure (N (τ k).1 (τ k).2) := fun k => (hz _ _ (hτ k)).isProb
  set V := valSeq g with hV
  have hVm : ∀ k, Measurable (V k) := measurable_valSeq hg1
  have hdraw : ∀ k s, z (τ k).1 (τ k).2 (stateSeq g k s) = .ok (V k s, stateSeq g (k + 1) s) := by
    intro k s
    rw [hg2]; rfl
  have hτd : ∀ p < m, τ (m - (p + 1)) = (u (p + 1), u p - u (p + 1)) := by
    intro p hp
    simp only [τ]
    rw [if_pos (by omega), show m - (m - (p + 1)) = p + 1 by omega,
      show m - (m - (p + 1) + 1) = p by omega]
  have hτu : ∀ p, m ≤ p → p + 1 < grid.length → τ p = (u p, u (p + 1) - u p) := by
    intro p hp hp'
    simp only [τ]
    rw [if_neg (by omega), if_pos hp']
  have hnd : grid.Nodup := hg.imp (fun h => ne_of_lt h)
  have hidx : ∀ p < grid.length, grid.idxOf (u p) = p := by
    intro p hp
    rw [hget p hp]
    exact hnd.idxOf_getElem p hp
  let W : ℝ → σ → E := fun v s => walk V m (grid.idxOf v) s
  have hWu : ∀ p < grid.length, ∀ s, W (u p) s = walk V m p s := by
    intro p hp s
    simp only [W]
    rw [hidx p hp]
  -- cumulated sums
  have hdown : ∀ p ≤ m, ∀ s, cumulate z (u p) (walk V m p s) (grid.take p).reverse
      (stateSeq g (m - p) s) = .ok ((grid.take p).reverse.map fun v => (v, W v s),
        stateSeq g m s) := by
    intro p
    induction p with
    | zero => intro _ s; simp [cumulate]
    | succ p ih =>
      intro hp s
      have hp' : p < grid.length := by omega
      have e : (grid.take (p + 1)).reverse = u p :: (grid.take p).reverse := by
        rw [List.take_succ_eq_append_getElem hp']
        simp [hget _ hp']
      have hd := hdraw (m - (p + 1)) s
      rw [hτd p (by omega)] at hd
      simp only [show m - (p + 1) + 1 = m - p by omega] at hd
      rw [e]
      simp only [cumulate, hd, bind, Except.bind, ← walk_down V (show p < m by omega) s,
        ih (by omega) s, pure, Except.pure, List.map_cons, hWu p hp' s]
  have hup : ∀ n p, n + p + 1 = grid.length → m ≤ p → ∀ s,
      cumulate z (u p) (walk V m p s) (grid.drop (p + 1)) (stateSeq g p s) =
        .ok ((grid.drop (p + 1)).map fun v => (v, W v s), stateSeq g (grid.length - 1) s) := by
    intro n
    induction n with
    | zero =>
      intro p hp _ s
      rw [List.drop_of_length_le (by omega), show grid.length - 1 = p by omega]
      rfl
    | succ n ih =>
      intro p hp hmp s
      have hp' : p + 1 < grid.length := by omega
      have e : grid.drop (p + 1) = u (p + 1) :: grid.drop (p + 1 + 1) := by
        rw [List.drop_eq_getElem_cons hp']
        simp [hget _ hp']
      have hd := hdraw p s
      rw [hτu p hmp hp'] at hd
      simp only at hd
      rw [e]
      simp only [cumulate, hd, bind, Except.bind, ← walk_up V hmp s,
        ih (p + 1) (by omega) (by omega) s, pure, Except.pure, List.map_cons, hWu (p + 1) hp' s]
  have hfl : grid.filter (· < t0) = l1 := by
    rw [hgrid] at hg ⊢
    rw [List.pairwise_append] at hg
    obtain ⟨-, h2, h3⟩ := hg
    rw [List.filter_append, List.filter_eq_self.2 (fun a ha => by simpa using h3 a ha t0 (by simp)),
      List.filter_eq_nil_iff.2 (fun a ha => by
        rcases List.mem_cons.1 ha with rfl | ha
        · simp
        · have := (List.pairwise_cons.1 h2).1 a ha
          simp [this.le]), List.append_nil]
  have hfr : grid.filter (t0 < ·) = l2 := by
    rw [hgrid] at hg ⊢
    rw [List.pairwise_append] at hg
    obtain ⟨-, h2, h3⟩ := hg
    rw [List.filter_append, List.filter_eq_nil_iff.2 (fun a ha => by
        have := h3 a ha t0 (by simp); simp [this.le]), List.nil_append, List.filter_cons,
        if_neg (by simp), List.filter_eq_self.2 (fun a ha => by
          simpa using (List.pairwise_cons.1 h2).1 a ha)]
  have ht1 : grid.take m = l1 := by simp [hgrid, hm]
  have ht2 : grid.drop (m + 1) = l2 := by
    rw [hgrid, show m + 1 = l1.length + 1 from rfl, List.drop_append]
    simp
  have hW0 : ∀ s, W t0 s = 0 := by
    intro s
    rw [← hum, hWu m (by omega), walk_start]
  refine ⟨W, stateSeq g (grid.length - 1), ⟨hW0, fun v => measurable_walk hVm _ _, ?_, ?_⟩, ?_,
    measurable_stateSeq hg1 _, ?_⟩
  · let π : Fin (grid.length - 1) → ℕ := fun p => if (p : ℕ) < m then m - (p + 1) else p
    have hπ : Function.Injective π := by
      intro a b hab
      simp only [π] at hab
      ext
      split_ifs at hab <;> omega
    have hi := (iIndepFun_valSeq hg1 hg3).precomp hπ
    have hc := hi.comp (fun p : Fin (grid.length - 1) => if (p : ℕ) < m then fun x : E => -x else id)
      (by intro p; split_ifs <;> fun_prop)
    refine hc.congr fun p => Filter.Eventually.of_forall fun s => ?_
    have hp := p.2
    change (if (p : ℕ) < m then fun x : E => -x else id) (V (π p) s) =
      W (u (p + 1)) s - W (u p) s
    rw [hWu _ (by omega), hWu _ (by omega)]
    simp only [π]
    split_ifs with h
    · rw [walk_down V h]; simp
    · rw [walk_up V (not_lt.1 h)]; simp
  · intro p hp
    change (t0 ≤ u p ∧ HasLaw (fun s => W (u (p + 1)) s - W (u p) s) (N (u p) (u (p + 1) - u p)) μ) ∨
      (u (p + 1) ≤ t0 ∧ HasLaw (fun s => W (u (p + 1)) s - W (u p) s)
        ((N (u (p + 1)) (u p - u (p + 1))).map (- ·)) μ)
    have hle : ∀ a b, a ≤ b → b < grid.length → u a ≤ u b := by
      intro a b hab hb
      rcases hab.eq_or_lt with rfl | h
      · exact le_rfl
      · exact (hmono _ _ h hb).le
    by_cases h : p < m
    · right
      refine ⟨by rw [← hum]; exact hle _ _ h (by omega), ?_⟩
      have hl := hasLaw_valSeq hg1 hg3 (m - (p + 1))
      rw [hτd p h] at hl
      have e : (fun s => W (u (p + 1)) s - W (u p) s) = fun s => -V (m - (p + 1)) s := by
        funext s
        rw [hWu _ (by omega), hWu _ (by omega), walk_down V h]; simp
      rw [e]
      refine ⟨((hVm _).neg).aemeasurable, ?_⟩
      rw [← hl.map_eq, Measure.map_map measurable_neg (hVm _)]
      rfl
    · left
      refine ⟨by rw [← hum]; exact hle _ _ (not_lt.1 h) (by omega), ?_⟩
      have hl := hasLaw_valSeq hg1 hg3 p
      rw [hτu p (not_lt.1 h) (by omega)] at hl
      have e : (fun s => W (u (p + 1)) s - W (u p) s) = V p := by
        funext s
        rw [hWu _ (by omega), hWu _ (by omega), walk_up V (not_lt.1 h)]; simp
      rw [e]
      exact hl
  · intro s
    have h1 := hdown m le_rfl s
    have h2 := hup (grid.length - 1 - m) m (by omega) le_rfl s
    rw [walk_start, hum] at h1 h2
    rw [Nat.sub_self, ht1] at h1
    rw [ht2] at h2
    have h1' : cumulate z t0 0 l1.reverse s =
      .ok (l1.reverse.map fun v => (v, W v s), stateSeq g m s) := h1
    simp only [cumulated, hfl, hfr, h1', h2, bind, Except.bind, pure, Except.pure]
    rw [← List.map_reverse, List.reverse_reverse, hgrid, List.map_append, List.map_cons, hW0]
  · let ρ : (ℕ → E) → {u : ℝ // u ∈ grid} → E := fun f v => walk (fun k f => f k) m (grid.idxOf v.1) f
    have hρ : Measurable ρ := measurable_pi_lambda _ fun v => measurable_walk (fun k => measurable_pi_apply k) _ _
    have e : (fun s (u : {u : ℝ // u ∈ grid}) => W u s) = ρ ∘ firstSeq V (grid.length - 1) := by
      funext s v
      have hv := List.idxOf_lt_length_iff.2 v.2
      simp only [W, ρ, Function.comp_apply, walk, firstSeq]
      split_ifs with h
      · refine Finset.sum_congr rfl fun k hk => ?_
        rw [Finset.mem_range] at hk
        rw [if_pos (by omega)]
      · refine Finset.sum_congr rfl fun k hk => ?_
        rw [Finset.mem_range] at hk
        rw [if_pos (by omega)]
    have hf : Measurable (firstSeq V (grid.length - 1)) := by
      refine measurable_pi_lambda _ fun k => ?_
      unfold firstSeq
      split_ifs
      · exact hVm k
      · exact measurable_const
    have h := congrArg (Measure.map (Prod.map ρ id)) (valSeq_state (μ := μ) hg1 hg3 (grid.length - 1))
    have hpr : IsProbabilityMeasure (μ.map (firstSeq V (grid.length - 1))) :=
      Measure.isProbabilityMeasure_map hf.aemeasurable
    rw [Measure.map_map (hρ.prodMap measurable_id) (hf.prodMk (measurable_stateSeq hg1 _)),
      ← Measure.map_prod_map _ _ hρ measurable_id, Measure.map_id, Measure.map_map hρ hf, ← e] at h
    rw [← h]
    congr 1
    funext s
    simp only [Function.comp_apply, Prod.map_apply, id]
    exact Prod.ext (congrFun e s) rfl

theorem cumulated_steps {z : ℝ → ℝ → σ → Py (E × σ)} {N : ℝ → ℝ → Measure E}
    (hz : ∀ t dt, dt ≠ 0 → DrawsLaw μ (N t dt) (z t dt)) {grid : List ℝ}
    (hg : grid.Pairwise (· < ·)) {t0 : ℝ} (h0 : t0 ∈ grid) :
    ∃ (W : ℝ → σ → E) (st : σ → σ), IndepSteps μ N t0 grid W ∧
      ∀ s, cumulated z t0 grid s = .ok (grid.map fun u => (u, W u s), st s) := by
  obtain ⟨W, st, h1, h2, -⟩ := cumulated_steps_state hz hg h0
  exact ⟨W, st, h1, h2⟩

/-- Affine functions of cumulated draws: it is enough to know the law of a single step. -/
theorem IndepSteps.levy {N : ℝ → ℝ → Measure E} {t0 : ℝ} {grid : List ℝ} {W : ℝ → σ → E}
    (h : IndepSteps μ N t0 grid W) (hg : grid.Pairwise (· < ·)) {A : Type} [MeasurableSpace A]
    [AddCommGroup A] [Module ℝ A] [MeasurableAdd₂ A] [MeasurableSub₂ A] [MeasurableNeg A]
    {law : ℝ → Measure A} (hsemi : ∀ a b, 0 < a → 0 < b → (law a).conv (law b) = law (a + b))
    (φ : E →+ A) (hφ : Measurable φ) (d : A)
    (hpos : ∀ t dt, 0 < dt → (N t dt).map (fun e => dt • d + φ e) = law dt)
    (hneg : ∀ t dt, dt < 0 → (N t dt).map (fun e => (-dt) • d - φ e) = law (-dt)) :
    IsLevyProcess μ law t0 {u | u ∈ grid} fun u s => (u - t0) • d + φ (W u s) := by
  set u : ℕ → ℝ := fun p => grid.getD p 0 with hu
  have hget : ∀ p (hp : p < grid.length), u p = grid[p] := by
    intro p hp
    simp [hu, List.getD_eq_getElem?_getD, hp]
  have hmono : ∀ p q, p < q → q < grid.length → u p < u q := by
    intro p q hpq hq
    rw [hget p (hpq.trans hq), hget q hq]
    exact List.pairwise_iff_getElem.1 hg p q _ _ hpq
  rcases Nat.eq_zero_or_pos grid.length with hl | hl
  · have : grid = [] := List.length_eq_zero_iff.1 hl
    subst this
    refine ⟨fun s => by simp [h.start s], by simp, ?_⟩
    intro n t _ hD
    have := hD 0
    simp at this
  have hinc : ∀ a b s, ((b - t0) • d + φ (W b s)) - ((a - t0) • d + φ (W a s)) =
      (b - a) • d + φ (W b s - W a s) := by
    intro a b s
    rw [map_sub, show (b - a) = (b - t0) - (a - t0) by ring, sub_smul (b - t0)]
    abel
  have key := levy_of_steps (μ := μ) (X := fun v s => (v - t0) • d + φ (W v s)) (t0 := t0) hsemi
    (N := grid.length - 1) (u := u) (fun p q hpq hq => hmono p q hpq (by omega))
    (fun s => by simp [h.start s])
    (fun p _ => measurable_const.add (hφ.comp (h.meas _))) ?_ ?_
  · refine ⟨key.start, fun a ha b hb => key.law a ?_ b ?_, fun n t ht hD => key.indep n t ht ?_⟩
    · obtain ⟨p, hp, rfl⟩ := List.getElem_of_mem ha
      exact ⟨p, by omega, (hget p hp).symm⟩
    · obtain ⟨p, hp, rfl⟩ := List.getElem_of_mem hb
      exact ⟨p, by omega, (hget p hp).symm⟩
    · intro k
      obtain ⟨p, hp, he⟩ := List.getElem_of_mem (hD k)
      exact ⟨p, by omega, by rw [hget p hp, he]⟩
  · have := h.indep.comp (fun (p : Fin (grid.length - 1)) e => (u (p + 1) - u p) • d + φ e)
      (fun p => measurable_const.add hφ)
    refine this.congr fun p => Filter.Eventually.of_forall fun s => ?_
    exact (hinc _ _ s).symm
  · intro p hp
    have hlt : u p < u (p + 1) := hmono _ _ (by omega) (by omega)
    have e : (fun s => ((u (p + 1) - t0) • d + φ (W (u (p + 1)) s)) - ((u p - t0) • d + φ (W (u p) s))) =
        (fun e => (u (p + 1) - u p) • d + φ e) ∘ fun s => W (u (p + 1)) s - W (u p) s := by
      funext s; exact hinc _ _ s
    have hmeas : Measurable fun e : E => (u (p + 1) - u p) • d + φ e := measurable_const.add hφ
    have hWm : Measurable fun s => W (u (p + 1)) s - W (u p) s := (h.meas _).sub (h.meas _)
    rw [e]
    refine ⟨(hmeas.comp hWm).aemeasurable, ?_⟩
    rw [← Measure.map_map hmeas hWm]
    rcases h.law p hp with ⟨-, hl⟩ | ⟨-, hl⟩
    · have := hl.map_eq
      change μ.map (fun s => W (u (p + 1)) s - W (u p) s) = _ at this
      rw [this]
      exact hpos _ _ (sub_pos.2 hlt)
    · have := hl.map_eq
      change μ.map (fun s => W (u (p + 1)) s - W (u p) s) = _ at this
      rw [this, Measure.map_map hmeas measurable_neg]
      have h2 := hneg (u (p + 1)) (u p - u (p + 1)) (sub_neg.2 hlt)
      rw [neg_sub] at h2
      rw [← h2]
      congr 1
      funext x
      simp [sub_eq_add_neg]

end

end Sdepy
