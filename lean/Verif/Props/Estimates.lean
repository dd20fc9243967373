import Verif.Lemmas.Runs
import Verif.Props.StrongLaw
import Verif.Props.MonteCarlo

/-!
# Property C85: Monte Carlo estimates of expectations of solutions
-/

set_option linter.unusedSectionVars false

open MeasureTheory ProbabilityTheory Filter Topology

namespace Sdepy

open Spec

theorem restrict_scheme {Ω ι : Type} [Fintype ι] {a b : ℝ → (ι → ℝ) → ι → ℝ} {x0 : ι → ℝ} {grid g : List ℝ} {t0 T : ℝ}
    {W X : ℝ → Ω → ι → ℝ} (hmem : ∀ u, u ∈ g ↔ u ∈ grid ∧ u ∈ Set.Icc t0 (t0 + T)) (hX : IsScheme a b t0 x0 grid W X) :
    IsScheme a b t0 x0 g W X := by
  refine ⟨hX.start, ?_⟩
  rintro s t ⟨hs, ht, h⟩ h0s hst ω i
  have hs' := (hmem s).1 hs
  have ht' := (hmem t).1 ht
  refine hX.step s t ⟨hs'.1, ht'.1, .inl ⟨h0s, hst, fun c hc hcc => ?_⟩⟩ h0s hst ω i
  have hcm := (hmem c).2 ⟨hc, by linarith [hs'.2.1, hcc.1], by linarith [ht'.2.2, hcc.2]⟩
  rcases h with ⟨-, -, h⟩ | ⟨-, h, -⟩
  · exact h c hcm hcc
  · linarith

theorem drives_unit {Ω κ : Type} [MeasurableSpace Ω] [Fintype κ] {P : Measure Ω} {t0 : ℝ} {D : Set ℝ}
    {W : ℝ → Ω → Unit → κ → ℝ} (h : Drives P t0 D fun u ω (c : Unit × κ) => W u ω c.1 c.2) :
    Drives P t0 D fun u ω k => W u ω () k where
  meas u hu := aemeasurable_pi_lambda _ fun k =>
    (measurable_pi_apply ((), k)).comp_aemeasurable (h.meas u hu)
  memLp s hs t ht h0 hst k := h.memLp s hs t ht h0 hst ((), k)
  mean s hs t ht h0 hst k := h.mean s hs t ht h0 hst ((), k)
  var s hs t ht h0 hst k := h.var s hs t ht h0 hst ((), k)
  indep s hs t ht h0 hst := (h.indep s hs t ht h0 hst).comp
    (φ := fun (w : {u : ℝ // u ∈ D ∧ u ≤ s} × Unit × κ → ℝ) (p : {u : ℝ // u ∈ D ∧ u ≤ s} × κ) => w (p.1, (), p.2))
    (ψ := fun (w : Unit × κ → ℝ) k => w ((), k))
    (measurable_pi_lambda _ fun p => measurable_pi_apply _) (measurable_pi_lambda _ fun p => measurable_pi_apply _)

theorem lipschitz_memLp {Ω ι : Type} [MeasurableSpace Ω] [Fintype ι] {P : Measure Ω} [IsProbabilityMeasure P]
    {X : Ω → ι → ℝ} (hX : ∀ i, MemLp (fun ω => X ω i) 2 P) {φ : (ι → ℝ) → ℝ} {M : ℝ} (hM : 0 ≤ M)
    (hφ : ∀ x y, |φ x - φ y| ≤ M * √(∑ i, (x i - y i) ^ 2)) : MemLp (fun ω => φ (X ω)) 2 P := by
  have hc := lipschitz_continuous hφ
  have hm : AEStronglyMeasurable X P := by
    have : AEMeasurable X P := aemeasurable_pi_lambda _ fun i => (hX i).aestronglyMeasurable.aemeasurable
    exact this.aestronglyMeasurable
  have hφm := hc.comp_aestronglyMeasurable hm
  have hφ0 : AEStronglyMeasurable (fun ω => φ (X ω) - φ 0) P := hφm.sub aestronglyMeasurable_const
  have h1 : MemLp (fun ω => φ (X ω) - φ 0) 2 P := by
    rw [memLp_two_iff_integrable_sq hφ0]
    refine Integrable.mono' ((integrable_finsetSum Finset.univ fun i _ => (hX i).integrable_sq).const_mul (M ^ 2))
      (hφ0.pow 2) (.of_forall fun ω => ?_)
    have h := hφ (X ω) 0
    simp only [Pi.zero_apply, sub_zero] at h
    have h2 := pow_le_pow_left₀ (abs_nonneg _) h 2
    rw [mul_pow, Real.sq_sqrt (Finset.sum_nonneg fun i _ => sq_nonneg _), sq_abs] at h2
    simp only [Real.norm_eq_abs, Pi.pow_apply, Pi.sub_apply, Function.comp_apply, abs_pow, sq_abs]
    exact h2
  have := h1.add (memLp_const (φ 0))
  refine (memLp_congr_ae (.of_forall fun ω => ?_)).1 this
  simp

/-- Mean square of the difference of functions of values that are close in mean square. -/
theorem lipschitz_meanSq {Ω ι : Type} [MeasurableSpace Ω] [Fintype ι] {P : Measure Ω} [IsProbabilityMeasure P]
    {X Y : Ω → ι → ℝ} (hX : ∀ i, MemLp (fun ω => X ω i) 2 P) (hY : ∀ i, MemLp (fun ω => Y ω i) 2 P) {φ : (ι → ℝ) → ℝ}
    {M : ℝ} (hM : 0 ≤ M) (hφ : ∀ x y, |φ x - φ y| ≤ M * √(∑ i, (x i - y i) ^ 2)) :
    ∫ ω, (φ (X ω) - φ (Y ω)) ^ 2 ∂P ≤ M ^ 2 * meanSq P (fun ω i => X ω i - Y ω i) := by
  have hs : ∀ i, Integrable (fun ω => (X ω i - Y ω i) ^ 2) P := fun i => ((hX i).sub (hY i)).integrable_sq
  calc ∫ ω, (φ (X ω) - φ (Y ω)) ^ 2 ∂P ≤ ∫ ω, M ^ 2 * ∑ i, (X ω i - Y ω i) ^ 2 ∂P := by
        refine integral_mono ((lipschitz_memLp hX hM hφ).sub (lipschitz_memLp hY hM hφ)).integrable_sq
          ((integrable_finsetSum Finset.univ fun i _ => hs i).const_mul _) fun ω => ?_
        have h2 := pow_le_pow_left₀ (abs_nonneg _) (hφ (X ω) (Y ω)) 2
        rwa [mul_pow, Real.sq_sqrt (Finset.sum_nonneg fun i _ => sq_nonneg _), sq_abs] at h2
    _ = M ^ 2 * meanSq P (fun ω i => X ω i - Y ω i) := by
        rw [integral_const_mul, integral_finsetSum _ fun i _ => hs i]
        rfl

section
variable {κ : Type} [Fintype κ] [DecidableEq κ] {corr : Corr κ} {D : Set ℝ} {F : ℝ → Matrix κ κ ℝ}
  {a b : ℝ → (κ → ℝ) → κ → ℝ} {t0 : ℝ}

set_option maxHeartbeats 1000000 in
/-- **C85** (estimates). A simulation of `dx = a(t, x)*dt + b(t, x)*dw` with many paths, all with the same initial
values, is repeated any number of times, with a Wiener source. Take the average over all paths, in all runs, of a
function of the values simulated for a time `t` of the timeline, that is Lipschitz of constant `M`; as an
estimate of the expectation of the same function of the solution of the equation, its mean square error is at most twice
the variance of the function of the solution, divided by the number of paths in all runs, plus `3*M²*K*δ`, where `δ` is
the longest step. `K` only depends on the equation, on the initial values and on `T`. -/
theorem C85_estimate (hC : CorrOk corr D F) (hone : ∀ u ∈ D, ∀ k, corrAt corr u k k = 1)
    {T L : ℝ} (hT : 0 ≤ T) (hTD : Set.Icc t0 (t0 + T) ⊆ D) (hL : LipschitzCoef a b t0 T L) (y0 : κ → ℝ) :
    ∃ K ≥ 0, ∀ {Ω ι O : Type} [MeasurableSpace Ω] [Fintype ι] [DecidableEq ι] [Nonempty ι]
      {P : Measure Ω} [IsProbabilityMeasure P] {G : ℕ → Matrix κ κ ℝ → ℝ → ℝ → Ω → ι → κ → ℝ}, Draws P G →
      GaussianDraws P G → ∀ {S : SDE ℝ (ι × κ → ℝ) O ℕ (Ω × ℕ)} {x0 : ι × κ → ℝ},
      S.sources = [(idT, dtSource), (idW, noise G (corrAt corr))] →
      (∀ t x, S.sde t x = .ok (some [(idT, fun c => a t (fun k => x (c.1, k)) c.2),
        (idW, fun c => b t (fun k => x (c.1, k)) c.2)])) → S.init t0 = .ok x0 →
      (∀ c, (if S.log then S.logX x0 else x0) c = y0 c.2) →
      ∀ {Ω' : Type} [MeasurableSpace Ω'] {P' : Measure Ω'} [IsProbabilityMeasure P']
      {W : ℝ → Ω' → Unit → κ → ℝ} {Y : ℝ → Ω' → κ → ℝ},
      IsWienerProcess P' F t0 0 (Set.Icc t0 (t0 + T)) W →
      IsSolution P' a b t0 T y0 (fun u ω k => W u ω () k) Y →
      ∀ {fuel : ℕ} {steps : Steps ℝ} {i0 : ℤ} {tl : TArr ℝ} {grid : List ℝ} {δ : ℝ} (n : ℕ), 0 ≤ δ →
        Along fuel steps i0 tl grid t0 → (∀ u ∈ tl.data, u ∈ D) → Mesh grid δ →
        ∃ (X : ℕ → ℝ → Ω → ι × κ → ℝ) (ns : ℕ → ℕ), ns 0 = n ∧
          (∀ r ω, S.call fuel steps i0 tl (ω, ns r) = .ok (tl.data.map fun t => some
            (if S.log then S.expO (S.letX t (X r t ω)) else S.letX t (X r t ω)), (ω, ns (r + 1)))) ∧
          ∀ R > 0, ∀ t ∈ tl.data, t ∈ Set.Icc t0 (t0 + T) → ∀ (φ : (κ → ℝ) → ℝ) (M : ℝ), 0 ≤ M →
            (∀ x y, |φ x - φ y| ≤ M * √(∑ k, (x k - y k) ^ 2)) →
            MemLp (fun ω => (∑ r ∈ Finset.range R, ∑ i, φ fun k => X r t ω (i, k)) / (R * Fintype.card ι)) 2 P ∧
            MemLp (fun ω => φ (Y t ω)) 2 P' ∧
            ∫ ω, ((∑ r ∈ Finset.range R, ∑ i, φ fun k => X r t ω (i, k)) / (R * Fintype.card ι) -
              ∫ ω, φ (Y t ω) ∂P') ^ 2 ∂P ≤
              2 * Var[fun ω => φ (Y t ω); P'] / (R * Fintype.card ι) + 3 * (M ^ 2 * (K * δ)) := by
  obtain ⟨K, hK, hclose⟩ := solution_close hT hL y0
  refine ⟨K, hK, ?_⟩
  intro Ω ι O _ _ _ _ P _ G hG hJ S x0 hsrc hsde hinit hx0 Ω' _ P' _ W' Y hW' hY fuel steps i0 tl grid δ n hδ ha hD hm
  obtain ⟨-, h2, h3⟩ := along_mem ha
  have hgD := grid_mem ha hC.conn hD
  set len := (grid.filter (· < t0)).length + (grid.filter (t0 < ·)).length with hlen
  choose Wb mb hWb hcb using fun R : ℕ => cumulated_wiener hC (runDraws_draws hG n len R) (runDraws_gaussian hJ n len R)
    ha.isGrid.1 h2 hgD 0
  have hrun : ∀ (R : ℕ) (r : Fin R) ω, cumulated (noise G (corrAt corr)) t0 grid (ω, n + r * len) =
      .ok (grid.map fun u => (u, fun c => Wb R u ω (r, c.1) c.2), (ω, n + (r + 1) * len)) := by
    intro R r ω
    rw [cumulated_run (corrAt corr) r ω hlen (hcb R ω), List.map_map]
    rfl
  have hst : ∀ (R : ℕ) ω, Wb R t0 ω = 0 := fun R ω => (hWb R).start ω
  choose X hcall hX using fun r : ℕ => C83_scheme (W := fun u ω (c : ι × κ) => Wb (r + 1) u ω (Fin.last r, c.1) c.2)
    (s := fun ω => (ω, n + r * len)) (s' := fun ω => (ω, n + (r + 1) * len)) hsrc hsde hinit ha (fun ω => by
      rw [hst]
      simpa using hrun (r + 1) (Fin.last r) ω)
  refine ⟨X, fun r => n + r * len, by simp, hcall, ?_⟩
  intro R hR t ht htI φ M hM hφ
  -- each path is a scheme for the equation of a single path
  have hpath : ∀ (r : Fin R) (i : ι), IsScheme a b t0 y0 grid (fun u ω k => Wb R u ω (r, i) k)
      (fun u ω k => X r u ω (i, k)) := by
    intro r i
    refine ⟨fun ω => ?_, fun s t hst h0s hs ω k => ?_⟩
    · funext k
      rw [(hX r).start ω, hx0]
    · rw [(hX r).step s t hst h0s hs ω (i, k)]
      have hW : ∀ u ∈ grid, Wb (r.1 + 1) u ω (Fin.last r.1, i) k = Wb R u ω (r, i) k := by
        intro u hu
        have h1 := hrun (r.1 + 1) (Fin.last r.1) ω
        rw [Fin.val_last, hrun R r ω] at h1
        simp only [Except.ok.injEq, Prod.mk.injEq, and_true] at h1
        have h4 := List.map_inj_left.1 h1 u hu
        simp only [Prod.mk.injEq, true_and] at h4
        exact (congrFun h4 (i, k)).symm
      rw [hW _ hst.1, hW _ hst.2.1]
  -- the scheme driven by the noise of the solution
  obtain ⟨X0, hX0⟩ := exists_sums ha.isGrid.1 h2 a b y0 fun u ω k => W' u ω () k
  obtain ⟨g, g1, g2, g3, g4, g5⟩ := restrict_grid hT ha.isGrid.1 h2 hm hX0
  have hgI : ∀ u ∈ g, u ∈ Set.Icc t0 (t0 + T) := fun u hu => ((g3 u).1 hu).2
  have htg : t ∈ g := (g3 t).2 ⟨h3 t ht, htI⟩
  have hDr : Drives P' t0 (Set.Icc t0 (t0 + T)) fun u ω k => W' u ω () k :=
    drives_unit (drives_of_wiener hW' le_rfl (by
      intro s hs t ht k
      rw [← Matrix.sub_apply, hC.mid s (hTD hs) t (hTD ht), Matrix.smul_apply, hone _ (hC.mem (hTD hs) (hTD ht)),
        smul_eq_mul, mul_one]))
  obtain ⟨hl, hms⟩ := hclose hDr hY hδ g1 g2 hgI g4 g5 t htg
  have hYl := hY.memLp t htI
  obtain ⟨f, hf, hfX⟩ := scheme_function hL g1 g2 hgI y0
  have hfin : Finite {u : ℝ // u ∈ g} := List.finite_toSet g
  have hfi : Fintype {u : ℝ // u ∈ g} := Fintype.ofFinite _
  have hfs : Fintype ↑{u : ℝ | u ∈ g} := hfi
  have wW := (hWb R).mono (D' := {u | u ∈ g}) fun u hu => ((g3 u).1 hu).1
  have wW' := hW'.mono (D' := {u | u ∈ g}) fun u hu => hgI u hu
  have hφc := lipschitz_continuous hφ
  have hmeas : Measurable fun w : {u : ℝ // u ∈ g} × κ → ℝ => φ (f w t) := hφc.measurable.comp (hf t htg)
  let Z : Fin R × ι → Ω → ℝ := fun p ω => φ fun k => X p.1 t ω (p.2, k)
  have hZ : ∀ p, Z p = (fun w => φ (f w t)) ∘ fun ω (q : {u : ℝ // u ∈ g} × κ) => Wb R q.1 ω p q.2 := by
    intro p
    funext ω
    exact congrArg φ (hfX (restrict_scheme g3 (hpath p.1 p.2)) t htg ω)
  have hind : iIndepFun (fun p ω (q : {u : ℝ // u ∈ g} × κ) => Wb R q.1 ω p q.2) P := by
    refine IsGaussianProcess.iIndepFun_of_covariance_eq_zero (S := fun _ : Fin R × ι => {u : ℝ // u ∈ g} × κ)
      (X := fun p q ω => Wb R q.1 ω p q.2) ?_ ?_ ?_
    · exact wW.gauss.comp_right (fun p : (_ : Fin R × ι) × {u : ℝ // u ∈ g} × κ => (p.2.1, p.1, p.2.2))
    · intro p q
      exact (wW.gauss.hasGaussianLaw_eval (q.1, p, q.2)).aemeasurable
    · intro p p' hp q q'
      rw [wW.cov _ q.1.2 _ q'.1.2, if_neg hp]
  have hlaw : ∀ p, IdentDistrib (Z p) (fun ω => φ (X0 t ω)) P P' := by
    intro p
    have h1 : IdentDistrib (fun ω (q : {u : ℝ // u ∈ g} × κ) => Wb R q.1 ω p q.2)
        (fun ω (q : {u : ℝ // u ∈ g} × κ) => W' q.1 ω () q.2) P P' := by
      have q1 := wW.gauss.comp_right (fun q : {u : ℝ // u ∈ g} × κ => (q.1, p, q.2))
      have q2 := wW'.gauss.comp_right (fun q : {u : ℝ // u ∈ g} × κ => (q.1, (), q.2))
      refine ⟨(gauss_pi q1).aemeasurable, (gauss_pi q2).aemeasurable, gauss_law_eq q1 q2 (fun q => ?_) fun q q' => ?_⟩
      · exact (wW.mean _ q.1.2 p q.2).trans (wW'.mean _ q.1.2 () q.2).symm
      · have e1 := wW.cov _ q.1.2 _ q'.1.2 p p q.2 q'.2
        have e2 := wW'.cov _ q.1.2 _ q'.1.2 () () q.2 q'.2
        rw [if_pos rfl] at e1 e2
        exact e1.trans e2.symm
    have h2 : (fun ω => φ (X0 t ω)) = (fun w => φ (f w t)) ∘ fun ω (q : {u : ℝ // u ∈ g} × κ) => W' q.1 ω () q.2 := by
      funext ω
      exact congrArg φ (hfX g5 t htg ω)
    rw [hZ p, h2]
    exact h1.comp hmeas
  have hI : Pairwise fun p q => IndepFun (Z p) (Z q) P := by
    intro p q hpq
    simp only [hZ]
    exact (hind.indepFun hpq).comp hmeas hmeas
  haveI : Nonempty (Fin R × ι) := ⟨(⟨0, hR⟩, Classical.arbitrary ι)⟩
  have he : ∫ ω, (φ (X0 t ω) - φ (Y t ω)) ^ 2 ∂P' ≤ M ^ 2 * (K * δ) :=
    (lipschitz_meanSq hl hYl hM hφ).trans (mul_le_mul_of_nonneg_left hms (sq_nonneg M))
  obtain ⟨r1, r2⟩ := estimate_error hI hlaw (lipschitz_memLp hl hM hφ) (lipschitz_memLp hYl hM hφ) he
  have ecard : (Fintype.card (Fin R × ι) : ℝ) = R * Fintype.card ι := by
    rw [Fintype.card_prod, Fintype.card_fin, Nat.cast_mul]
  have esum : ∀ ω, ∑ p, Z p ω = ∑ r ∈ Finset.range R, ∑ i, φ fun k => X r t ω (i, k) := by
    intro ω
    rw [Fintype.sum_prod_type, Finset.sum_range]
  simp only [ecard, esum] at r1 r2
  exact ⟨r1, lipschitz_memLp hYl hM hφ, r2⟩

/-- The mean computed by `montecarlo`, for samples cumulated in turn. -/
theorem mean_of_samples {auto : String → Option (ℝ × ℝ) → List ℝ → Py (List ℝ)} (ha : AutoOk auto) {bins : Bins ℝ}
    {range : Option (ℝ × ℝ)} {vs c : List ℕ} (hc : InRange vs c) {N R : ℕ} (hN : 0 < N) (hR : 0 < R) {b : ℕ → Batch ℝ}
    {mc : MC ℝ} {v : ℕ → Fin N → ℝ} (hb : ∀ r < R, (b r).vshape = vs ∧ (b r).raw c = List.ofFn (v r))
    (h : McHistory auto bins range "all" ((List.range R).map b) mc) :
    ∃ m, mc.mean = some m ∧ m.shape = vs ∧
      m.get c = some ((∑ r ∈ Finset.range R, ∑ i, v r i) / (R * N)) := by
  obtain ⟨R, rfl⟩ : ∃ R', R = R' + 1 := ⟨R - 1, by omega⟩
  have hd : ∀ r < R + 1, (b r).data "all" c = List.ofFn (v r) := fun r hr => by
    rw [← (hb r hr).2]
    rfl
  have hu : Uniform vs ((List.range (R + 1)).map b) := by
    intro x hx
    obtain ⟨r, hr, rfl⟩ := List.mem_map.1 hx
    exact (hb r (List.mem_range.1 hr)).1
  have hne : NonEmpty "all" ((List.range (R + 1)).map b) := by
    intro x hx
    obtain ⟨r, hr, rfl⟩ := List.mem_map.1 hx
    have h1 := congrArg List.length (hb r (List.mem_range.1 hr)).2
    rw [List.length_ofFn] at h1
    have : (b r).size "all" = ((b r).raw c).length := by
      simp only [Batch.size, if_pos, Batch.rawSize, Batch.raw]
      split_ifs <;> simp
    omega
  have hpool : ∀ R' ≤ R + 1, (pooled "all" ((List.range R').map b) c).sum = ∑ r ∈ Finset.range R', ∑ i, v r i ∧
      (pooled "all" ((List.range R').map b) c).length = R' * N := by
    intro R' hR'
    induction R' with
    | zero => simp [pooled]
    | succ q ih =>
      obtain ⟨i1, i2⟩ := ih (by omega)
      have e : pooled "all" ((List.range (q + 1)).map b) c = pooled "all" ((List.range q).map b) c ++ List.ofFn (v q) := by
        rw [List.range_succ, List.map_append, pooled, List.flatMap_append, ← hd q (by omega)]
        simp [pooled]
      rw [e, List.sum_append, i1, List.length_append, i2, List.length_ofFn, List.sum_ofFn, Finset.sum_range_succ]
      exact ⟨rfl, by ring⟩
  rw [List.range_succ_eq_map, List.map_cons] at h hu hne
  obtain ⟨-, -, m, h1, h2, h3⟩ := C35_mean ha h hu hne
  refine ⟨m, h1, h2, ?_⟩
  have hp := hpool (R + 1) le_rfl
  rw [List.range_succ_eq_map, List.map_cons] at hp
  rw [h3 c hc, avg, hp.1, hp.2]
  push_cast
  rfl

/-- **C85** (`montecarlo`). The same, for the mean computed by `montecarlo`, in a component of the samples cumulated, one
for each run. -/
theorem C85_montecarlo (hC : CorrOk corr D F) (hone : ∀ u ∈ D, ∀ k, corrAt corr u k k = 1)
    {T L : ℝ} (hT : 0 ≤ T) (hTD : Set.Icc t0 (t0 + T) ⊆ D) (hL : LipschitzCoef a b t0 T L) (y0 : κ → ℝ) :
    ∃ K ≥ 0, ∀ {Ω O : Type} [MeasurableSpace Ω] {N : ℕ} {P : Measure Ω} [IsProbabilityMeasure P]
      {G : ℕ → Matrix κ κ ℝ → ℝ → ℝ → Ω → Fin N → κ → ℝ}, 0 < N → Draws P G → GaussianDraws P G →
      ∀ {S : SDE ℝ (Fin N × κ → ℝ) O ℕ (Ω × ℕ)} {x0 : Fin N × κ → ℝ},
      S.sources = [(idT, dtSource), (idW, noise G (corrAt corr))] →
      (∀ t x, S.sde t x = .ok (some [(idT, fun c => a t (fun k => x (c.1, k)) c.2),
        (idW, fun c => b t (fun k => x (c.1, k)) c.2)])) → S.init t0 = .ok x0 →
      (∀ c, (if S.log then S.logX x0 else x0) c = y0 c.2) →
      ∀ {Ω' : Type} [MeasurableSpace Ω'] {P' : Measure Ω'} [IsProbabilityMeasure P']
      {W : ℝ → Ω' → Unit → κ → ℝ} {Y : ℝ → Ω' → κ → ℝ},
      IsWienerProcess P' F t0 0 (Set.Icc t0 (t0 + T)) W →
      IsSolution P' a b t0 T y0 (fun u ω k => W u ω () k) Y →
      ∀ {fuel : ℕ} {steps : Steps ℝ} {i0 : ℤ} {tl : TArr ℝ} {grid : List ℝ} {δ : ℝ} (n : ℕ), 0 ≤ δ →
        Along fuel steps i0 tl grid t0 → (∀ u ∈ tl.data, u ∈ D) → Mesh grid δ →
        ∃ (X : ℕ → ℝ → Ω → Fin N × κ → ℝ) (ns : ℕ → ℕ), ns 0 = n ∧
          (∀ r ω, S.call fuel steps i0 tl (ω, ns r) = .ok (tl.data.map fun t => some
            (if S.log then S.expO (S.letX t (X r t ω)) else S.letX t (X r t ω)), (ω, ns (r + 1)))) ∧
          ∀ R > 0, ∀ t ∈ tl.data, t ∈ Set.Icc t0 (t0 + T) → ∀ (φ : (κ → ℝ) → ℝ) (M : ℝ), 0 ≤ M →
            (∀ x y, |φ x - φ y| ≤ M * √(∑ k, (x k - y k) ^ 2)) →
            ∀ {auto : String → Option (ℝ × ℝ) → List ℝ → Py (List ℝ)} {bins : Bins ℝ} {range : Option (ℝ × ℝ)}
              {vs c : List ℕ} {smp : Ω → ℕ → Batch ℝ} {mc : Ω → MC ℝ}, AutoOk auto → InRange vs c →
              (∀ ω, ∀ r < R, (smp ω r).vshape = vs ∧ (smp ω r).raw c = List.ofFn fun i => φ fun k => X r t ω (i, k)) →
              (∀ ω, McHistory auto bins range "all" ((List.range R).map (smp ω)) (mc ω)) →
              ∃ E : Ω → ℝ, (∀ ω, ∃ m, (mc ω).mean = some m ∧ m.shape = vs ∧ m.get c = some (E ω)) ∧ MemLp E 2 P ∧
                ∫ ω, (E ω - ∫ ω, φ (Y t ω) ∂P') ^ 2 ∂P ≤
                  2 * Var[fun ω => φ (Y t ω); P'] / (R * N) + 3 * (M ^ 2 * (K * δ)) := by
  obtain ⟨K, hK, h⟩ := C85_estimate hC hone hT hTD hL y0
  refine ⟨K, hK, ?_⟩
  intro Ω O _ N P _ G hN hG hJ S x0 hsrc hsde hinit hx0 Ω' _ P' _ W' Y hW' hY fuel steps i0 tl grid δ n hδ ha hD hm
  haveI : Nonempty (Fin N) := ⟨⟨0, hN⟩⟩
  obtain ⟨X, ns, e0, e1, e2⟩ := h hG hJ hsrc hsde hinit hx0 hW' hY n hδ ha hD hm
  refine ⟨X, ns, e0, e1, ?_⟩
  intro R hR t ht htI φ M hM hφ auto bins range vs c smp mc hau hc hs hmc
  obtain ⟨f1, -, f2⟩ := e2 R hR t ht htI φ M hM hφ
  rw [Fintype.card_fin] at f1 f2
  exact ⟨_, fun ω => mean_of_samples hau hc hN hR (hs ω) (hmc ω), f1, f2⟩

end

/-! ### Example -/

def exAuto : String → Option (ℝ × ℝ) → List ℝ → Py (List ℝ) := fun _ _ _ => .error .valueError

theorem exAuto_ok : AutoOk exAuto := fun _ _ _ _ h => by cases h

theorem exHistory (smp : ℕ → Batch ℝ) (hv : ∀ r, (smp r).vshape = []) (hok : ∀ r, (smp r).Valid "all") (R : ℕ) :
    ∃ mc, McHistory exAuto .none none "all" ((List.range R).map smp) mc := by
  induction R with
  | zero => exact ⟨_, .new⟩
  | succ R ih =>
    obtain ⟨mc, h⟩ := ih
    rw [List.range_succ, List.map_append, List.map_singleton]
    cases R with
    | zero =>
      obtain ⟨mc', h'⟩ := C36_accepts_first exAuto_ok (bins := .none) (range := none) (.inl rfl) (by simp) (hok 0)
      exact ⟨mc', .update .new h'⟩
    | succ R =>
      have hu : Uniform [] ((List.range (R + 1)).map smp) := by
        intro x hx
        obtain ⟨r, -, rfl⟩ := List.mem_map.1 hx
        exact hv r
      rw [List.range_succ_eq_map, List.map_cons] at h hu
      obtain ⟨mc', h'⟩ := C36_accepts exAuto_ok h hu (hv (R + 1)) (hok (R + 1))
      refine ⟨mc', ?_⟩
      rw [List.range_succ_eq_map, List.map_cons]
      exact .update h h'

/-- values of a function of simulated values, for three paths, as an array -/
def exSmp (v : Fin 3 → ℝ) : Batch ℝ := ⟨⟨[3], fun c => if h : c.getD 0 0 < 3 then v ⟨c.getD 0 0, h⟩ else 0⟩, 0⟩

/-- The geometric Brownian motions of the examples of C84, with three paths in each of two runs: the mean, by `montecarlo`,
of the absolute value at 2 of the second component. -/
example : ∃ (Ω : Type) (_ : MeasurableSpace Ω) (P : Measure Ω)
    (G : ℕ → Matrix (Fin 2) (Fin 2) ℝ → ℝ → ℝ → Ω → Fin 3 → Fin 2 → ℝ)
    (Ω' : Type) (_ : MeasurableSpace Ω') (P' : Measure Ω')
    (W Y : ℝ → Ω' → Fin 2 → ℝ) (X : ℕ → ℝ → Ω → Fin 3 × Fin 2 → ℝ) (K : ℝ) (ns : ℕ → ℕ) (mc : Ω → MC ℝ) (E : Ω → ℝ),
    IsSolution P' (fun _ x k => 1 / 20 * x k) (fun _ x k => 1 / 5 * x k) 1 1 (fun _ => 10) W Y ∧
    (∀ r ω, (exGbm (noise G fun _ => !![1, 1 / 2; 1 / 2, 1])).call 10 .none 0 ⟨[3], [1, 3 / 2, 2]⟩ (ω, ns r) =
      .ok ([some (X r 1 ω), some (X r (3 / 2) ω), some (X r 2 ω)], (ω, ns (r + 1)))) ∧
    (∀ ω, McHistory exAuto .none none "all" ((List.range 2).map fun r => exSmp fun i => |X r 2 ω (i, 1)|) (mc ω)) ∧
    (∀ ω, ∃ m, (mc ω).mean = some m ∧ m.shape = [] ∧ m.get [] = some (E ω)) ∧
    ∫ ω, (E ω - ∫ ω, |Y 2 ω 1| ∂P') ^ 2 ∂P ≤ 2 * Var[fun ω => |Y 2 ω 1|; P'] / 6 + 3 * (K * (1 / 2)) := by
  obtain ⟨Ω, mΩ, P, N0, N, hP, -, -, hN, -, hJ⟩ := exists_rng
  have hN' : Normals P (fun n c ω (i : Fin 3) => N 2 n c ω [i.1]) :=
    ⟨fun n c i => (hN 2).l2 n c _, fun n c i => (hN 2).mean n c _, fun n c i j hc => by
      rw [(hN 2).cov n c _ _ hc]
      simp [Fin.ext_iff], fun n c i m c' j h => (hN 2).uncorr n c _ m c' _ h⟩
  have hJ' : JointlyGaussian P (fun n c ω (i : Fin 3) => N 2 n c ω [i.1]) :=
    gauss_of_affSpan (hJ 2) fun p => affSpan_draw
      (fun (p : ℕ × Matrix (Fin 2) (Fin 2) ℝ × List ℕ × Fin 2) ω => N 2 p.1 p.2.1 ω p.2.2.1 p.2.2.2)
      (p.1, p.2.1, [p.2.2.1.1], p.2.2.2)
  obtain ⟨Ω', mΩ', P', W, hP', hW⟩ := exists_wiener (ι := Unit) exPosSemidef 1 0
  have hWI := hW.mono (D' := Set.Icc 1 (1 + 1)) (Set.subset_univ _)
  have hD := drives_unit (drives_of_wiener (t1 := 1) hWI le_rfl (by
    intro s _ t _ k
    rw [Matrix.smul_apply, Matrix.smul_apply, smul_eq_mul, smul_eq_mul, ← sub_mul]
    fin_cases k <;> simp))
  obtain ⟨K0, hK0, h⟩ := exists_solution (ι := Fin 2) zero_le_one (exLipschitz (1 / 20) (1 / 5) 1 1) fun _ => 10
  obtain ⟨Y, hY, -⟩ := h hD
  obtain ⟨K, -, h⟩ := C85_montecarlo (t0 := 1) (T := 1) (D := Set.univ)
    (corr := .const !![1, 1 / 2; 1 / 2, 1]) (corrOk_const exPosSemidef)
    (by intro u _ k; fin_cases k <;> simp [corrAt]) zero_le_one (Set.subset_univ _)
    (exLipschitz (1 / 20) (1 / 5) 1 1) (fun _ : Fin 2 => 10)
  obtain ⟨X, ns, -, e1, e2⟩ := h (N := 3) (by norm_num) (draws_of_normals hN') (gaussianDraws_of_jointly hJ')
    (S := exGbm _) rfl (fun _ _ => rfl) rfl (fun _ => rfl) hWI hY (δ := 1 / 2) 0 (by norm_num) exAlongS
    (fun _ _ => trivial) (by
      intro a ha b hb hab hn
      simp at ha hb
      rcases ha with rfl | rfl | rfl <;> rcases hb with rfl | rfl | rfl <;> try norm_num
      exact absurd (hn (3 / 2) (by simp)) (by norm_num))
  choose mc hmc using fun ω => exHistory (fun r => exSmp fun i => |X r 2 ω (i, 1)|) (fun r => rfl)
    (fun r => ⟨by simp [exSmp], by simp [exSmp], .inl rfl⟩) 2
  obtain ⟨E, f1, -, f2⟩ := e2 2 (by norm_num) 2 (by simp) (by norm_num) (fun x => |x 1|) 1 zero_le_one (fun x y => by
    rw [one_mul]
    refine (abs_abs_sub_abs_le_abs_sub _ _).trans (Real.le_sqrt_of_sq_le ?_)
    rw [sq_abs]
    exact Finset.single_le_sum (f := fun c => (x c - y c) ^ 2) (fun p _ => sq_nonneg _) (Finset.mem_univ 1))
    exAuto_ok (vs := []) (c := []) (by simp [InRange]) (fun ω r _ => ⟨rfl, by
      simp [exSmp, Batch.raw, Batch.ax, List.ofFn_succ, List.range_succ]⟩) hmc
  refine ⟨Ω, mΩ, P, _, Ω', mΩ', P', _, Y, X, K, ns, mc, E, hY, e1, hmc, f1, f2.trans (le_of_eq ?_)⟩
  norm_num

end Sdepy
