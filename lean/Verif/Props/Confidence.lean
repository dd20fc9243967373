import Verif.Lemmas.Confidence
import Verif.Props.PathsMC
import Verif.Props.Variances

/-!
# Property C106: confidence intervals from `mean` and `stderr`
-/

set_option linter.unusedSectionVars false

open MeasureTheory ProbabilityTheory Filter Topology

namespace Sdepy

open Spec

section
variable {Ω : Type} [MeasurableSpace Ω] {P : Measure Ω} [IsProbabilityMeasure P]
  {auto : String → Option (ℝ × ℝ) → List ℝ → Py (List ℝ)} {bins : Bins ℝ} {range : Option (ℝ × ℝ)} {use : String}
  {vs c : List ℕ}

/-- What instances report, of the average and the standard error of the values cumulated. -/
theorem cumulates_interval (ha : AutoOk auto) {mc : Ω → MC ℝ} {N : ℕ} {X : ℕ → Ω → ℝ}
    (h : Cumulates auto bins range use vs c mc N X) (ω : Ω) :
    (∃ a, (mc ω).mean = some a ∧ a.get c = some (avgTo X N ω)) ∧
    (2 ≤ N → ∃ a, (mc ω).stderr = .ok a ∧ a.get c = some (errTo X N ω)) :=
  ⟨(cumulates_values ha h ω).2.2.1, (cumulates_values ha h ω).2.2.2.2⟩

/-- **C106** (intervals). Let `montecarlo` instances cumulate more and more values that are independent and of the same
law, with mean `m` and a variance that is not zero. The probability that the mean reported exceeds `m` by at most `z`
times the standard error reported tends to the probability that a standard normal variable is at most `z`; the
probability that it differs from `m` by at most that much tends to the probability that a standard normal variable is
between `-z` and `z`. -/
theorem C106_interval (ha : AutoOk auto) {mc : ℕ → Ω → MC ℝ} {N : ℕ → ℕ} {X : ℕ → Ω → ℝ} {m : ℝ}
    (h : ∀ n, Cumulates auto bins range use vs c (mc n) (N n) X) (hN : Tendsto N atTop atTop)
    (hX : MemLp (X 0) 2 P) (hv : Var[X 0; P] ≠ 0) (hm : m = ∫ ω, X 0 ω ∂P) (hi : iIndepFun X P)
    (hd : ∀ i, IdentDistrib (X i) (X 0) P P) :
    ∃ M D : ℕ → Ω → ℝ, (∀ n ω, (∃ a, (mc n ω).mean = some a ∧ a.get c = some (M n ω)) ∧
        (2 ≤ N n → ∃ a, (mc n ω).stderr = .ok a ∧ a.get c = some (D n ω))) ∧
      ∀ z : ℝ, Tendsto (fun n => P.real {ω | M n ω - m ≤ z * D n ω}) atTop (𝓝 ((gaussianReal 0 1).real (Set.Iic z))) ∧
        Tendsto (fun n => P.real {ω | |M n ω - m| ≤ z * D n ω}) atTop
          (𝓝 ((gaussianReal 0 1).real (Set.Icc (-z) z))) := by
  subst hm
  refine ⟨fun n => avgTo X (N n), fun n => errTo X (N n), fun n ω => cumulates_interval ha (h n) ω, fun z => ?_⟩
  obtain ⟨h1, h2⟩ := confidence hX hv hi hd z
  exact ⟨h1.comp hN, h2.comp hN⟩

end

/-- Values of many runs, independent and of the same law, one run after the other. -/
theorem interval_runs {σ : Type} {N : ℕ} [MeasurableSpace σ] {μ : Measure σ} [IsProbabilityMeasure μ] (hN : 0 < N)
    {U : ℕ → σ → Fin N → ℝ} (hd : ∀ p p' : ℕ × Fin N, IdentDistrib (fun s => U p.1 s p.2) (fun s => U p'.1 s p'.2) μ μ)
    (hI : iIndepFun (fun (p : ℕ × Fin N) s => U p.1 s p.2) μ) (i : Fin N)
    (hi : MemLp (fun s => U 0 s i) 2 μ) {m : ℝ} (hm : m = ∫ s, U 0 s i ∂μ)
    {auto : String → Option (ℝ × ℝ) → List ℝ → Py (List ℝ)} {bins : Bins ℝ} {range : Option (ℝ × ℝ)}
    {vs c : List ℕ} {smp : σ → ℕ → Batch ℝ} (hau : AutoOk auto) (hc : InRange vs c)
    (hs : ∀ s r, (smp s r).vshape = vs ∧ (smp s r).raw c = List.ofFn (U r s)) {mc : ℕ → σ → MC ℝ}
    (hmc : ∀ R s, McHistory auto bins range "all" ((List.range (R + 1)).map (smp s)) (mc R s)) :
    ∃ M D : ℕ → σ → ℝ, (∀ R s, (∃ a, (mc R s).mean = some a ∧ a.get c = some (M R s)) ∧
        (2 ≤ (R + 1) * N → ∃ a, (mc R s).stderr = .ok a ∧ a.get c = some (D R s))) ∧
      (Var[fun s => U 0 s i; μ] ≠ 0 → ∀ z : ℝ,
        Tendsto (fun R => μ.real {s | M R s - m ≤ z * D R s}) atTop (𝓝 ((gaussianReal 0 1).real (Set.Iic z))) ∧
        Tendsto (fun R => μ.real {s | |M R s - m| ≤ z * D R s}) atTop
          (𝓝 ((gaussianReal 0 1).real (Set.Icc (-z) z)))) ∧
      ∀ z : ℝ, ∀ ε > 0, ∀ᶠ R in atTop, (gaussianReal 0 1).real (Set.Icc (-z) z) - ε ≤
        μ.real {s | |M R s - m| ≤ z * D R s} := by
  let f : ℕ → ℕ × Fin N := fun k => (k / N, ⟨k % N, Nat.mod_lt k hN⟩)
  have hf : Function.Injective f := by
    intro k k' h
    rw [Prod.mk.injEq, Fin.mk.injEq] at h
    rw [← Nat.div_add_mod k N, ← Nat.div_add_mod k' N, h.1, h.2]
  let F : ℕ → σ → ℝ := fun k s => U (f k).1 s (f k).2
  have hFI : iIndepFun F μ := hI.precomp hf
  have hid : ∀ k, IdentDistrib (F k) (fun s => U 0 s i) μ μ := fun k => hd (f k) (0, i)
  have hid0 : ∀ k, IdentDistrib (F k) (F 0) μ μ := fun k => (hid k).trans (hid 0).symm
  have hF0 : MemLp (F 0) 2 μ := (hid 0).memLp_iff.2 hi
  have hm0 : m = ∫ s, F 0 s ∂μ := by rw [hm]; exact (hid 0).symm.integral_eq
  have hcum := fun R => cumulates_runs hc hN R.succ_pos (v := fun s r => U r s) (fun s r _ => hs s r) (hmc R)
  have hlim : Tendsto (fun R : ℕ => (R + 1) * N) atTop atTop := tendsto_atTop_mono (fun R => by
    show R ≤ (R + 1) * N
    nlinarith) tendsto_id
  refine ⟨fun R => avgTo F ((R + 1) * N), fun R => errTo F ((R + 1) * N), fun R s => cumulates_interval hau (hcum R) s,
    fun hv z => ?_, fun z ε hε => ?_⟩
  · rw [hm0]
    rw [← (hid 0).variance_eq] at hv
    obtain ⟨h1, h2⟩ := confidence hF0 hv hFI hid0 z
    exact ⟨h1.comp hlim, h2.comp hlim⟩
  · rw [hm0]
    exact hlim.eventually (confidence_ge hF0 hFI hid0 z hε)

section
variable {κ : Type} [Fintype κ] {ids : Finset ℕ} {a : ℕ → ℝ → (κ → ℝ) → κ → ℝ} {t0 : ℝ}

/-- **C106** (simulations). A simulation of an equation with any number of sources of noise, as in C103, is repeated, each
run starting from the state of the random generator left by the previous one. The values, for each path, of a
function `φ` of the values simulated for all times of the timeline are cumulated in `montecarlo` instances, one sample for
each run. Let `m` be the mean of the function along a path, its variance not being zero. As runs are cumulated, the
probability that the mean reported exceeds `m` by at most `z` times the standard error reported tends to the one that a
standard normal variable is at most `z`; the probability that it differs from `m` by at most that much tends to the one
that a standard normal variable is between `-z` and `z`. -/
theorem C106_simulation [Nonempty {id // id ∈ ids.erase idT}] {T L : ℝ} (hT : 0 ≤ T)
    (hL : LipschitzCoefs (a idT) (fun j : {id // id ∈ ids.erase idT} => a j.1) t0 T L) (y0 : κ → ℝ)
    {law : ℕ → ℝ → Measure (κ → ℝ)} (hpr : ∀ j ∈ ids.erase idT, ∀ h > 0, IsProbabilityMeasure (law j h))
    {σ C O : Type} {N : ℕ} [MeasurableSpace σ] [Fintype C] {μ : Measure σ}
    [IsProbabilityMeasure μ] (e : C ≃ Fin N × κ) {S : SDE ℝ (C → ℝ) O ℕ σ} {x0 : C → ℝ} (hN : 0 < N)
    (hS : SDEOk S) (hdt : S.sources.lookup idT = some dtSource) (hids : (equation S).ids = ids)
    (hcoef : ∀ t x, (equation S).coef t x = .ok fun id p => a id t (fun k => x (e.symm ((e p).1, k))) (e p).2)
    (hinit : S.init t0 = .ok x0) (hx0 : ∀ p, (if S.log then S.logX x0 else x0) p = y0 (e p).2)
    (hdraw : (equation S).DrawsNoise idT μ (fun j h => pathsLaw e (law j.1 h)))
    {fuel : ℕ} {steps : Steps ℝ} {i0 : ℤ} {tl : TArr ℝ} {grid : List ℝ}
    (ha : Along fuel steps i0 tl grid t0) :
    ∃ (X : ℕ → ℝ → σ → C → ℝ) (ss : ℕ → σ → σ), (∀ s, ss 0 s = s) ∧
      (∀ r s, S.call fuel steps i0 tl (ss r s) = .ok (tl.data.map fun t => some
        (if S.log then S.expO (S.letX t (X r t s)) else S.letX t (X r t s)), ss (r + 1) s)) ∧
      (∀ r i, AEMeasurable (fun s (t : {t : ℝ // t ∈ tl.data ∧ t ∈ Set.Icc t0 (t0 + T)}) k => X r t s (e.symm (i, k))) μ) ∧
      ∀ (φ : ({t : ℝ // t ∈ tl.data ∧ t ∈ Set.Icc t0 (t0 + T)} → κ → ℝ) → ℝ), Measurable φ → ∀ (i : Fin N),
        MemLp (fun s => φ fun t k => X 0 t s (e.symm (i, k))) 2 μ →
        Var[fun s => φ fun t k => X 0 t s (e.symm (i, k)); μ] ≠ 0 → ∀ {m : ℝ},
        m = ∫ s, φ (fun t k => X 0 t s (e.symm (i, k))) ∂μ →
        ∀ {auto : String → Option (ℝ × ℝ) → List ℝ → Py (List ℝ)} {bins : Bins ℝ} {range : Option (ℝ × ℝ)}
          {vs c : List ℕ} {smp : σ → ℕ → Batch ℝ}, AutoOk auto → InRange vs c →
          (∀ s r, (smp s r).vshape = vs ∧
            (smp s r).raw c = List.ofFn fun i => φ fun t k => X r t s (e.symm (i, k))) →
          ∀ {mc : ℕ → σ → MC ℝ},
            (∀ R s, McHistory auto bins range "all" ((List.range (R + 1)).map (smp s)) (mc R s)) →
            ∃ M D : ℕ → σ → ℝ, (∀ R s, (∃ a, (mc R s).mean = some a ∧ a.get c = some (M R s)) ∧
                (2 ≤ (R + 1) * N → ∃ a, (mc R s).stderr = .ok a ∧ a.get c = some (D R s))) ∧
              ∀ z : ℝ,
                Tendsto (fun R => μ.real {s | M R s - m ≤ z * D R s}) atTop (𝓝 ((gaussianReal 0 1).real (Set.Iic z))) ∧
                Tendsto (fun R => μ.real {s | |M R s - m| ≤ z * D R s}) atTop
                  (𝓝 ((gaussianReal 0 1).real (Set.Icc (-z) z))) := by
  obtain ⟨X, ss, e0, e1, hd, hI⟩ := C103_paths hT hL y0 hpr e hS hdt hids hcoef hinit hx0 hdraw ha
  refine ⟨X, ss, e0, e1, fun r i => (hd (r, i) (r, i)).aemeasurable_fst, ?_⟩
  intro φ hφ i hi hv m hm auto bins range vs c smp hau hc hs mc hmc
  obtain ⟨M, D, h1, h2, -⟩ := interval_runs hN (U := fun r s i => φ fun t k => X r t s (e.symm (i, k)))
    (fun p p' => (hd p p').comp hφ) (hI.comp _ fun _ => hφ) i hi hm hau hc hs hmc
  exact ⟨M, D, h1, h2 hv⟩

/-- **C106** (solutions). The same, for a function `φ` of the values simulated for a time `t` of the timeline, that is
Lipschitz of constant `B`: if the interval of `z` standard errors around the mean reported is extended by `B*√(K*δ)` at
both ends, where `δ` is the longest step, the probability that it contains the mean of the function of the solution
is, in the limit of many runs, at least the one that a standard normal variable is between `-z` and `z`. `K` only depends
on the equation of a single path, on its noise and initial values, and on `T`. -/
theorem C106_solution [Nonempty {id // id ∈ ids.erase idT}] {T L : ℝ} (hT : 0 < T)
    (hL : LipschitzCoefs (a idT) (fun j : {id // id ∈ ids.erase idT} => a j.1) t0 T L) (y0 : κ → ℝ)
    {law : ℕ → ℝ → Measure (κ → ℝ)} (hpr : ∀ j ∈ ids.erase idT, ∀ h > 0, IsProbabilityMeasure (law j h))
    {m v : ℕ → ℝ} (hv : ∀ j ∈ ids.erase idT, 0 < v j) (hmo : ∀ j ∈ ids.erase idT, HasMoments (law j) (m j) (v j)) :
    ∃ K ≥ 0, ∀ {σ C O : Type} {N : ℕ} [MeasurableSpace σ] [Fintype C] {μ : Measure σ}
      [IsProbabilityMeasure μ] (e : C ≃ Fin N × κ) {S : SDE ℝ (C → ℝ) O ℕ σ} {x0 : C → ℝ}, 0 < N →
      SDEOk S → S.sources.lookup idT = some dtSource → (equation S).ids = ids →
      (∀ t x, (equation S).coef t x = .ok fun id p => a id t (fun k => x (e.symm ((e p).1, k))) (e p).2) →
      S.init t0 = .ok x0 → (∀ p, (if S.log then S.logX x0 else x0) p = y0 (e p).2) →
      (equation S).DrawsNoise idT μ (fun j h => pathsLaw e (law j.1 h)) →
      ∀ {Ω : Type} [MeasurableSpace Ω] {P : Measure Ω} [IsProbabilityMeasure P]
      {Z : ℝ → Ω → {id // id ∈ ids.erase idT} → κ → ℝ} {Y : ℝ → Ω → κ → ℝ},
      Increments P t0 (Set.Icc t0 (t0 + T)) (fun h => Measure.pi fun j : {id // id ∈ ids.erase idT} => law j.1 h) Z →
      Solves P (a idT) (fun j : {id // id ∈ ids.erase idT} => a j.1) t0 T y0 (fun u ω p => Z u ω p.1 p.2) Y →
      ∀ {fuel : ℕ} {steps : Steps ℝ} {i0 : ℤ} {tl : TArr ℝ} {grid : List ℝ} {δ : ℝ}, 0 ≤ δ →
        Along fuel steps i0 tl grid t0 → Mesh grid δ →
        ∃ (X : ℕ → ℝ → σ → C → ℝ) (ss : ℕ → σ → σ), (∀ s, ss 0 s = s) ∧
          (∀ r s, S.call fuel steps i0 tl (ss r s) = .ok (tl.data.map fun t => some
            (if S.log then S.expO (S.letX t (X r t s)) else S.letX t (X r t s)), ss (r + 1) s)) ∧
          ∀ t ∈ tl.data, t ∈ Set.Icc t0 (t0 + T) → ∀ (φ : (κ → ℝ) → ℝ) (B : ℝ), 0 ≤ B →
            (∀ x y, |φ x - φ y| ≤ B * √(∑ k, (x k - y k) ^ 2)) →
            ∀ {auto : String → Option (ℝ × ℝ) → List ℝ → Py (List ℝ)} {bins : Bins ℝ} {range : Option (ℝ × ℝ)}
              {vs c : List ℕ} {smp : σ → ℕ → Batch ℝ}, AutoOk auto → InRange vs c →
              (∀ s r, (smp s r).vshape = vs ∧
                (smp s r).raw c = List.ofFn fun i => φ fun k => X r t s (e.symm (i, k))) →
              ∀ {mc : ℕ → σ → MC ℝ},
              (∀ R s, McHistory auto bins range "all" ((List.range (R + 1)).map (smp s)) (mc R s)) →
              ∃ M D : ℕ → σ → ℝ, (∀ R s, (∃ a, (mc R s).mean = some a ∧ a.get c = some (M R s)) ∧
                  (2 ≤ (R + 1) * N → ∃ a, (mc R s).stderr = .ok a ∧ a.get c = some (D R s))) ∧
                ∀ z : ℝ, ∀ ε > 0, ∀ᶠ R in atTop, (gaussianReal 0 1).real (Set.Icc (-z) z) - ε ≤
                  μ.real {s | |M R s - ∫ ω, φ (Y t ω) ∂P| ≤ z * D R s + B * √(K * δ)} := by
  obtain ⟨K, hK, hclose⟩ := solution_close_all hT.le hL y0 (fun j => m j.1) (v := fun j => v j.1) fun j => hv j.1 j.2
  refine ⟨K, hK, ?_⟩
  intro σ C O N _ _ μ _ e S x0 hN hS hdt hids hcoef hinit hx0 hdraw Ω _ P _ Z' Y hZ' hY fuel steps i0 tl grid δ hδ ha hm
  have hprob : ∀ (j : {id // id ∈ ids.erase idT}) h, 0 < h → IsProbabilityMeasure (law j.1 h) :=
    fun j h hh => hpr j.1 j.2 h hh
  have hNo := noises_of_increments hprob (fun j => hmo j.1 j.2) hZ'
  obtain ⟨X, ss, g, e0, e1, g1, g2, gI, g4, g5, hd, hI, hlink⟩ :=
    paths_of_scheme hT.le hL y0 hpr e hS hdt hids hcoef hinit hx0 hdraw ha hm
  obtain ⟨X0, hX0, hid⟩ := hlink hZ'
  refine ⟨X, ss, e0, e1, ?_⟩
  intro t ht htI φ B hB hφ auto bins range vs c smp hau hc hs mc hmc
  have htg := g5 t ht htI
  obtain ⟨hl, hms⟩ := hclose hNo hY hδ g1 g2 gI g4 hX0 t htg
  have hYl := hY.memLp t htI
  have hψ : Measurable fun w : {t : ℝ // t ∈ g} → κ → ℝ => φ (w ⟨t, htg⟩) :=
    (lipschitz_continuous hφ).measurable.comp (measurable_pi_apply _)
  have hid0 : IdentDistrib (fun s => φ fun k => X 0 t s (e.symm (⟨0, hN⟩, k))) (fun ω => φ (X0 t ω)) μ P :=
    (hid (0, ⟨0, hN⟩)).comp hψ
  have hφX := lipschitz_memLp hl hB hφ
  have hφY := lipschitz_memLp hYl hB hφ
  obtain ⟨M, D, h1, -, h2⟩ := interval_runs hN (U := fun r s i => φ fun k => X r t s (e.symm (i, k)))
    (fun p p' => (hd p p').comp hψ) (hI.comp _ fun _ => hψ) ⟨0, hN⟩ (hid0.memLp_iff.2 hφX) rfl hau hc hs hmc
  have hbias : |∫ s, φ (fun k => X 0 t s (e.symm (⟨0, hN⟩, k))) ∂μ - ∫ ω, φ (Y t ω) ∂P| ≤ B * √(K * δ) := by
    rw [hid0.integral_eq, ← integral_sub (hφX.integrable (by norm_num)) (hφY.integrable (by norm_num))]
    have e2 : ∫ ω, (φ (X0 t ω) - φ (Y t ω)) ^ 2 ∂P ≤ B ^ 2 * (K * δ) :=
      (lipschitz_meanSq hl hYl hB hφ).trans (mul_le_mul_of_nonneg_left hms (sq_nonneg B))
    have e3 := sq_error_eq 0 (hφX.sub hφY)
    simp only [sub_zero, Pi.sub_apply] at e3
    have e4 := variance_nonneg (fun ω => φ (X0 t ω) - φ (Y t ω)) P
    refine abs_le_of_sq_le_sq ?_ (by positivity)
    rw [mul_pow, Real.sq_sqrt (by positivity)]
    have e5 : Var[(fun ω => φ (X0 t ω)) - fun ω => φ (Y t ω); P] = Var[fun ω => φ (X0 t ω) - φ (Y t ω); P] := rfl
    rw [e5] at e3
    linarith
  refine ⟨M, D, h1, fun z ε hε => ?_⟩
  filter_upwards [h2 z ε hε] with R hR
  refine hR.trans (measureReal_mono fun s hs => ?_)
  simp only [Set.mem_setOf_eq] at hs ⊢
  exact (abs_sub_le _ _ _).trans (add_le_add hs hbias)

/-- **C106** (means). If the drift, once increments of noise are replaced by their means, is affine, then for the mean of
a component of the values simulated for a time of the timeline it is enough to extend the interval by `K*δ`. -/
theorem C106_means [Nonempty {id // id ∈ ids.erase idT}] {T L M : ℝ} (hT : 0 < T)
    (hL : LipschitzCoefs (a idT) (fun j : {id // id ∈ ids.erase idT} => a j.1) t0 T L) (y0 : κ → ℝ)
    {law : ℕ → ℝ → Measure (κ → ℝ)} (hpr : ∀ j ∈ ids.erase idT, ∀ h > 0, IsProbabilityMeasure (law j h))
    {m v : ℕ → ℝ} (hv : ∀ j ∈ ids.erase idT, 0 < v j) (hmo : ∀ j ∈ ids.erase idT, HasMoments (law j) (m j) (v j))
    (hA : ∀ t ∈ Set.Icc t0 (t0 + T),
      IsAffineIn (meanDrift (a idT) (fun j : {id // id ∈ ids.erase idT} => a j.1) (fun j => m j.1) t))
    (hM : LipschitzField (meanDrift (a idT) (fun j : {id // id ∈ ids.erase idT} => a j.1) fun j => m j.1) t0 T M) :
    ∃ K ≥ 0, ∀ {σ C O : Type} {N : ℕ} [MeasurableSpace σ] [Fintype C] {μ : Measure σ}
      [IsProbabilityMeasure μ] (e : C ≃ Fin N × κ) {S : SDE ℝ (C → ℝ) O ℕ σ} {x0 : C → ℝ}, 0 < N →
      SDEOk S → S.sources.lookup idT = some dtSource → (equation S).ids = ids →
      (∀ t x, (equation S).coef t x = .ok fun id p => a id t (fun k => x (e.symm ((e p).1, k))) (e p).2) →
      S.init t0 = .ok x0 → (∀ p, (if S.log then S.logX x0 else x0) p = y0 (e p).2) →
      (equation S).DrawsNoise idT μ (fun j h => pathsLaw e (law j.1 h)) →
      ∀ {Ω : Type} [MeasurableSpace Ω] {P : Measure Ω} [IsProbabilityMeasure P]
      {Z : ℝ → Ω → {id // id ∈ ids.erase idT} → κ → ℝ} {Y : ℝ → Ω → κ → ℝ},
      Increments P t0 (Set.Icc t0 (t0 + T)) (fun h => Measure.pi fun j : {id // id ∈ ids.erase idT} => law j.1 h) Z →
      Solves P (a idT) (fun j : {id // id ∈ ids.erase idT} => a j.1) t0 T y0 (fun u ω p => Z u ω p.1 p.2) Y →
      ∀ {fuel : ℕ} {steps : Steps ℝ} {i0 : ℤ} {tl : TArr ℝ} {grid : List ℝ} {δ : ℝ}, 0 ≤ δ →
        Along fuel steps i0 tl grid t0 → Mesh grid δ →
        ∃ (X : ℕ → ℝ → σ → C → ℝ) (ss : ℕ → σ → σ), (∀ s, ss 0 s = s) ∧
          (∀ r s, S.call fuel steps i0 tl (ss r s) = .ok (tl.data.map fun t => some
            (if S.log then S.expO (S.letX t (X r t s)) else S.letX t (X r t s)), ss (r + 1) s)) ∧
          ∀ t ∈ tl.data, t ∈ Set.Icc t0 (t0 + T) → ∀ k : κ,
            ∀ {auto : String → Option (ℝ × ℝ) → List ℝ → Py (List ℝ)} {bins : Bins ℝ} {range : Option (ℝ × ℝ)}
              {vs c : List ℕ} {smp : σ → ℕ → Batch ℝ}, AutoOk auto → InRange vs c →
              (∀ s r, (smp s r).vshape = vs ∧ (smp s r).raw c = List.ofFn fun i => X r t s (e.symm (i, k))) →
              ∀ {mc : ℕ → σ → MC ℝ},
              (∀ R s, McHistory auto bins range "all" ((List.range (R + 1)).map (smp s)) (mc R s)) →
              ∃ M D : ℕ → σ → ℝ, (∀ R s, (∃ a, (mc R s).mean = some a ∧ a.get c = some (M R s)) ∧
                  (2 ≤ (R + 1) * N → ∃ a, (mc R s).stderr = .ok a ∧ a.get c = some (D R s))) ∧
                ∀ z : ℝ, ∀ ε > 0, ∀ᶠ R in atTop, (gaussianReal 0 1).real (Set.Icc (-z) z) - ε ≤
                  μ.real {s | |M R s - ∫ ω, Y t ω k ∂P| ≤ z * D R s + K * δ} := by
  obtain ⟨y, hy⟩ := exists_ode hM hT y0
  obtain ⟨K, hK, herr⟩ := ode_error hM hT hy
  have hv' : ∀ j : {id // id ∈ ids.erase idT}, 0 < v j.1 := fun j => hv j.1 j.2
  obtain ⟨K2, hK2, hclose⟩ := solution_close_all hT.le hL y0 (fun j => m j.1) (v := fun j => v j.1) hv'
  refine ⟨K, hK, ?_⟩
  intro σ C O N _ _ μ _ e S x0 hN hS hdt hids hcoef hinit hx0 hdraw Ω _ P _ Z' Y hZ' hY fuel steps i0 tl grid δ hδ ha hm
  have hprob : ∀ (j : {id // id ∈ ids.erase idT}) h, 0 < h → IsProbabilityMeasure (law j.1 h) :=
    fun j h hh => hpr j.1 j.2 h hh
  have hNo := noises_of_increments hprob (fun j => hmo j.1 j.2) hZ'
  obtain ⟨X, ss, g, e0, e1, g1, g2, gI, g4, g5, hd, hI, hlink⟩ :=
    paths_of_scheme hT.le hL y0 hpr e hS hdt hids hcoef hinit hx0 hdraw ha hm
  obtain ⟨X0, hX0, hid⟩ := hlink hZ'
  refine ⟨X, ss, e0, e1, ?_⟩
  intro t ht htI k auto bins range vs c smp hau hc hs mc hmc
  have htg := g5 t ht htI
  obtain ⟨hl, -⟩ := hclose hNo hY hδ g1 g2 gI g4 hX0 t htg
  have hψ : Measurable fun w : {t : ℝ // t ∈ g} → κ → ℝ => w ⟨t, htg⟩ k :=
    (measurable_pi_apply k).comp (measurable_pi_apply _)
  have hid0 : IdentDistrib (fun s => X 0 t s (e.symm (⟨0, hN⟩, k))) (fun ω => X0 t ω k) μ P :=
    (hid (0, ⟨0, hN⟩)).comp hψ
  obtain ⟨M, D, h1, -, h2⟩ := interval_runs hN (U := fun r s i => X r t s (e.symm (i, k)))
    (fun p p' => (hd p p').comp hψ) (hI.comp _ fun _ => hψ) ⟨0, hN⟩ (hid0.memLp_iff.2 (hl k)) rfl hau hc hs hmc
  have hbias : |∫ s, X 0 t s (e.symm (⟨0, hN⟩, k)) ∂μ - ∫ ω, Y t ω k ∂P| ≤ K * δ := by
    rw [hid0.integral_eq, solution_mean hT hL hv' hA hM hy hNo hY htI k]
    have h := herr g1 g2 hδ g4 (means_euler hT.le hL hv' hNo hA g1 g2 gI hX0) t htg ⟨by linarith [htI.1], htI.2⟩
    have := (norm_le_pi_norm _ k).trans h
    simpa only [Real.norm_eq_abs, Pi.sub_apply] using this
  refine ⟨M, D, h1, fun z ε hε => ?_⟩
  filter_upwards [h2 z ε hε] with R hR
  refine hR.trans (measureReal_mono fun s hs => ?_)
  simp only [Set.mem_setOf_eq] at hs ⊢
  exact (abs_sub_le _ _ _).trans (add_le_add hs hbias)

end

/-! ### Examples -/

/-- Independent standard normal variables, cumulated `n + 1` at a time. -/
example : ∃ (mc : ℕ → (ℕ → ℝ) → MC ℝ) (M D : ℕ → (ℕ → ℝ) → ℝ),
    (∀ n ω, (∃ a, (mc n ω).mean = some a ∧ a.get [] = some (M n ω)) ∧
      (2 ≤ n + 1 → ∃ a, (mc n ω).stderr = .ok a ∧ a.get [] = some (D n ω))) ∧
    Tendsto (fun n => (Measure.infinitePi fun _ : ℕ => gaussianReal 0 1).real {ω | |M n ω - 0| ≤ 2 * D n ω}) atTop
      (𝓝 ((gaussianReal 0 1).real (Set.Icc (-2) 2))) := by
  choose mc hmc using fun n : ℕ => exists_cumulates (auto := fun _ _ _ => .error .valueError) noAutoR_ok n.succ_pos
    (fun k (ω : ℕ → ℝ) => ω k)
  have hl : ∀ k : ℕ, HasLaw (fun ω : ℕ → ℝ => ω k) (gaussianReal 0 1) (Measure.infinitePi fun _ : ℕ => gaussianReal 0 1) :=
    fun k => ⟨(measurable_pi_apply k).aemeasurable, Measure.infinitePi_map_eval _ k⟩
  obtain ⟨M, D, h1, h2⟩ := C106_interval (P := Measure.infinitePi fun _ : ℕ => gaussianReal 0 1)
    (X := fun k ω => ω k) (m := 0) noAutoR_ok hmc (tendsto_add_atTop_nat 1)
    (by
      have h : MemLp id 2 ((Measure.infinitePi fun _ : ℕ => gaussianReal 0 1).map fun ω : ℕ → ℝ => ω 0) := by
        rw [(hl 0).map_eq]
        exact memLp_id_gaussianReal 2
      exact h.comp_of_map (hl 0).aemeasurable)
    (by rw [(hl 0).variance_eq, variance_id_gaussianReal]; simp)
    (by rw [(hl 0).integral_eq, integral_id_gaussianReal])
    (iIndepFun_infinitePi (X := fun _ x => x) fun _ => measurable_id)
    (fun k => ⟨(hl k).aemeasurable, (hl 0).aemeasurable, (hl k).map_eq.trans (hl 0).map_eq.symm⟩)
  exact ⟨mc, M, D, h1, (h2 2).2⟩

/-- Values of a scheme for an equation with linear coefficients are not constant. -/
theorem linear_variance {Ω ι J : Type} [Fintype ι] [Fintype J] [Nonempty J] [MeasurableSpace Ω] {P : Measure Ω}
    [IsProbabilityMeasure P] {a : ℝ → (ι → ℝ) → ι → ℝ} {b : J → ℝ → (ι → ℝ) → ι → ℝ} {t0 T L : ℝ} {x0 : ι → ℝ}
    {m v : J → ℝ} {q w : ℝ} {D : Set ℝ} {Z : ℝ → Ω → J × ι → ℝ} {X : ℝ → Ω → ι → ℝ} {grid : List ℝ}
    (hT : 0 ≤ T) (hL : LipschitzCoefs a b t0 T L) (hv : ∀ j, 0 < v j) (hZ : Noises P t0 D m v Z)
    (hU : UncorrelatedNoise P t0 D m Z)
    (hc : CellMoments a b m v t0 T (fun _ _ => 0) (fun _ _ => q) (fun _ _ => 0) (fun _ _ => 0) fun _ _ => w)
    (hw : 0 < w) (hg : grid.Pairwise (· < ·)) (h0 : t0 ∈ grid) (hD : ∀ u ∈ grid, u ∈ D)
    (hX : AreSums a b t0 x0 grid Z X X) (i : ι) (hx : x0 i ≠ 0) :
    ∀ t ∈ grid, t0 < t → t ≤ t0 + T → 0 < Var[fun ω => X t ω i; P] := by
  obtain ⟨R, -, hR⟩ := sums_moments hT hL hv m x0
  have h := grid_induction hg h0 (Q := fun u => u ≤ t0 + T → 0 < ∫ ω, X u ω i ^ 2 ∂P ∧
      (t0 < u → 0 < Var[fun ω => X u ω i; P])) (fun _ => ⟨by simp [hX.start]; positivity, fun h => absurd h (lt_irrefl _)⟩) (by
    intro s t hst h0s hlt hs htT
    obtain ⟨h1, -⟩ := hs (hlt.le.trans htT)
    have hmt := hR hZ hg h0 hD hX t hst.2.1 ⟨h0s.trans hlt.le, htT⟩
    have hms := hR hZ hg h0 hD hX s hst.1 ⟨h0s, hlt.le.trans htT⟩
    have e1 := squares_step hT hL hv hZ hU hc hg h0 hD hX hst h0s hlt htT i
    have e2 := means_step hT hL hv hZ (cell_affine hc) hg h0 hD hX hst h0s hlt htT i
    rw [hc.drift s ⟨h0s, hlt.le.trans htT⟩] at e2
    have e3 := variance_eq_sub (hmt.2.1 i)
    have e4 := variance_eq_sub (hms.2.1 i)
    have e5 := variance_nonneg (fun ω => X s ω i) P
    simp only [Pi.pow_apply] at e3 e4
    have e6 : 0 < w * (∫ ω, X s ω i ^ 2 ∂P) * (t - s) := mul_pos (mul_pos hw h1) (sub_pos.2 hlt)
    have e7 : Var[fun ω => X t ω i; P] = Var[fun ω => X s ω i; P] * (1 + q * (t - s)) ^ 2 +
        w * (∫ ω, X s ω i ^ 2 ∂P) * (t - s) := by
      rw [e3, e4, e1, e2]
      ring
    have e8 : 0 < Var[fun ω => X t ω i; P] := by
      rw [e7]
      exact add_pos_of_nonneg_of_pos (mul_nonneg e5 (sq_nonneg _)) e6
    refine ⟨?_, fun _ => e8⟩
    rw [e3] at e8
    linarith [sq_nonneg (∫ ω, X t ω i ∂P)])
  exact fun t ht hlt hle => (h t ht hlt.le hle).2 hlt

/-- What simulations of `dx = 0.05*x*dt + 0.2*x*dw + 0.1*x*dj` give for time 2 has a finite variance that is not 0. -/
theorem exMerton_variance {X : ℝ → (ℕ → Item ℝ) → Cells ([2] ++ [3]) → ℝ} {st : (ℕ → Item ℝ) → ℕ → Item ℝ}
    (hX : ∀ s, exMerton.call 10 .none 0 ⟨[3], [1, 3 / 2, 2]⟩ s =
      .ok ([some (X 1 s), some (X (3 / 2) s), some (X 2 s)], st s)) (i : Fin 3) (k : Cells [2]) :
    MemLp (fun s => X 2 s ((cellPath [2] 3).symm (i, k))) 2 exState ∧
      Var[fun s => X 2 s ((cellPath [2] 3).symm (i, k)); exState] ≠ 0 := by
  have h2 : MemLp id 2 exJumpLaw := memLp_id_gaussianReal 2
  haveI : Nonempty exIds := ⟨exW⟩
  obtain ⟨Ω, mΩ, P, Z, hP, hI, hN⟩ := exists_noise_paths (ι := Cells [2]) exIds (by norm_num : (0 : ℝ) ≤ 3) exJumpLaw h2
  have hL := exLipschitzN (ι := Cells [2]) (exCoef idT) (fun j : exIds => exCoef j.1) 1 1
  have hv : ∀ j : exIds, (0 : ℝ) < if j.1 = idJ then 3 * ∫ x, x ^ 2 ∂exJumpLaw else 1 := fun j => by
    split_ifs
    · exact mul_pos (by norm_num) exJumpLaw_sq
    · exact one_pos
  obtain ⟨X', ss, g, e0, e1, g1, g2, gI, g4, g5, -, -, hlink⟩ := paths_of_scheme (ids := [idT, idW, idJ].toFinset)
    (a := fun id _ x k => exCoef id * x k) (t0 := 1)
    (T := 1) zero_le_one hL (fun _ : Cells [2] => 10) (law := jumpLaw idJ 3 exJumpLaw) exMerton_prob
    (cellPath [2] 3) (S := exMerton) (exJumps_ok _ _) rfl (exJumps_ids _ _) exMerton_coef rfl
    (fun _ => rfl) exMerton_paths exAlongS exMesh
  obtain ⟨X0, hX0, hid⟩ := hlink hI
  have hg : (2 : ℝ) ∈ g := g5 2 (by simp) (by norm_num)
  have e : ∀ s, X 2 s = X' 0 2 s := fun s => by
    have h := (hX s).symm.trans ((congrArg _ (e0 s).symm).trans (e1 0 s))
    simp at h
    exact h.1.2.2
  have hid0 : IdentDistrib (fun s => X 2 s ((cellPath [2] 3).symm (i, k))) (fun ω => X0 2 ω k) exState P := by
    have := (hid (0, i)).comp (u := fun w : {t : ℝ // t ∈ g} → Cells [2] → ℝ => w ⟨2, hg⟩ k) (by fun_prop)
    simp only [e]
    exact this
  obtain ⟨R, -, hR⟩ := sums_moments zero_le_one hL hv _ (fun _ => 10)
  refine ⟨hid0.memLp_iff.2 ((hR hN g1 g2 gI hX0 2 hg (by norm_num)).2.1 k), ?_⟩
  rw [hid0.variance_eq]
  exact (linear_variance zero_le_one hL hv hN (uncorrelated_of_increments (fun j h hh => exMerton_prob j.1 j.2 h hh)
    (fun j => jumpDiffusion_moments (by norm_num) h2 j) hI) (exCellMoments _ _ 1 1)
    (add_pos (by norm_num) (div_pos (mul_pos (by norm_num) exJumpLaw_sq) (by norm_num))) g1 g2 gI hX0 k (by norm_num) 2 hg
    (by norm_num) (by norm_num)).ne'

/-- Runs of three paths of `dx = 0.05*x*dt + 0.2*x*dw + 0.1*x*dj`: two standard errors around the mean at 2 of the
second component. -/
example : ∃ (X : ℕ → ℝ → (ℕ → Item ℝ) → Cells ([2] ++ [3]) → ℝ) (ss : ℕ → (ℕ → Item ℝ) → ℕ → Item ℝ)
    (mc : ℕ → (ℕ → Item ℝ) → MC ℝ) (M D : ℕ → (ℕ → Item ℝ) → ℝ) (m : ℝ),
    (∀ r s, exMerton.call 10 .none 0 ⟨[3], [1, 3 / 2, 2]⟩ (ss r s) =
      .ok ([some (X r 1 s), some (X r (3 / 2) s), some (X r 2 s)], ss (r + 1) s)) ∧
    (∀ R s, McHistory exAuto .none none "all" ((List.range (R + 1)).map fun r => exSmp fun i =>
      X r 2 s ((cellPath [2] 3).symm (i, ⟨[1], by decide⟩))) (mc R s)) ∧
    (∀ R s, (∃ a, (mc R s).mean = some a ∧ a.get [] = some (M R s)) ∧
      (2 ≤ (R + 1) * 3 → ∃ a, (mc R s).stderr = .ok a ∧ a.get [] = some (D R s))) ∧
    m = ∫ s, X 0 2 s ((cellPath [2] 3).symm (0, ⟨[1], by decide⟩)) ∂exState ∧
    Tendsto (fun R => exState.real {s | |M R s - m| ≤ 2 * D R s}) atTop
      (𝓝 ((gaussianReal 0 1).real (Set.Icc (-2) 2))) := by
  have hL := exLipschitzN (ι := Cells [2]) (exCoef idT)
    (fun j : {id // id ∈ ({idT, idW, idJ} : Finset ℕ).erase idT} => exCoef j.1) 1 1
  obtain ⟨X, ss, e0, e1, -, e3⟩ := C106_simulation (ids := {idT, idW, idJ}) (a := fun id _ x k => exCoef id * x k) (t0 := 1)
    (T := 1) zero_le_one hL (fun _ : Cells [2] => 10) (law := jumpLaw idJ 3 exJumpLaw) exMerton_prob
    (N := 3) (cellPath [2] 3) (S := exMerton) (by norm_num) (exJumps_ok _ _) rfl (exJumps_ids _ _) exMerton_coef rfl
    (fun _ => rfl) exMerton_paths exAlongS
  choose mc hmc using fun (R : ℕ) s => exHistory (fun r => exSmp fun i => X r 2 s ((cellPath [2] 3).symm (i, ⟨[1], by decide⟩)))
    (fun r => rfl) (fun r => ⟨by simp [exSmp], by simp [exSmp], .inl rfl⟩) (R + 1)
  obtain ⟨hl, hv⟩ := exMerton_variance (X := X 0) (st := ss 1) (fun s => by
    have := e1 0 s
    rw [e0] at this
    exact this) 0 ⟨[1], by decide⟩
  obtain ⟨M, D, h1, h2⟩ := e3 (fun w => w ⟨2, by norm_num⟩ ⟨[1], by decide⟩) (by fun_prop) 0 hl hv rfl exAuto_ok
    (vs := []) (c := []) (by simp [InRange]) (fun s r => ⟨rfl, by
      simp [exSmp, Batch.raw, Batch.ax, List.ofFn_succ, List.range_succ]⟩) hmc
  exact ⟨X, ss, mc, M, D, _, e1, hmc, h1, rfl, (h2 2).2⟩

/-- The mean of what a call option at 11 on the second component gives at 2, for the solution. -/
example : ∃ (Ω : Type) (_ : MeasurableSpace Ω) (P : Measure Ω)
    (Z : ℝ → Ω → {id // id ∈ ({idT, idW, idJ} : Finset ℕ).erase idT} → Cells [2] → ℝ) (Y : ℝ → Ω → Cells [2] → ℝ) (K : ℝ)
    (X : ℕ → ℝ → (ℕ → Item ℝ) → Cells ([2] ++ [3]) → ℝ) (ss : ℕ → (ℕ → Item ℝ) → ℕ → Item ℝ)
    (mc : ℕ → (ℕ → Item ℝ) → MC ℝ) (M D : ℕ → (ℕ → Item ℝ) → ℝ),
    Solves P (fun _ x k => exCoef idT * x k) (fun j _ x k => exCoef j.1 * x k) 1 1 (fun _ => 10)
      (fun u ω c => Z u ω c.1 c.2) Y ∧
    (∀ r s, exMerton.call 10 .none 0 ⟨[3], [1, 3 / 2, 2]⟩ (ss r s) =
      .ok ([some (X r 1 s), some (X r (3 / 2) s), some (X r 2 s)], ss (r + 1) s)) ∧
    (∀ R s, McHistory exAuto .none none "all" ((List.range (R + 1)).map fun r => exSmp fun i =>
      max (X r 2 s ((cellPath [2] 3).symm (i, ⟨[1], by decide⟩)) - 11) 0) (mc R s)) ∧
    (∀ R s, (∃ a, (mc R s).mean = some a ∧ a.get [] = some (M R s)) ∧
      (2 ≤ (R + 1) * 3 → ∃ a, (mc R s).stderr = .ok a ∧ a.get [] = some (D R s))) ∧
    ∀ ε > 0, ∀ᶠ R in atTop, (gaussianReal 0 1).real (Set.Icc (-2) 2) - ε ≤
      exState.real {s | |M R s - ∫ ω, max (Y 2 ω ⟨[1], by decide⟩ - 11) 0 ∂P| ≤ 2 * D R s + 1 * √(K * (1 / 2))} := by
  have h2 : MemLp id 2 exJumpLaw := memLp_id_gaussianReal 2
  obtain ⟨Ω, mΩ, P, Z, hP, hI, hN⟩ := exists_noise_paths (ι := Cells [2]) (({idT, idW, idJ} : Finset ℕ).erase idT)
    (by norm_num : (0 : ℝ) ≤ 3) exJumpLaw h2
  have hL := exLipschitzN (ι := Cells [2]) (exCoef idT)
    (fun j : {id // id ∈ ({idT, idW, idJ} : Finset ℕ).erase idT} => exCoef j.1) 1 1
  have hv : ∀ j : ℕ, (0 : ℝ) < if j = idJ then 3 * ∫ x, x ^ 2 ∂exJumpLaw else 1 := fun j => by
    split_ifs
    · exact mul_pos (by norm_num) exJumpLaw_sq
    · exact one_pos
  obtain ⟨K0, -, h0⟩ := exists_solution_all zero_le_one hL (fun _ => 10) _
    (v := fun j => if j.1 = idJ then 3 * ∫ x, x ^ 2 ∂exJumpLaw else 1) fun j => hv j.1
  obtain ⟨Y, hY, -⟩ := h0 hN
  obtain ⟨K, -, h⟩ := C106_solution (ids := {idT, idW, idJ}) (a := fun id _ x k => exCoef id * x k) (t0 := 1) (T := 1)
    one_pos hL (fun _ : Cells [2] => 10) (law := jumpLaw idJ 3 exJumpLaw) exMerton_prob
    (m := fun j => if j = idJ then 3 * ∫ x, x ∂exJumpLaw else 0) (fun j _ => hv j)
    (fun j hj => jumpDiffusion_moments (J := ({idT, idW, idJ} : Finset ℕ).erase idT) (by norm_num) h2 ⟨j, hj⟩)
  obtain ⟨X, ss, -, e1, e2⟩ := h (N := 3) (cellPath [2] 3) (S := exMerton) (by norm_num) (exJumps_ok _ _) rfl
    (exJumps_ids _ _) exMerton_coef rfl (fun _ => rfl) exMerton_paths hI hY (δ := 1 / 2) (by norm_num) exAlongS exMesh
  choose mc hmc using fun (R : ℕ) s => exHistory (fun r => exSmp fun i => max (X r 2 s ((cellPath [2] 3).symm (i, ⟨[1], by decide⟩)) - 11) 0)
    (fun r => rfl) (fun r => ⟨by simp [exSmp], by simp [exSmp], .inl rfl⟩) (R + 1)
  obtain ⟨M, D, f1, f2⟩ := e2 2 (by simp) (by norm_num) (fun x => max (x ⟨[1], by decide⟩ - 11) 0) 1 zero_le_one (fun x y => by
      refine (abs_max_sub_max_le_abs _ _ _).trans ?_
      rw [sub_sub_sub_cancel_right, one_mul]
      refine Real.le_sqrt_of_sq_le ?_
      rw [sq_abs]
      exact Finset.single_le_sum (f := fun c => (x c - y c) ^ 2) (fun p _ => sq_nonneg _) (Finset.mem_univ _)) exAuto_ok (vs := []) (c := [])
    (by simp [InRange]) (fun s r => ⟨rfl, by
      simp [exSmp, Batch.raw, Batch.ax, List.ofFn_succ, List.range_succ]⟩) hmc
  exact ⟨Ω, mΩ, P, Z, Y, K, X, ss, mc, M, D, hY, e1, hmc, f1, f2 2⟩

/-- The mean at 2 of the second component, for the solution. -/
example : ∃ (Ω : Type) (_ : MeasurableSpace Ω) (P : Measure Ω)
    (Z : ℝ → Ω → {id // id ∈ ({idT, idW, idJ} : Finset ℕ).erase idT} → Cells [2] → ℝ) (Y : ℝ → Ω → Cells [2] → ℝ) (K : ℝ)
    (X : ℕ → ℝ → (ℕ → Item ℝ) → Cells ([2] ++ [3]) → ℝ) (ss : ℕ → (ℕ → Item ℝ) → ℕ → Item ℝ)
    (mc : ℕ → (ℕ → Item ℝ) → MC ℝ) (M D : ℕ → (ℕ → Item ℝ) → ℝ),
    Solves P (fun _ x k => exCoef idT * x k) (fun j _ x k => exCoef j.1 * x k) 1 1 (fun _ => 10)
      (fun u ω c => Z u ω c.1 c.2) Y ∧
    (∀ r s, exMerton.call 10 .none 0 ⟨[3], [1, 3 / 2, 2]⟩ (ss r s) =
      .ok ([some (X r 1 s), some (X r (3 / 2) s), some (X r 2 s)], ss (r + 1) s)) ∧
    (∀ R s, McHistory exAuto .none none "all" ((List.range (R + 1)).map fun r => exSmp fun i =>
      X r 2 s ((cellPath [2] 3).symm (i, ⟨[1], by decide⟩))) (mc R s)) ∧
    (∀ R s, (∃ a, (mc R s).mean = some a ∧ a.get [] = some (M R s)) ∧
      (2 ≤ (R + 1) * 3 → ∃ a, (mc R s).stderr = .ok a ∧ a.get [] = some (D R s))) ∧
    ∀ ε > 0, ∀ᶠ R in atTop, (gaussianReal 0 1).real (Set.Icc (-2) 2) - ε ≤
      exState.real {s | |M R s - ∫ ω, Y 2 ω ⟨[1], by decide⟩ ∂P| ≤ 2 * D R s + K * (1 / 2)} := by
  have h2 : MemLp id 2 exJumpLaw := memLp_id_gaussianReal 2
  obtain ⟨Ω, mΩ, P, Z, hP, hI, hN⟩ := exists_noise_paths (ι := Cells [2]) (({idT, idW, idJ} : Finset ℕ).erase idT)
    (by norm_num : (0 : ℝ) ≤ 3) exJumpLaw h2
  have hL := exLipschitzN (ι := Cells [2]) (exCoef idT)
    (fun j : {id // id ∈ ({idT, idW, idJ} : Finset ℕ).erase idT} => exCoef j.1) 1 1
  have hv : ∀ j : ℕ, (0 : ℝ) < if j = idJ then 3 * ∫ x, x ^ 2 ∂exJumpLaw else 1 := fun j => by
    split_ifs
    · exact mul_pos (by norm_num) exJumpLaw_sq
    · exact one_pos
  obtain ⟨K0, -, h0⟩ := exists_solution_all zero_le_one hL (fun _ => 10) _
    (v := fun j => if j.1 = idJ then 3 * ∫ x, x ^ 2 ∂exJumpLaw else 1) fun j => hv j.1
  obtain ⟨Y, hY, -⟩ := h0 hN
  obtain ⟨K, -, h⟩ := C106_means (ids := {idT, idW, idJ}) (a := fun id _ x k => exCoef id * x k) (t0 := 1) (T := 1)
    one_pos hL (fun _ : Cells [2] => 10) (law := jumpLaw idJ 3 exJumpLaw) exMerton_prob
    (m := fun j => if j = idJ then 3 * ∫ x, x ∂exJumpLaw else 0) (fun j _ => hv j)
    (fun j hj => jumpDiffusion_moments (J := ({idT, idW, idJ} : Finset ℕ).erase idT) (by norm_num) h2 ⟨j, hj⟩)
    (fun t _ => exMeanDrift_affine _ t) (exMeanDrift_field _ 1 1)
  obtain ⟨X, ss, -, e1, e2⟩ := h (N := 3) (cellPath [2] 3) (S := exMerton) (by norm_num) (exJumps_ok _ _) rfl
    (exJumps_ids _ _) exMerton_coef rfl (fun _ => rfl) exMerton_paths hI hY (δ := 1 / 2) (by norm_num) exAlongS exMesh
  choose mc hmc using fun (R : ℕ) s => exHistory (fun r => exSmp fun i => X r 2 s ((cellPath [2] 3).symm (i, ⟨[1], by decide⟩)))
    (fun r => rfl) (fun r => ⟨by simp [exSmp], by simp [exSmp], .inl rfl⟩) (R + 1)
  obtain ⟨M, D, f1, f2⟩ := e2 2 (by simp) (by norm_num) ⟨[1], by decide⟩ exAuto_ok (vs := []) (c := [])
    (by simp [InRange]) (fun s r => ⟨rfl, by
      simp [exSmp, Batch.raw, Batch.ax, List.ofFn_succ, List.range_succ]⟩) hmc
  exact ⟨Ω, mΩ, P, Z, Y, K, X, ss, mc, M, D, hY, e1, hmc, f1, f2 2⟩

end Sdepy
