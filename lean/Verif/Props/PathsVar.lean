import Verif.Props.PathsMC
import Verif.Props.Variances

/-!
# Property C103: variances reported by `montecarlo`, against those of solutions
-/

open MeasureTheory ProbabilityTheory Filter Topology

namespace Sdepy

open Spec

section
variable {κ : Type} [Fintype κ] {ids : Finset ℕ} {a : ℕ → ℝ → (κ → ℝ) → κ → ℝ} {t0 : ℝ}

/-- **C103** (variances). Let the equation of a single path be as in C104: the drift of each component, once increments of
noise are replaced by their means, is `p + q*x`, and the variance of its noise per unit of time is `r + n*x + w*x**2`. As
runs are cumulated, mean and variance reported by `montecarlo`, for a component of the values simulated for a time of the
timeline, converge almost surely to limits that differ from the mean and the variance of the solution at most by `K*δ`,
where `δ` is the longest step. `K` only depends on the equation of a single path, its noise, the initial values and the
time span. -/
theorem C103_variances [Nonempty {id // id ∈ ids.erase idT}] {T L M : ℝ} (hT : 0 < T)
    (hL : LipschitzCoefs (a idT) (fun j : {id // id ∈ ids.erase idT} => a j.1) t0 T L) (y0 : κ → ℝ)
    {law : ℕ → ℝ → Measure (κ → ℝ)} (hpr : ∀ j ∈ ids.erase idT, ∀ h > 0, IsProbabilityMeasure (law j h))
    {m v : ℕ → ℝ} (hv : ∀ j ∈ ids.erase idT, 0 < v j) (hmo : ∀ j ∈ ids.erase idT, HasMoments (law j) (m j) (v j))
    {p q r n w : ℝ → κ → ℝ}
    (hcm : CellMoments (a idT) (fun j : {id // id ∈ ids.erase idT} => a j.1) (fun j => m j.1) (fun j => v j.1)
      t0 T p q r n w)
    (hM : LipschitzField (momentField p q r n w) t0 T M) :
    ∃ K ≥ 0, ∀ {σ C O : Type} {N : ℕ} [MeasurableSpace σ] [Fintype C] {μ : Measure σ}
      [IsProbabilityMeasure μ] (e : C ≃ Fin N × κ) {S : SDE ℝ (C → ℝ) O ℕ σ} {x0 : C → ℝ}, 0 < N →
      SDEOk S → S.sources.lookup idT = some dtSource → (equation S).ids = ids →
      (∀ t x, (equation S).coef t x = .ok fun id p => a id t (fun k => x (e.symm ((e p).1, k))) (e p).2) →
      S.init t0 = .ok x0 → (∀ p, (if S.log then S.logX x0 else x0) p = y0 (e p).2) →
      (equation S).DrawsNoise idT μ (fun j h => pathsLaw e (law j.1 h)) →
      ∀ {Ω : Type} [MeasurableSpace Ω] {P : Measure Ω} [IsProbabilityMeasure P]
      {Z : ℝ → Ω → {id // id ∈ ids.erase idT} → κ → ℝ} {Y : ℝ → Ω → κ → ℝ},
      Increments P t0 (Set.Icc t0 (t0 + T)) (fun h => Measure.pi fun j : {id // id ∈ ids.erase idT} => law j.1 h) Z →
      Solves P (a idT) (fun j : {id // id ∈ ids.erase idT} => a j.1) t0 T y0 (fun u ω p => Z u ω p.1 p.2) Y →
      ∀ {fuel : ℕ} {steps : Steps ℝ} {i0 : ℤ} {tl : TArr ℝ} {grid : List ℝ} {δ : ℝ}, 0 ≤ δ →
        Along fuel steps i0 tl grid t0 → Mesh grid δ →
        ∃ (X : ℕ → ℝ → σ → C → ℝ) (ss : ℕ → σ → σ), (∀ s, ss 0 s = s) ∧
          (∀ r s, S.call fuel steps i0 tl (ss r s) = .ok (tl.data.map fun t => some
            (if S.log then S.expO (S.letX t (X r t s)) else S.letX t (X r t s)), ss (r + 1) s)) ∧
          ∀ t ∈ tl.data, t ∈ Set.Icc t0 (t0 + T) → ∀ k : κ,
            ∃ mm vv : ℝ, |mm - ∫ ω, Y t ω k ∂P| ≤ K * δ ∧ |vv - Var[fun ω => Y t ω k; P]| ≤ K * δ ∧
            ∀ {auto : String → Option (ℝ × ℝ) → List ℝ → Py (List ℝ)} {bins : Bins ℝ} {range : Option (ℝ × ℝ)}
              {vs c : List ℕ} {smp : σ → ℕ → Batch ℝ}, AutoOk auto → InRange vs c →
              (∀ s r, (smp s r).vshape = vs ∧ (smp s r).raw c = List.ofFn fun i => X r t s (e.symm (i, k))) →
              ∀ {mc : ℕ → σ → MC ℝ},
                (∀ R s, McHistory auto bins range "all" ((List.range (R + 1)).map (smp s)) (mc R s)) →
                ∃ A V : ℕ → σ → ℝ, (∀ R s, (∃ b, (mc R s).mean = some b ∧ b.get c = some (A R s)) ∧
                    ∃ b, (mc R s).var = .ok b ∧ b.get c = some (V R s)) ∧
                  ∀ᵐ s ∂μ, Tendsto (fun R => A R s) atTop (𝓝 mm) ∧ Tendsto (fun R => V R s) atTop (𝓝 vv) := by
  obtain ⟨y, hy⟩ := exists_ode hM hT (Sum.elim y0 fun i => y0 i ^ 2)
  have hv' : ∀ j : {id // id ∈ ids.erase idT}, 0 < v j.1 := fun j => hv j.1 j.2
  obtain ⟨K, hK, herr⟩ := moments_error hT hL hv' hcm hM hy
  refine ⟨K, hK, ?_⟩
  intro σ C O N _ _ μ _ e S x0 hN hS hdt hids hcoef hinit hx0 hdraw Ω _ P _ Z' Y hZ' hY fuel steps i0 tl grid δ hδ ha hm
  have hprob : ∀ (j : {id // id ∈ ids.erase idT}) h, 0 < h → IsProbabilityMeasure (law j.1 h) :=
    fun j h hh => hpr j.1 j.2 h hh
  have hNo := noises_of_increments hprob (fun j => hmo j.1 j.2) hZ'
  have hU := uncorrelated_of_increments hprob (fun j => hmo j.1 j.2) hZ'
  obtain ⟨X, ss, g, e0, e1, g1, g2, gI, g4, g5, hd, hi', hlink⟩ :=
    paths_of_scheme hT.le hL y0 hpr e hS hdt hids hcoef hinit hx0 hdraw ha hm
  obtain ⟨X0, hX0, hid⟩ := hlink hZ'
  refine ⟨X, ss, e0, e1, ?_⟩
  intro t ht hI k
  have htg := g5 t ht hI
  obtain ⟨hl, k1, -, k3⟩ := herr hNo hU hδ g1 g2 gI g4 hX0 t htg k
  obtain ⟨s1, -, s3⟩ := solution_moments hT hL hv' hcm hM hy hNo hU hY hI k
  have hψ : Measurable fun w : {t : ℝ // t ∈ g} → κ → ℝ => w ⟨t, htg⟩ k :=
    (measurable_pi_apply k).comp (measurable_pi_apply _)
  have hid0 : IdentDistrib (fun s => X 0 t s (e.symm (⟨0, hN⟩, k))) (fun ω => X0 t ω k) μ P :=
    (hid (0, ⟨0, hN⟩)).comp hψ
  refine ⟨∫ ω, X0 t ω k ∂P, Var[fun ω => X0 t ω k; P], by rw [s1]; exact k1, by rw [s3]; exact k3, ?_⟩
  intro auto bins range vs c smp hau hc hs mc hmc
  exact (montecarlo_runs hN (U := fun r s i => X r t s (e.symm (i, k)))
    (fun p p' => ⟨(hd p p').comp hψ, fun h => (hi'.indepFun h).comp hψ hψ⟩) ⟨0, hN⟩ (hid0.memLp_iff.2 hl)
    hid0.integral_eq.symm hid0.variance_eq.symm hau hc hs).2 hmc

end

/-- `dx = x/20*dt + x/5*dw + x/10*dj`, with the sources of the library, for 3 jumps per unit of time of law `N(-1, 1/4)`,
with three paths and two components, in more and more runs: the variance at 2 of the second component. -/
example : ∃ (Ω : Type) (_ : MeasurableSpace Ω) (P : Measure Ω) (Z : ℝ → Ω → exIds → Cells [2] → ℝ)
    (Y : ℝ → Ω → Cells [2] → ℝ) (K vv : ℝ)
    (X : ℕ → ℝ → (ℕ → Item ℝ) → Cells ([2] ++ [3]) → ℝ) (ss : ℕ → (ℕ → Item ℝ) → ℕ → Item ℝ)
    (mc : ℕ → (ℕ → Item ℝ) → MC ℝ) (V : ℕ → (ℕ → Item ℝ) → ℝ),
    Solves P (fun _ x k => exCoef idT * x k) (fun (j : exIds) _ x k => exCoef j.1 * x k) 1 1 (fun _ => 10)
      (fun u ω c => Z u ω c.1 c.2) Y ∧
    (∀ r s, exMerton.call 10 .none 0 ⟨[3], [1, 3 / 2, 2]⟩ (ss r s) =
      .ok ([some (X r 1 s), some (X r (3 / 2) s), some (X r 2 s)], ss (r + 1) s)) ∧
    (∀ R s, McHistory exAuto .none none "all" ((List.range (R + 1)).map fun r => exSmp fun i =>
      X r 2 s ((cellPath [2] 3).symm (i, ⟨[1], by decide⟩))) (mc R s)) ∧
    (∀ R s, ∃ b, (mc R s).var = .ok b ∧ b.get [] = some (V R s)) ∧
    (∀ᵐ s ∂exState, Tendsto (fun R => V R s) atTop (𝓝 vv)) ∧
    |vv - Var[fun ω => Y 2 ω ⟨[1], by decide⟩; P]| ≤ K * (1 / 2) := by
  have h2 : MemLp id 2 exJumpLaw := memLp_id_gaussianReal 2
  obtain ⟨Ω, mΩ, P, Z, hP, hI, hN⟩ := exists_noise_paths (ι := Cells [2]) exIds (by norm_num : (0 : ℝ) ≤ 3) exJumpLaw h2
  have hL := exLipschitzN (ι := Cells [2]) (exCoef idT) (fun j : exIds => exCoef j.1) 1 1
  have hv : ∀ j : ℕ, (0 : ℝ) < if j = idJ then 3 * ∫ x, x ^ 2 ∂exJumpLaw else 1 := fun j => by
    split_ifs
    · exact mul_pos (by norm_num) exJumpLaw_sq
    · exact one_pos
  haveI : Nonempty exIds := ⟨exW⟩
  obtain ⟨K0, -, h0⟩ := exists_solution_all zero_le_one hL (fun _ => 10) _
    (v := fun j => if j.1 = idJ then 3 * ∫ x, x ^ 2 ∂exJumpLaw else 1) fun j => hv j.1
  obtain ⟨Y, hY, -⟩ := h0 hN
  obtain ⟨M, hM⟩ := momentField_const (ι := Cells [2]) (fun _ => 0) (fun _ => 1 / 20 + 3 * (∫ x, x ∂exJumpLaw) / 10)
    (fun _ => 0) (fun _ => 0) (fun _ => 1 / 25 + 3 * (∫ x, x ^ 2 ∂exJumpLaw) / 100) 1 1
  obtain ⟨K, -, h⟩ := C103_variances (ids := [idT, idW, idJ].toFinset) (a := fun id _ x k => exCoef id * x k) (t0 := 1)
    (T := 1) one_pos hL (fun _ : Cells [2] => 10) (law := jumpLaw idJ 3 exJumpLaw)
    (fun j hj => exMerton_prob j (by simpa using hj))
    (m := fun j => if j = idJ then 3 * ∫ x, x ∂exJumpLaw else 0) (fun j _ => hv j)
    (fun j hj => jumpDiffusion_moments (J := exIds) (by norm_num) h2 ⟨j, hj⟩)
    (exCellMoments (3 * ∫ x, x ∂exJumpLaw) (3 * ∫ x, x ^ 2 ∂exJumpLaw) 1 1) hM
  obtain ⟨X, ss, -, e1, e2⟩ := h (N := 3) (cellPath [2] 3) (S := exMerton) (by norm_num) (exJumps_ok _ _) rfl
    ((exJumps_ids _ _).trans (by simp)) exMerton_coef rfl (fun _ => rfl) exMerton_paths hI hY (δ := 1 / 2) (by norm_num)
    exAlongS exMesh
  choose mc hmc using fun (R : ℕ) s => exHistory (fun r => exSmp fun i =>
    X r 2 s ((cellPath [2] 3).symm (i, ⟨[1], by decide⟩)))
    (fun r => rfl) (fun r => ⟨by simp [exSmp], by simp [exSmp], .inl rfl⟩) (R + 1)
  obtain ⟨mm, vv, -, b2, b3⟩ := e2 2 (by simp) (by norm_num) ⟨[1], by decide⟩
  obtain ⟨A, V, f1, f2⟩ := b3 exAuto_ok (vs := []) (c := []) (by simp [InRange]) (fun s r => ⟨rfl, by
      simp [exSmp, Batch.raw, Batch.ax, List.ofFn_succ, List.range_succ]⟩) hmc
  exact ⟨Ω, mΩ, P, Z, Y, K, vv, X, ss, mc, V, hY, e1, hmc, fun R s => (f1 R s).2, f2.mono fun s hs => hs.2, b2⟩

end Sdepy
