import Verif.Props.McConsistent
import Verif.Props.Confidence

/-!
# C107, for simulations of equations
-/

set_option linter.unusedSectionVars false

open MeasureTheory ProbabilityTheory Filter Topology

namespace Sdepy

open Spec

/-- Values for all paths of all runs, in the order in which they are cumulated. -/
theorem runs_values {σ : Type} {N : ℕ} [MeasurableSpace σ] {μ : Measure σ} [IsProbabilityMeasure μ] (hN : 0 < N)
    {U : ℕ → σ → Fin N → ℝ} (hd : ∀ p p' : ℕ × Fin N, IdentDistrib (fun s => U p.1 s p.2) (fun s => U p'.1 s p'.2) μ μ)
    (hI : iIndepFun (fun (p : ℕ × Fin N) s => U p.1 s p.2) μ)
    {auto : String → Option (ℝ × ℝ) → List ℝ → Py (List ℝ)} {bins : Bins ℝ} {range : Option (ℝ × ℝ)}
    {vs c : List ℕ} {smp : σ → ℕ → Batch ℝ} (hc : InRange vs c)
    (hs : ∀ s r, (smp s r).vshape = vs ∧ (smp s r).raw c = List.ofFn (U r s)) {mc : ℕ → σ → MC ℝ}
    (hmc : ∀ R s, McHistory auto bins range "all" ((List.range (R + 1)).map (smp s)) (mc R s)) :
    ∃ F : ℕ → σ → ℝ, (∀ R, Cumulates auto bins range "all" vs c (mc R) ((R + 1) * N) F) ∧
      Tendsto (fun R : ℕ => (R + 1) * N) atTop atTop ∧ (Pairwise fun i j => IndepFun (F i) (F j) μ) ∧
      (∀ i, IdentDistrib (F i) (F 0) μ μ) ∧ ∀ k i, IdentDistrib (F k) (fun s => U 0 s i) μ μ := by
  let f : ℕ → ℕ × Fin N := fun k => (k / N, ⟨k % N, Nat.mod_lt k hN⟩)
  have hf : Function.Injective f := by
    intro k k' h
    rw [Prod.mk.injEq, Fin.mk.injEq] at h
    rw [← Nat.div_add_mod k N, ← Nat.div_add_mod k' N, h.1, h.2]
  refine ⟨fun k s => U (f k).1 s (f k).2,
    fun R => cumulates_runs hc hN R.succ_pos (v := fun s r => U r s) (fun s r _ => hs s r) (hmc R),
    tendsto_atTop_mono (fun R => ?_) tendsto_id, fun i j hij => (hI.precomp hf).indepFun hij, fun i => hd (f i) (f 0),
    fun k i => hd (f k) (0, i)⟩
  show R ≤ (R + 1) * N
  nlinarith

section
variable {κ : Type} [Fintype κ] {ids : Finset ℕ} {a : ℕ → ℝ → (κ → ℝ) → κ → ℝ} {t0 : ℝ}

/-- **C107** (simulations). A simulation of an equation with any number of sources of noise, as in C103, is repeated, each
run starting from the state of the random generator left by the previous one. The values, for each path, of a
function `φ` of the values simulated for all times of the timeline are cumulated in `montecarlo` instances, one sample for
each run. As runs are cumulated, almost surely `skew` and `kurtosis` converge to the third and fourth standardised moments
of the function along a path; with edges of bins given as an array, and in increasing order, the 'interp' cdf
converges, at edges, to the probability that the function along a path is below, given that it is in the bins, and the
values of `density_histogram` converge to the probabilities of the bins, divided by their widths. -/
theorem C107_simulation [Nonempty {id // id ∈ ids.erase idT}] {T L : ℝ} (hT : 0 ≤ T)
    (hL : LipschitzCoefs (a idT) (fun j : {id // id ∈ ids.erase idT} => a j.1) t0 T L) (y0 : κ → ℝ)
    {law : ℕ → ℝ → Measure (κ → ℝ)} (hpr : ∀ j ∈ ids.erase idT, ∀ h > 0, IsProbabilityMeasure (law j h))
    {σ C O : Type} {N : ℕ} [MeasurableSpace σ] [Fintype C] {μ : Measure σ}
    [IsProbabilityMeasure μ] (e : C ≃ Fin N × κ) {S : SDE ℝ (C → ℝ) O ℕ σ} {x0 : C → ℝ} (hN : 0 < N)
    (hS : SDEOk S) (hdt : S.sources.lookup idT = some dtSource) (hids : (equation S).ids = ids)
    (hcoef : ∀ t x, (equation S).coef t x = .ok fun id p => a id t (fun k => x (e.symm ((e p).1, k))) (e p).2)
    (hinit : S.init t0 = .ok x0) (hx0 : ∀ p, (if S.log then S.logX x0 else x0) p = y0 (e p).2)
    (hdraw : (equation S).DrawsNoise idT μ (fun j h => pathsLaw e (law j.1 h)))
    {fuel : ℕ} {steps : Steps ℝ} {i0 : ℤ} {tl : TArr ℝ} {grid : List ℝ}
    (ha : Along fuel steps i0 tl grid t0) :
    ∃ (X : ℕ → ℝ → σ → C → ℝ) (ss : ℕ → σ → σ), (∀ s, ss 0 s = s) ∧
      (∀ r s, S.call fuel steps i0 tl (ss r s) = .ok (tl.data.map fun t => some
        (if S.log then S.expO (S.letX t (X r t s)) else S.letX t (X r t s)), ss (r + 1) s)) ∧
      ∀ (φ : ({t : ℝ // t ∈ tl.data ∧ t ∈ Set.Icc t0 (t0 + T)} → κ → ℝ) → ℝ), Measurable φ → ∀ (i : Fin N),
        ∀ {auto : String → Option (ℝ × ℝ) → List ℝ → Py (List ℝ)} {bins : Bins ℝ} {range : Option (ℝ × ℝ)}
          {vs c : List ℕ} {smp : σ → ℕ → Batch ℝ}, AutoOk auto → InRange vs c →
          (∀ s r, (smp s r).vshape = vs ∧
            (smp s r).raw c = List.ofFn fun i => φ fun t k => X r t s (e.symm (i, k))) →
          ∀ {mc : ℕ → σ → MC ℝ},
            (∀ R s, McHistory auto bins range "all" ((List.range (R + 1)).map (smp s)) (mc R s)) →
            ∀ {Y : σ → ℝ}, (Y = fun s => φ fun t k => X 0 t s (e.symm (i, k))) →
            (MemLp Y 4 μ → Var[Y; μ] ≠ 0 → ∀ᵐ s ∂μ, ∃ A B : ℕ → ℝ,
              (∀ᶠ R in atTop, (∃ a, (mc R s).skew = .ok a ∧ a.get c = some (A R)) ∧
                ∃ a, (mc R s).kurtosis = .ok a ∧ a.get c = some (B R)) ∧
              Tendsto A atTop (𝓝 (∫ s, ((Y s - ∫ s, Y s ∂μ) / √Var[Y; μ]) ^ 3 ∂μ)) ∧
              Tendsto B atTop (𝓝 (∫ s, ((Y s - ∫ s, Y s ∂μ) / √Var[Y; μ]) ^ 4 ∂μ))) ∧
            ∀ {g : Arr ℝ} {es : List ℝ}, bins = .array g → ndindex vs = [c] →
              es = (List.range (g.shape.getLastD 0)).map (fun k => g.get (c ++ [k])) → es.Pairwise (· < ·) →
              2 ≤ es.length → ∀ {p : ℝ}, p = μ.real {s | es.headD 0 ≤ Y s ∧ Y s ≤ es.getLastD 0} → 0 < p →
              ∀ᵐ s ∂μ, ∃ (F : ℕ → ℝ → ℝ) (d : ℕ → List ℝ),
                (∀ᶠ R in atTop, (∀ x, (mc R s).pdfOrCdf x "interp" 1 true =
                    .ok ⟨x.shape, fun i => some (F R (x.get i))⟩) ∧
                  (mc R s).densityHistogram = .ok (some (d R), es) ∧ (d R).length = es.length - 1) ∧
                (∀ k x, es[k]? = some x → k + 1 < es.length →
                  Tendsto (fun R => F R x) atTop (𝓝 (μ.real {s | es.headD 0 ≤ Y s ∧ Y s < x} / p))) ∧
                ∀ k x y, es[k]? = some x → es[k + 1]? = some y →
                  Tendsto (fun R => (d R).getD k 0) atTop (𝓝 (μ.real {s | inBin es k (Y s)} / p / (y - x))) := by
  obtain ⟨X, ss, e0, e1, hd, hI⟩ := C103_paths hT hL y0 hpr e hS hdt hids hcoef hinit hx0 hdraw ha
  refine ⟨X, ss, e0, e1, ?_⟩
  intro φ hφ i auto bins range vs c smp hau hc hs mc hmc Y hY
  obtain ⟨F, f1, f2, f3, f4, f5⟩ := runs_values hN (U := fun r s i => φ fun t k => X r t s (e.symm (i, k)))
    (fun p p' => (hd p p').comp hφ) (hI.comp _ fun _ => hφ) hc hs hmc
  have f6 : IdentDistrib (F 0) Y μ μ := hY ▸ f5 0 i
  constructor
  · intro h4 hv
    have hmean : ∫ s, F 0 s ∂μ = ∫ s, Y s ∂μ := f6.integral_eq
    have hvar : Var[F 0; μ] = Var[Y; μ] := f6.variance_eq
    have hp : ∀ q : ℕ, ∫ s, ((F 0 s - ∫ s, F 0 s ∂μ) / √Var[F 0; μ]) ^ q ∂μ =
        ∫ s, ((Y s - ∫ s, Y s ∂μ) / √Var[Y; μ]) ^ q ∂μ := fun q => by
      rw [hmean, hvar]
      exact (f6.comp (u := fun x => ((x - ∫ s, Y s ∂μ) / √Var[Y; μ]) ^ q) (by fun_prop)).integral_eq
    have := C107_moments hau f1 f2 (f6.memLp_iff.2 h4) (hvar ▸ hv) f3 f4
    rw [hp, hp] at this
    exact this
  · rintro g es rfl hvs hes hsrt h2 p hp hp0
    have hq : ∀ A : Set ℝ, MeasurableSet A → μ.real {s | F 0 s ∈ A} = μ.real {s | Y s ∈ A} := fun A hA => by
      rw [measureReal_def, measureReal_def]
      exact congrArg _ (f6.measure_mem_eq hA)
    have hin := hq (Set.Icc (es.headD 0) (es.getLastD 0)) measurableSet_Icc
    have hpF : p = μ.real {s | es.headD 0 ≤ F 0 s ∧ F 0 s ≤ es.getLastD 0} := hp.trans hin.symm
    filter_upwards [C107_cdf hau f1 hvs f2 hes hsrt h2 f6.aemeasurable_fst f3 f4 hpF hp0 1,
      C107_density hau f1 hvs f2 hes hsrt h2 f6.aemeasurable_fst f3 f4 hpF hp0 one_pos] with s h1 h3
    obtain ⟨G, g1, g2, -⟩ := h1
    obtain ⟨d, _, _, d1, d2, -⟩ := h3
    refine ⟨G, d, (g1.and d1).mono fun R h => ⟨h.1, h.2.1, h.2.2.1⟩, fun k x hk hk1 => ?_, fun k x y hk hk1 => ?_⟩
    · have := g2 k x hk hk1
      rwa [show μ.real {s | es.headD 0 ≤ F 0 s ∧ F 0 s < x} = μ.real {s | es.headD 0 ≤ Y s ∧ Y s < x} from
        hq (Set.Ico (es.headD 0) x) measurableSet_Ico] at this
    · have := (d2 k x y hk hk1).1
      rwa [show μ.real {s | inBin es k (F 0 s)} = μ.real {s | inBin es k (Y s)} from
        hq {v | inBin es k v} (measurableSet_inBin es k)] at this

end

theorem exHistory_edges (smp : ℕ → Batch ℝ) (hv : ∀ r, (smp r).vshape = []) (hok : ∀ r, (smp r).Valid "all") (R : ℕ) :
    ∃ mc, McHistory exAuto (.array edges012) none "all" ((List.range R).map smp) mc := by
  induction R with
  | zero => exact ⟨_, .new⟩
  | succ R ih =>
    obtain ⟨mc, h⟩ := ih
    rw [List.range_succ, List.map_append, List.map_singleton]
    cases R with
    | zero =>
      obtain ⟨mc', h'⟩ := C36_accepts_edges exAuto_ok (a := edges012) (b := smp 0) (n := 3) (range := none)
        (by rw [hv]; rfl) (by norm_num) (by
          intro c hc
          have : c = [] := List.length_eq_zero_iff.1 (by rw [hc.length, hv]; rfl)
          subst this
          simp [List.range_succ, edges012]) (hok 0)
      exact ⟨mc', .update .new h'⟩
    | succ R =>
      have hu : Uniform [] ((List.range (R + 1)).map smp) := by
        intro x hx
        obtain ⟨r, -, rfl⟩ := List.mem_map.1 hx
        exact hv r
      rw [List.range_succ_eq_map, List.map_cons] at h hu
      obtain ⟨mc', h'⟩ := C36_accepts exAuto_ok h hu (hv (R + 1)) (hok (R + 1))
      refine ⟨mc', ?_⟩
      rw [List.range_succ_eq_map, List.map_cons]
      exact .update h h'

/-- Runs of three paths of `dx = 0.05*x*dt + 0.2*x*dw + 0.1*x*dj`: the distribution of `1 + arctan(x)/2` at 2, for the
second component. -/
example : ∃ (X : ℕ → ℝ → (ℕ → Item ℝ) → Cells ([2] ++ [3]) → ℝ) (ss : ℕ → (ℕ → Item ℝ) → ℕ → Item ℝ)
    (mc : ℕ → (ℕ → Item ℝ) → MC ℝ) (Y : (ℕ → Item ℝ) → ℝ),
    (∀ r s, exMerton.call 10 .none 0 ⟨[3], [1, 3 / 2, 2]⟩ (ss r s) =
      .ok ([some (X r 1 s), some (X r (3 / 2) s), some (X r 2 s)], ss (r + 1) s)) ∧
    (∀ R s, McHistory exAuto (.array edges012) none "all" ((List.range (R + 1)).map fun r => exSmp fun i =>
      1 + Real.arctan (X r 2 s ((cellPath [2] 3).symm (i, ⟨[1], by decide⟩))) / 2) (mc R s)) ∧
    (Y = fun s => 1 + Real.arctan (X 0 2 s ((cellPath [2] 3).symm (0, ⟨[1], by decide⟩))) / 2) ∧
    (∀ᵐ s ∂exState, ∃ A : ℕ → ℝ, (∀ᶠ R in atTop, ∃ a, (mc R s).skew = .ok a ∧ a.get [] = some (A R)) ∧
      Tendsto A atTop (𝓝 (∫ s, ((Y s - ∫ s, Y s ∂exState) / √Var[Y; exState]) ^ 3 ∂exState))) ∧
    ∀ᵐ s ∂exState, ∃ F : ℕ → ℝ → ℝ, (∀ᶠ R in atTop, ∀ x, (mc R s).pdfOrCdf x "interp" 1 true =
        .ok ⟨x.shape, fun i => some (F R (x.get i))⟩) ∧
      Tendsto (fun R => F R 1) atTop (𝓝 (exState.real {s | 0 ≤ Y s ∧ Y s < 1})) := by
  have hL := exLipschitzN (ι := Cells [2]) (exCoef idT)
    (fun j : {id // id ∈ ({idT, idW, idJ} : Finset ℕ).erase idT} => exCoef j.1) 1 1
  obtain ⟨X, ss, e0, e1, e3⟩ := C107_simulation (ids := {idT, idW, idJ}) (a := fun id _ x k => exCoef id * x k) (t0 := 1)
    (T := 1) zero_le_one hL (fun _ : Cells [2] => 10) (law := jumpLaw idJ 3 exJumpLaw) exMerton_prob
    (N := 3) (cellPath [2] 3) (S := exMerton) (by norm_num) (exJumps_ok _ _) rfl (exJumps_ids _ _) exMerton_coef rfl
    (fun _ => rfl) exMerton_paths exAlongS
  choose mc hmc using fun (R : ℕ) s => exHistory_edges (fun r => exSmp fun i =>
    1 + Real.arctan (X r 2 s ((cellPath [2] 3).symm (i, ⟨[1], by decide⟩))) / 2)
    (fun r => rfl) (fun r => ⟨by simp [exSmp], by simp [exSmp], .inl rfl⟩) (R + 1)
  obtain ⟨hl, hv⟩ := exMerton_variance (X := X 0) (st := ss 1) (fun s => by
    have := e1 0 s
    rw [e0] at this
    exact this) 0 ⟨[1], by decide⟩
  obtain ⟨h1, h2⟩ := e3 (fun w => 1 + Real.arctan (w ⟨2, by norm_num⟩ ⟨[1], by decide⟩) / 2) (by fun_prop) 0 exAuto_ok
    (vs := []) (c := []) (by simp [InRange]) (fun s r => ⟨rfl, by
      simp [exSmp, Batch.raw, Batch.ax, List.ofFn_succ, List.range_succ]⟩) hmc
    (Y := fun s => 1 + Real.arctan (X 0 2 s ((cellPath [2] 3).symm (0, ⟨[1], by decide⟩))) / 2) rfl
  set W := fun s => X 0 2 s ((cellPath [2] 3).symm (0, ⟨[1], by decide⟩)) with hW
  have hb : ∀ s, 0 ≤ 1 + Real.arctan (W s) / 2 ∧ 1 + Real.arctan (W s) / 2 ≤ 2 := fun s => by
    have b1 := Real.neg_pi_div_two_lt_arctan (W s)
    have b2 := Real.arctan_lt_pi_div_two (W s)
    have b3 := Real.pi_le_four
    constructor <;> linarith
  have hmeas : AEStronglyMeasurable (fun s => 1 + Real.arctan (W s) / 2) exState :=
    ((Real.continuous_arctan.measurable.comp_aemeasurable hl.1.aemeasurable).div_const 2 |>.const_add 1).aestronglyMeasurable
  have hlim : MemLp (fun s => 1 + Real.arctan (W s) / 2) 4 exState :=
    MemLp.of_bound hmeas 2 (ae_of_all _ fun s => by
      rw [Real.norm_eq_abs, abs_of_nonneg (hb s).1]
      exact (hb s).2)
  have hvar : Var[fun s => 1 + Real.arctan (W s) / 2; exState] ≠ 0 := by
    intro h0
    have h0' : evariance (fun s => 1 + Real.arctan (W s) / 2) exState = 0 := by
      rw [← (hlim.mono_exponent (by norm_num : (2 : ENNReal) ≤ 4)).ofReal_variance_eq, h0, ENNReal.ofReal_zero]
    rw [evariance_eq_zero_iff hmeas.aemeasurable] at h0'
    set c := ∫ s, (1 + Real.arctan (W s) / 2) ∂exState with hc
    have hW' : W =ᵐ[exState] fun _ => Real.tan (2 * (c - 1)) := by
      filter_upwards [h0'] with s hs
      have hs' : Real.arctan (W s) = 2 * (c - 1) := by linarith
      rw [← hs', Real.tan_arctan]
    apply hv
    rw [variance_congr hW', variance_eq_integral aemeasurable_const]
    simp
  refine ⟨X, ss, mc, _, e1, hmc, rfl, ?_, ?_⟩
  · exact (h1 hlim hvar).mono fun s ⟨A, B, q1, q2, _⟩ => ⟨A, q1.mono fun R h => h.1, q2⟩
  · have h3 := h2 (g := edges012) (es := [0, 1, 2]) rfl rfl (by simp [List.range_succ, edges012]) (by simp) (by simp)
      (p := 1) (by
        rw [measureReal_def, show {s | ([0, 1, 2] : List ℝ).headD 0 ≤ 1 + Real.arctan (W s) / 2 ∧
          1 + Real.arctan (W s) / 2 ≤ ([0, 1, 2] : List ℝ).getLastD 0} = Set.univ from
          Set.eq_univ_of_forall fun s => by simpa using hb s]
        simp) one_pos
    refine h3.mono fun s ⟨F, d, q1, q2, _⟩ => ⟨F, q1.mono fun R h => h.1, ?_⟩
    simpa using q2 1 1 rfl (by simp)

end Sdepy
