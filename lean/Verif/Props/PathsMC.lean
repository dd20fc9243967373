import Verif.Props.EstimatesN
import Verif.Props.Means
import Verif.Props.McLaw

/-!
# Property C103: independent paths in all runs, and the error of their mean
-/

set_option linter.unusedSectionVars false

open MeasureTheory ProbabilityTheory Filter Topology

namespace Sdepy

open Spec

/-! ### Samples of many runs -/

section
variable {Ω : Type} {auto : String → Option (ℝ × ℝ) → List ℝ → Py (List ℝ)} {bins : Bins ℝ} {range : Option (ℝ × ℝ)}
  {vs c : List ℕ} {N R : ℕ}

/-- The values of `R` runs with `N` paths each, one after the other. -/
theorem flatMap_runs {α : Type} (hN : 0 < N) (v : ℕ → Fin N → α) (R : ℕ) :
    (List.range R).flatMap (fun r => List.ofFn (v r)) =
      (List.range (R * N)).map fun k => v (k / N) ⟨k % N, Nat.mod_lt k hN⟩ := by
  induction R with
  | zero => simp
  | succ R ih =>
    rw [List.range_succ, List.flatMap_append, ih, Nat.succ_mul, List.range_add, List.map_append]
    congr 1
    rw [List.flatMap_singleton, List.map_map, List.ofFn_eq_map, ← List.map_coe_finRange_eq_range, List.map_map]
    refine List.map_congr_left fun i _ => ?_
    simp only [Function.comp_apply]
    have h1 : (R * N + i.1) / N = R := by
      rw [mul_comm, Nat.mul_add_div hN, Nat.div_eq_of_lt i.2, add_zero]
    have h2 : (R * N + i.1) % N = i.1 := by
      rw [mul_comm, Nat.mul_add_mod, Nat.mod_eq_of_lt i.2]
    simp only [h1, h2]

/-- A `montecarlo` instance that cumulates a sample for each run, with a value for each path. -/
theorem cumulates_runs (hc : InRange vs c) (hN : 0 < N) (hR : 0 < R) {smp : Ω → ℕ → Batch ℝ} {mc : Ω → MC ℝ}
    {v : Ω → ℕ → Fin N → ℝ}
    (hs : ∀ ω, ∀ r < R, (smp ω r).vshape = vs ∧ (smp ω r).raw c = List.ofFn (v ω r))
    (hmc : ∀ ω, McHistory auto bins range "all" ((List.range R).map (smp ω)) (mc ω)) :
    Cumulates auto bins range "all" vs c mc (R * N) fun k ω => v ω (k / N) ⟨k % N, Nat.mod_lt k hN⟩ := by
  refine ⟨hc, fun ω => ?_⟩
  obtain ⟨R, rfl⟩ : ∃ R', R = R' + 1 := ⟨R - 1, by omega⟩
  have h := hmc ω
  have hb := hs ω
  have hd : ∀ r < R + 1, (smp ω r).data "all" c = List.ofFn (v ω r) := fun r hr => by
    rw [← (hb r hr).2]
    rfl
  have hu : Uniform vs ((List.range (R + 1)).map (smp ω)) := by
    intro x hx
    obtain ⟨r, hr, rfl⟩ := List.mem_map.1 hx
    exact (hb r (List.mem_range.1 hr)).1
  have hne : NonEmpty "all" ((List.range (R + 1)).map (smp ω)) := by
    intro x hx
    obtain ⟨r, hr, rfl⟩ := List.mem_map.1 hx
    have h1 := congrArg List.length (hb r (List.mem_range.1 hr)).2
    rw [List.length_ofFn] at h1
    have : (smp ω r).size "all" = ((smp ω r).raw c).length := by
      simp only [Batch.size, if_pos, Batch.rawSize, Batch.raw]
      split_ifs <;> simp
    omega
  have hpool : pooled "all" ((List.range (R + 1)).map (smp ω)) c =
      (List.range ((R + 1) * N)).map fun k => v ω (k / N) ⟨k % N, Nat.mod_lt k hN⟩ := by
    rw [← flatMap_runs hN, pooled, List.flatMap_map]
    refine List.flatMap_congr fun r hr => hd r (List.mem_range.1 hr)
  rw [List.range_succ_eq_map, List.map_cons] at h hu hne hpool
  exact ⟨_, _, h, hu, hne, hpool⟩

end

/-- Variance and bias of an estimate. -/
theorem sq_error_eq {Ω : Type} [MeasurableSpace Ω] {P : Measure Ω} [IsProbabilityMeasure P] {f : Ω → ℝ} (c : ℝ)
    (hf : MemLp f 2 P) : ∫ ω, (f ω - c) ^ 2 ∂P = Var[f; P] + ((∫ ω, f ω ∂P) - c) ^ 2 := by
  have h1 : Var[fun ω => f ω - c; P] = Var[f; P] := variance_sub_const hf.aestronglyMeasurable c
  have h2 := variance_eq_sub (hf.sub (memLp_const c))
  have h3 : ∫ ω, (f ω - c) ∂P = (∫ ω, f ω ∂P) - c := by
    rw [integral_sub (hf.integrable (by norm_num)) (integrable_const _), integral_const]
    simp
  rw [← h1, ← h3]
  have h4 : Var[fun ω => f ω - c; P] = ∫ ω, (f ω - c) ^ 2 ∂P - (∫ ω, (f ω - c) ∂P) ^ 2 := h2
  linarith

/-- The inequality of Minkowski. -/
theorem sqrt_sq_add_le {Ω : Type} [MeasurableSpace Ω] {P : Measure Ω} {f g : Ω → ℝ} (hf : MemLp f 2 P) (hg : MemLp g 2 P) :
    √(∫ ω, (f ω + g ω) ^ 2 ∂P) ≤ √(∫ ω, f ω ^ 2 ∂P) + √(∫ ω, g ω ^ 2 ∂P) := by
  have i1 := hf.integrable_sq
  have i2 := hg.integrable_sq
  have i3 : Integrable (fun ω => f ω * g ω) P := hf.integrable_mul hg
  have key : ∀ x : ℝ, ∫ ω, (f ω + x * g ω) ^ 2 ∂P =
      (∫ ω, g ω ^ 2 ∂P) * (x * x) + (2 * ∫ ω, f ω * g ω ∂P) * x + ∫ ω, f ω ^ 2 ∂P := by
    intro x
    have e : ∀ ω, (f ω + x * g ω) ^ 2 = x * x * g ω ^ 2 + 2 * x * (f ω * g ω) + f ω ^ 2 := fun ω => by ring
    simp only [e]
    have j1 : Integrable (fun ω => x * x * g ω ^ 2 + 2 * x * (f ω * g ω)) P := (i2.const_mul _).add (i3.const_mul _)
    rw [integral_add j1 i1, integral_add (i2.const_mul _) (i3.const_mul _), integral_const_mul, integral_const_mul]
    ring
  have hd := discrim_le_zero fun x => (integral_nonneg fun ω => sq_nonneg (f ω + x * g ω)).trans_eq (key x)
  have hA : 0 ≤ ∫ ω, f ω ^ 2 ∂P := integral_nonneg fun ω => sq_nonneg _
  have hB : 0 ≤ ∫ ω, g ω ^ 2 ∂P := integral_nonneg fun ω => sq_nonneg _
  have h1 := key 1
  simp only [one_mul, mul_one] at h1
  rw [h1]
  set A := ∫ ω, f ω ^ 2 ∂P
  set B := ∫ ω, g ω ^ 2 ∂P
  set C := ∫ ω, f ω * g ω ∂P
  have hC : C ≤ √A * √B := by
    rw [← Real.sqrt_mul hA]
    refine Real.le_sqrt_of_sq_le ?_
    unfold discrim at hd
    nlinarith
  refine Real.sqrt_le_iff.2 ⟨by positivity, ?_⟩
  nlinarith [Real.sq_sqrt hA, Real.sq_sqrt hB]

/-- Standard deviations of variables that are close. -/
theorem sqrt_variance_le {Ω : Type} [MeasurableSpace Ω] {P : Measure Ω} [IsProbabilityMeasure P] {f g : Ω → ℝ}
    (hf : MemLp f 2 P) (hg : MemLp g 2 P) : √Var[f; P] ≤ √Var[g; P] + √(∫ ω, (f ω - g ω) ^ 2 ∂P) := by
  have h1 := sq_error_eq (∫ ω, g ω ∂P) hf
  have h2 := sq_error_eq (∫ ω, g ω ∂P) hg
  have h3 := sqrt_sq_add_le (hg.sub (memLp_const (∫ ω, g ω ∂P))) (hf.sub hg)
  simp only [Pi.sub_apply, sub_self, ne_eq, OfNat.ofNat_ne_zero, not_false_eq_true, zero_pow, add_zero] at h2 h3
  rw [h2] at h3
  refine le_trans (Real.sqrt_le_sqrt ?_) h3
  have e : ∀ ω, g ω - ∫ ω, g ω ∂P + (f ω - g ω) = f ω - ∫ ω, g ω ∂P := fun ω => by ring
  simp only [e]
  rw [h1]
  exact le_add_of_nonneg_right (sq_nonneg _)

theorem exists_longest (grid : List ℝ) : ∃ δ, Mesh grid δ := by
  have h : ∀ u ∈ grid, |u| ≤ (grid.map abs).sum := fun u hu => List.single_le_sum (fun x hx => by
    obtain ⟨y, -, rfl⟩ := List.mem_map.1 hx
    exact abs_nonneg y) _ (List.mem_map.2 ⟨u, hu, rfl⟩)
  refine ⟨2 * (grid.map abs).sum, fun u hu w hw _ _ => ?_⟩
  linarith [h u hu, h w hw, neg_abs_le u, le_abs_self w]

/-- Means and standard errors, computed by `montecarlo`, of values that are independent and of the same law. -/
theorem montecarlo_runs {σ : Type} {N : ℕ} [MeasurableSpace σ] {μ : Measure σ} [IsProbabilityMeasure μ] (hN : 0 < N)
    {U : ℕ → σ → Fin N → ℝ} (hpp : ∀ p p' : ℕ × Fin N,
      IdentDistrib (fun s => U p.1 s p.2) (fun s => U p'.1 s p'.2) μ μ ∧
      (p ≠ p' → IndepFun (fun s => U p.1 s p.2) (fun s => U p'.1 s p'.2) μ)) (i : Fin N)
    (hi : MemLp (fun s => U 0 s i) 2 μ) {m v : ℝ} (hm : m = ∫ s, U 0 s i ∂μ) (hv : v = Var[fun s => U 0 s i; μ])
    {auto : String → Option (ℝ × ℝ) → List ℝ → Py (List ℝ)} {bins : Bins ℝ} {range : Option (ℝ × ℝ)}
    {vs c : List ℕ} {smp : σ → ℕ → Batch ℝ} (hau : AutoOk auto) (hc : InRange vs c)
    (hs : ∀ s r, (smp s r).vshape = vs ∧ (smp s r).raw c = List.ofFn (U r s)) :
    (∀ R > 0, ∀ {mc : σ → MC ℝ}, (∀ s, McHistory auto bins range "all" ((List.range R).map (smp s)) (mc s)) →
      ∃ E : σ → ℝ, (∀ s, ∃ m, (mc s).mean = some m ∧ m.get c = some (E s)) ∧ MemLp E 2 μ ∧
        (∀ x, ∫ s, (E s - x) ^ 2 ∂μ = v / (R * N) + (m - x) ^ 2) ∧
        (2 ≤ R * N → ∃ D : σ → ℝ, (∀ s, ∃ a, (mc s).stderr = .ok a ∧ a.get c = some (D s)) ∧
          ∫ s, D s ^ 2 ∂μ = v / (R * N))) ∧
    ∀ {mc : ℕ → σ → MC ℝ},
      (∀ R s, McHistory auto bins range "all" ((List.range (R + 1)).map (smp s)) (mc R s)) →
      ∃ M V : ℕ → σ → ℝ, (∀ R s, (∃ a, (mc R s).mean = some a ∧ a.get c = some (M R s)) ∧
          ∃ a, (mc R s).var = .ok a ∧ a.get c = some (V R s)) ∧
        ∀ᵐ s ∂μ, Tendsto (fun R => M R s) atTop (𝓝 m) ∧ Tendsto (fun R => V R s) atTop (𝓝 v) := by
  -- values, one run after the other
  let f : ℕ → ℕ × Fin N := fun k => (k / N, ⟨k % N, Nat.mod_lt k hN⟩)
  have hf : Function.Injective f := by
    intro k k' h
    rw [Prod.mk.injEq, Fin.mk.injEq] at h
    rw [← Nat.div_add_mod k N, ← Nat.div_add_mod k' N, h.1, h.2]
  let F : ℕ → σ → ℝ := fun k s => U (f k).1 s (f k).2
  have hI : Pairwise fun k k' => IndepFun (F k) (F k') μ := fun k k' hkk =>
    (hpp (f k) (f k')).2 fun h => hkk (hf h)
  have hid : ∀ k, IdentDistrib (F k) (fun s => U 0 s i) μ μ := fun k =>
    (hpp (f k) (0, i)).1
  have hid0 : ∀ k, IdentDistrib (F k) (F 0) μ μ := fun k => (hid k).trans (hid 0).symm
  have hF0 : MemLp (F 0) 2 μ := (hid 0).memLp_iff.2 hi
  have hm0 : ∫ s, F 0 s ∂μ = m := by rw [hm]; exact (hid 0).integral_eq
  have hv0 : Var[F 0; μ] = v := by rw [hv]; exact (hid 0).variance_eq
  refine ⟨?_, ?_⟩
  · intro R hR mc hmc
    have hcum := cumulates_runs hc hN hR (v := fun s r => U r s)
      (fun s r _ => hs s r) hmc
    have hun := uncorrelated_of_iid (N := R * N) hF0 hI hid0
    rw [hm0, hv0] at hun
    obtain ⟨u1, u2, u3, -⟩ := uncorrelated_mean (Nat.mul_pos hR hN) hun
    rw [Nat.cast_mul] at u1 u2 u3
    refine ⟨_, fun s => ?_, u1, fun x => ?_, fun h2 => ?_⟩
    · have := (cumulates_values hau hcum s).2.2.1
      rw [Nat.cast_mul] at this
      exact this
    · rw [sq_error_eq x u1, u2, u3]
    · have := (C68_unbiased hau hcum hun).2 h2
      rw [Nat.cast_mul] at this
      exact this
  · intro mc hmc
    have hcum := fun R => cumulates_runs hc hN R.succ_pos (v := fun s r => U r s)
      (fun s r _ => hs s r) (hmc R)
    have := C68_consistent hau hcum (tendsto_atTop_mono (fun R => by
      show R ≤ R.succ * N
      nlinarith) tendsto_id) hF0 hI hid0
    rw [hm0, hv0] at this
    exact this

section
variable {κ : Type} [Fintype κ] {ids : Finset ℕ} {a : ℕ → ℝ → (κ → ℝ) → κ → ℝ} {t0 : ℝ}

/-- **C103** (paths). A simulation with many paths, all with the same initial values, of an equation with any number of
sources of noise is repeated any number of times, each run starting from the state of the random generator left by the
previous one; sources draw from the generator independent increments for each path. The values simulated along a path,
for all times of the timeline, have the same joint law whatever the path and the run; paths of all runs, each as a
whole, are independent. -/
theorem C103_paths [Nonempty {id // id ∈ ids.erase idT}] {T L : ℝ} (hT : 0 ≤ T)
    (hL : LipschitzCoefs (a idT) (fun j : {id // id ∈ ids.erase idT} => a j.1) t0 T L) (y0 : κ → ℝ)
    {law : ℕ → ℝ → Measure (κ → ℝ)} (hpr : ∀ j ∈ ids.erase idT, ∀ h > 0, IsProbabilityMeasure (law j h))
    {σ C ι O : Type} [MeasurableSpace σ] [Fintype C] [Fintype ι] {μ : Measure σ}
    [IsProbabilityMeasure μ] (e : C ≃ ι × κ) {S : SDE ℝ (C → ℝ) O ℕ σ} {x0 : C → ℝ}
    (hS : SDEOk S) (hdt : S.sources.lookup idT = some dtSource) (hids : (equation S).ids = ids)
    (hcoef : ∀ t x, (equation S).coef t x = .ok fun id p => a id t (fun k => x (e.symm ((e p).1, k))) (e p).2)
    (hinit : S.init t0 = .ok x0) (hx0 : ∀ p, (if S.log then S.logX x0 else x0) p = y0 (e p).2)
    (hdraw : (equation S).DrawsNoise idT μ (fun j h => pathsLaw e (law j.1 h)))
    {fuel : ℕ} {steps : Steps ℝ} {i0 : ℤ} {tl : TArr ℝ} {grid : List ℝ}
    (ha : Along fuel steps i0 tl grid t0) :
    ∃ (X : ℕ → ℝ → σ → C → ℝ) (ss : ℕ → σ → σ), (∀ s, ss 0 s = s) ∧
      (∀ r s, S.call fuel steps i0 tl (ss r s) = .ok (tl.data.map fun t => some
        (if S.log then S.expO (S.letX t (X r t s)) else S.letX t (X r t s)), ss (r + 1) s)) ∧
      (∀ p p' : ℕ × ι,
        IdentDistrib (fun s (t : {t : ℝ // t ∈ tl.data ∧ t ∈ Set.Icc t0 (t0 + T)}) k => X p.1 t s (e.symm (p.2, k)))
          (fun s (t : {t : ℝ // t ∈ tl.data ∧ t ∈ Set.Icc t0 (t0 + T)}) k => X p'.1 t s (e.symm (p'.2, k))) μ μ) ∧
      iIndepFun (fun (p : ℕ × ι) s (t : {t : ℝ // t ∈ tl.data ∧ t ∈ Set.Icc t0 (t0 + T)}) k =>
        X p.1 t s (e.symm (p.2, k))) μ := by
  obtain ⟨δ, hm⟩ := exists_longest grid
  obtain ⟨X, ss, g, e0, e1, -, -, -, -, g5, hd, hi, -⟩ :=
    paths_of_scheme hT hL y0 hpr e hS hdt hids hcoef hinit hx0 hdraw ha hm
  refine ⟨X, ss, e0, e1, ?_⟩
  have hψ : Measurable fun (w : {t : ℝ // t ∈ g} → κ → ℝ) (t : {t : ℝ // t ∈ tl.data ∧ t ∈ Set.Icc t0 (t0 + T)}) =>
      w ⟨t.1, g5 t.1 t.2.1 t.2.2⟩ := measurable_pi_lambda _ fun t => measurable_pi_apply _
  exact ⟨fun p p' => (hd p p').comp hψ, hi.comp _ fun _ => hψ⟩

/-- **C103** (`montecarlo`). The mean and the standard error computed by `montecarlo`, in a component of the samples
cumulated, one for each run, with the values, for each path, of a function `φ` of the values simulated for all times of the
timeline. Let `m` and `v` be the mean and the variance of the function along a path. The mean square error of the mean, as
an estimate of any number `c`, is exactly `v` divided by the number of paths in all runs, plus the square of
`m - c`; the mean of the square of the standard error is exactly the first of these. -/
theorem C103_montecarlo [Nonempty {id // id ∈ ids.erase idT}] {T L : ℝ} (hT : 0 ≤ T)
    (hL : LipschitzCoefs (a idT) (fun j : {id // id ∈ ids.erase idT} => a j.1) t0 T L) (y0 : κ → ℝ)
    {law : ℕ → ℝ → Measure (κ → ℝ)} (hpr : ∀ j ∈ ids.erase idT, ∀ h > 0, IsProbabilityMeasure (law j h))
    {σ C O : Type} {N : ℕ} [MeasurableSpace σ] [Fintype C] {μ : Measure σ}
    [IsProbabilityMeasure μ] (e : C ≃ Fin N × κ) {S : SDE ℝ (C → ℝ) O ℕ σ} {x0 : C → ℝ} (hN : 0 < N)
    (hS : SDEOk S) (hdt : S.sources.lookup idT = some dtSource) (hids : (equation S).ids = ids)
    (hcoef : ∀ t x, (equation S).coef t x = .ok fun id p => a id t (fun k => x (e.symm ((e p).1, k))) (e p).2)
    (hinit : S.init t0 = .ok x0) (hx0 : ∀ p, (if S.log then S.logX x0 else x0) p = y0 (e p).2)
    (hdraw : (equation S).DrawsNoise idT μ (fun j h => pathsLaw e (law j.1 h)))
    {fuel : ℕ} {steps : Steps ℝ} {i0 : ℤ} {tl : TArr ℝ} {grid : List ℝ}
    (ha : Along fuel steps i0 tl grid t0) :
    ∃ (X : ℕ → ℝ → σ → C → ℝ) (ss : ℕ → σ → σ), (∀ s, ss 0 s = s) ∧
      (∀ r s, S.call fuel steps i0 tl (ss r s) = .ok (tl.data.map fun t => some
        (if S.log then S.expO (S.letX t (X r t s)) else S.letX t (X r t s)), ss (r + 1) s)) ∧
      (∀ r i, AEMeasurable (fun s (t : {t : ℝ // t ∈ tl.data ∧ t ∈ Set.Icc t0 (t0 + T)}) k => X r t s (e.symm (i, k))) μ) ∧
      ∀ (φ : ({t : ℝ // t ∈ tl.data ∧ t ∈ Set.Icc t0 (t0 + T)} → κ → ℝ) → ℝ), Measurable φ → ∀ (i : Fin N),
        MemLp (fun s => φ fun t k => X 0 t s (e.symm (i, k))) 2 μ → ∀ {m v : ℝ},
        m = ∫ s, φ (fun t k => X 0 t s (e.symm (i, k))) ∂μ → v = Var[fun s => φ fun t k => X 0 t s (e.symm (i, k)); μ] →
        ∀ {auto : String → Option (ℝ × ℝ) → List ℝ → Py (List ℝ)} {bins : Bins ℝ} {range : Option (ℝ × ℝ)}
          {vs c : List ℕ} {smp : σ → ℕ → Batch ℝ}, AutoOk auto → InRange vs c →
          (∀ s r, (smp s r).vshape = vs ∧
            (smp s r).raw c = List.ofFn fun i => φ fun t k => X r t s (e.symm (i, k))) →
          (∀ R > 0, ∀ {mc : σ → MC ℝ}, (∀ s, McHistory auto bins range "all" ((List.range R).map (smp s)) (mc s)) →
            ∃ E : σ → ℝ, (∀ s, ∃ m, (mc s).mean = some m ∧ m.get c = some (E s)) ∧ MemLp E 2 μ ∧
              (∀ x, ∫ s, (E s - x) ^ 2 ∂μ = v / (R * N) + (m - x) ^ 2) ∧
              (2 ≤ R * N → ∃ D : σ → ℝ, (∀ s, ∃ a, (mc s).stderr = .ok a ∧ a.get c = some (D s)) ∧
                ∫ s, D s ^ 2 ∂μ = v / (R * N))) ∧
          ∀ {mc : ℕ → σ → MC ℝ},
            (∀ R s, McHistory auto bins range "all" ((List.range (R + 1)).map (smp s)) (mc R s)) →
            ∃ M V : ℕ → σ → ℝ, (∀ R s, (∃ a, (mc R s).mean = some a ∧ a.get c = some (M R s)) ∧
                ∃ a, (mc R s).var = .ok a ∧ a.get c = some (V R s)) ∧
              ∀ᵐ s ∂μ, Tendsto (fun R => M R s) atTop (𝓝 m) ∧ Tendsto (fun R => V R s) atTop (𝓝 v) := by
  obtain ⟨X, ss, e0, e1, hd, hi'⟩ := C103_paths hT hL y0 hpr e hS hdt hids hcoef hinit hx0 hdraw ha
  refine ⟨X, ss, e0, e1, fun r i => (hd (r, i) (r, i)).aemeasurable_fst, ?_⟩
  intro φ hφ i hi m v hm hv auto bins range vs c smp hau hc hs
  exact montecarlo_runs hN (U := fun r s i => φ fun t k => X r t s (e.symm (i, k)))
    (fun p p' => ⟨(hd p p').comp hφ, fun h => (hi'.indepFun h).comp hφ hφ⟩) i hi hm hv hau hc hs

/-- **C103** (means). If the drift of the equation of a single path, once each increment of noise is replaced by its mean,
is affine in the values, then the mean computed by `montecarlo` of a component of the values simulated for a time of the
timeline estimates that of the solution with mean square error at most the square of `s + √(K*δ)`, divided by the
number of paths in all runs, plus the square of `K*δ`, where `s` is the standard deviation of the component of the
solution and `δ` is the longest step: with many paths, the error is of order one in `δ`. `K` only depends on the equation
of a single path, on its noise and initial values, and on `T`. -/
theorem C103_means [Nonempty {id // id ∈ ids.erase idT}] {T L M : ℝ} (hT : 0 < T)
    (hL : LipschitzCoefs (a idT) (fun j : {id // id ∈ ids.erase idT} => a j.1) t0 T L) (y0 : κ → ℝ)
    {law : ℕ → ℝ → Measure (κ → ℝ)} (hpr : ∀ j ∈ ids.erase idT, ∀ h > 0, IsProbabilityMeasure (law j h))
    {m v : ℕ → ℝ} (hv : ∀ j ∈ ids.erase idT, 0 < v j) (hmo : ∀ j ∈ ids.erase idT, HasMoments (law j) (m j) (v j))
    (hA : ∀ t ∈ Set.Icc t0 (t0 + T),
      IsAffineIn (meanDrift (a idT) (fun j : {id // id ∈ ids.erase idT} => a j.1) (fun j => m j.1) t))
    (hM : LipschitzField (meanDrift (a idT) (fun j : {id // id ∈ ids.erase idT} => a j.1) fun j => m j.1) t0 T M) :
    ∃ K ≥ 0, ∀ {σ C O : Type} {N : ℕ} [MeasurableSpace σ] [Fintype C] {μ : Measure σ}
      [IsProbabilityMeasure μ] (e : C ≃ Fin N × κ) {S : SDE ℝ (C → ℝ) O ℕ σ} {x0 : C → ℝ}, 0 < N →
      SDEOk S → S.sources.lookup idT = some dtSource → (equation S).ids = ids →
      (∀ t x, (equation S).coef t x = .ok fun id p => a id t (fun k => x (e.symm ((e p).1, k))) (e p).2) →
      S.init t0 = .ok x0 → (∀ p, (if S.log then S.logX x0 else x0) p = y0 (e p).2) →
      (equation S).DrawsNoise idT μ (fun j h => pathsLaw e (law j.1 h)) →
      ∀ {Ω : Type} [MeasurableSpace Ω] {P : Measure Ω} [IsProbabilityMeasure P]
      {Z : ℝ → Ω → {id // id ∈ ids.erase idT} → κ → ℝ} {Y : ℝ → Ω → κ → ℝ},
      Increments P t0 (Set.Icc t0 (t0 + T)) (fun h => Measure.pi fun j : {id // id ∈ ids.erase idT} => law j.1 h) Z →
      Solves P (a idT) (fun j : {id // id ∈ ids.erase idT} => a j.1) t0 T y0 (fun u ω p => Z u ω p.1 p.2) Y →
      ∀ {fuel : ℕ} {steps : Steps ℝ} {i0 : ℤ} {tl : TArr ℝ} {grid : List ℝ} {δ : ℝ}, 0 ≤ δ →
        Along fuel steps i0 tl grid t0 → Mesh grid δ →
        ∃ (X : ℕ → ℝ → σ → C → ℝ) (ss : ℕ → σ → σ), (∀ s, ss 0 s = s) ∧
          (∀ r s, S.call fuel steps i0 tl (ss r s) = .ok (tl.data.map fun t => some
            (if S.log then S.expO (S.letX t (X r t s)) else S.letX t (X r t s)), ss (r + 1) s)) ∧
          ∀ t ∈ tl.data, t ∈ Set.Icc t0 (t0 + T) → ∀ k : κ,
            ∀ {auto : String → Option (ℝ × ℝ) → List ℝ → Py (List ℝ)} {bins : Bins ℝ} {range : Option (ℝ × ℝ)}
              {vs c : List ℕ} {smp : σ → ℕ → Batch ℝ}, AutoOk auto → InRange vs c →
              (∀ s r, (smp s r).vshape = vs ∧ (smp s r).raw c = List.ofFn fun i => X r t s (e.symm (i, k))) →
              ∀ R > 0, ∀ {mc : σ → MC ℝ}, (∀ s, McHistory auto bins range "all" ((List.range R).map (smp s)) (mc s)) →
              ∃ E : σ → ℝ, (∀ s, ∃ m, (mc s).mean = some m ∧ m.get c = some (E s)) ∧ MemLp E 2 μ ∧
                |∫ s, E s ∂μ - ∫ ω, Y t ω k ∂P| ≤ K * δ ∧
                ∫ s, (E s - ∫ ω, Y t ω k ∂P) ^ 2 ∂μ ≤
                  (√Var[fun ω => Y t ω k; P] + √(K * δ)) ^ 2 / (R * N) + (K * δ) ^ 2 := by
  obtain ⟨y, hy⟩ := exists_ode hM hT y0
  obtain ⟨K1, hK1, herr⟩ := ode_error hM hT hy
  have hv' : ∀ j : {id // id ∈ ids.erase idT}, 0 < v j.1 := fun j => hv j.1 j.2
  obtain ⟨K2, hK2, hclose⟩ := solution_close_all hT.le hL y0 (fun j => m j.1) (v := fun j => v j.1) hv'
  refine ⟨max K1 K2, le_max_of_le_left hK1, ?_⟩
  intro σ C O N _ _ μ _ e S x0 hN hS hdt hids hcoef hinit hx0 hdraw Ω _ P _ Z' Y hZ' hY fuel steps i0 tl grid δ hδ ha hm
  have hprob : ∀ (j : {id // id ∈ ids.erase idT}) h, 0 < h → IsProbabilityMeasure (law j.1 h) :=
    fun j h hh => hpr j.1 j.2 h hh
  have hNo := noises_of_increments hprob (fun j => hmo j.1 j.2) hZ'
  obtain ⟨X, ss, g, e0, e1, g1, g2, gI, g4, g5, hd, hi', hlink⟩ :=
    paths_of_scheme hT.le hL y0 hpr e hS hdt hids hcoef hinit hx0 hdraw ha hm
  obtain ⟨X0, hX0, hid⟩ := hlink hZ'
  refine ⟨X, ss, e0, e1, ?_⟩
  intro t ht hI k auto bins range vs c smp hau hc hs R hR mc hmc
  have htg := g5 t ht hI
  obtain ⟨hl, hms⟩ := hclose hNo hY hδ g1 g2 gI g4 hX0 t htg
  have hYl := hY.memLp t hI
  have hψ : Measurable fun w : {t : ℝ // t ∈ g} → κ → ℝ => w ⟨t, htg⟩ k :=
    (measurable_pi_apply k).comp (measurable_pi_apply _)
  have hid0 : IdentDistrib (fun s => X 0 t s (e.symm (⟨0, hN⟩, k))) (fun ω => X0 t ω k) μ P :=
    (hid (0, ⟨0, hN⟩)).comp hψ
  obtain ⟨E, f1, f2, f3, -⟩ := (montecarlo_runs hN (U := fun r s i => X r t s (e.symm (i, k)))
    (fun p p' => ⟨(hd p p').comp hψ, fun h => (hi'.indepFun h).comp hψ hψ⟩) ⟨0, hN⟩ (hid0.memLp_iff.2 (hl k)) rfl rfl
    hau hc hs).1 R hR hmc
  simp only [hid0.integral_eq, hid0.variance_eq] at f3
  have hR0 : (0 : ℝ) < R * N := by positivity
  have hmean : ∫ s, E s ∂μ = ∫ ω, X0 t ω k ∂P := by
    have h1 := f3 (∫ s, E s ∂μ)
    have h2 := f3 (∫ ω, X0 t ω k ∂P)
    rw [sq_error_eq _ f2] at h1 h2
    simp only [sub_self, ne_eq, OfNat.ofNat_ne_zero, not_false_eq_true, zero_pow, add_zero] at h1 h2
    have h3 : (∫ s, E s ∂μ - ∫ ω, X0 t ω k ∂P) ^ 2 = 0 := by nlinarith [sq_nonneg (∫ ω, X0 t ω k ∂P - ∫ s, E s ∂μ)]
    linarith [pow_eq_zero_iff (two_ne_zero) |>.1 h3]
  have hbias : |∫ ω, X0 t ω k ∂P - ∫ ω, Y t ω k ∂P| ≤ max K1 K2 * δ := by
    rw [solution_mean hT hL hv' hA hM hy hNo hY hI k]
    have h := herr g1 g2 hδ g4 (means_euler hT.le hL hv' hNo hA g1 g2 gI hX0) t htg ⟨by linarith [hI.1], hI.2⟩
    have := (norm_le_pi_norm _ k).trans h
    simp only [Real.norm_eq_abs, Pi.sub_apply] at this
    exact this.trans (mul_le_mul_of_nonneg_right (le_max_left _ _) hδ)
  have hsd : √Var[fun ω => X0 t ω k; P] ≤ √Var[fun ω => Y t ω k; P] + √(max K1 K2 * δ) := by
    refine (sqrt_variance_le (hl k) (hYl k)).trans (add_le_add_right (Real.sqrt_le_sqrt ?_) _)
    refine le_trans ?_ (hms.trans (mul_le_mul_of_nonneg_right (le_max_right _ _) hδ))
    exact Finset.single_le_sum (f := fun i => ∫ ω, (X0 t ω i - Y t ω i) ^ 2 ∂P)
      (fun i _ => integral_nonneg fun ω => sq_nonneg _) (Finset.mem_univ k)
  refine ⟨E, f1, f2, by rw [hmean]; exact hbias, ?_⟩
  rw [f3]
  refine add_le_add (div_le_div_of_nonneg_right ?_ hR0.le) ?_
  · rw [← Real.sq_sqrt (variance_nonneg (fun ω => X0 t ω k) P)]
    exact pow_le_pow_left₀ (Real.sqrt_nonneg _) hsd 2
  · rw [← sq_abs]
    exact pow_le_pow_left₀ (abs_nonneg _) hbias 2

end

/-! ### Examples -/

theorem exMerton_paths : (equation exMerton).DrawsNoise idT exState
    (fun j h => pathsLaw (cellPath [2] 3) (jumpLaw idJ 3 exJumpLaw j.1 h)) :=
  C89_sources (itemRng_draws stdNormal) (itemDraw_draws stdNormal) exCells (by norm_num) (fun _ => rfl) (by
    rw [exJumpLaw, ← stdNormal_affine]
    refine rvsOf_law (by fun_prop) (fun z => ?_) (itemSample_draws stdNormal)
    simp only [frozen]
    rw [if_neg (by norm_num)]) rfl

theorem exMerton_coef (t : ℝ) (x : Cells ([2] ++ [3]) → ℝ) : (equation exMerton).coef t x = .ok fun id p =>
    exCoef id * x ((cellPath [2] 3).symm (((cellPath [2] 3) p).1, ((cellPath [2] 3) p).2)) := by
  rw [show (equation exMerton).coef t x = .ok fun id p => exCoef id * x p from exJumps_coef _ _ t x]
  congr 1
  funext id p
  simp only [Prod.mk.eta, Equiv.symm_apply_apply]

theorem exMerton_prob (j : ℕ) (_ : j ∈ ({idT, idW, idJ} : Finset ℕ).erase idT) (h : ℝ) (_ : h > 0) :
    IsProbabilityMeasure (jumpLaw (κ := Cells [2]) idJ 3 exJumpLaw j h) := by
  have : IsProbabilityMeasure (compoundPoisson (3 * h) exJumpLaw) :=
    Measure.isProbabilityMeasure_map measurable_sumTo.aemeasurable
  unfold jumpLaw
  infer_instance

/-- `dx = x/20*dt + x/5*dw + x/10*dj`, with the sources of the library, for 3 jumps per unit of time of law `N(-1, 1/4)`,
with three paths and two components, in each of two runs: the frequency, by `montecarlo`, with which the second component
is greater at 2 than at 3/2. -/
example : ∃ (X : ℕ → ℝ → (ℕ → Item ℝ) → Cells ([2] ++ [3]) → ℝ) (ss : ℕ → (ℕ → Item ℝ) → ℕ → Item ℝ)
    (mc : (ℕ → Item ℝ) → MC ℝ) (E D : (ℕ → Item ℝ) → ℝ),
    (∀ r s, exMerton.call 10 .none 0 ⟨[3], [1, 3 / 2, 2]⟩ (ss r s) =
      .ok ([some (X r 1 s), some (X r (3 / 2) s), some (X r 2 s)], ss (r + 1) s)) ∧
    (∀ s, McHistory exAuto .none none "all" ((List.range 2).map fun r => exSmp fun i =>
      if X r (3 / 2) s ((cellPath [2] 3).symm (i, ⟨[1], by decide⟩)) < X r 2 s ((cellPath [2] 3).symm (i, ⟨[1], by decide⟩))
      then 1 else 0) (mc s)) ∧
    (∀ s, ∃ m, (mc s).mean = some m ∧ m.get [] = some (E s)) ∧
    (∀ s, ∃ a, (mc s).stderr = .ok a ∧ a.get [] = some (D s)) ∧
    ∃ m v : ℝ, m = ∫ s, (if X 0 (3 / 2) s ((cellPath [2] 3).symm (0, ⟨[1], by decide⟩)) <
        X 0 2 s ((cellPath [2] 3).symm (0, ⟨[1], by decide⟩)) then 1 else 0) ∂exState ∧
      v = Var[fun s => if X 0 (3 / 2) s ((cellPath [2] 3).symm (0, ⟨[1], by decide⟩)) <
        X 0 2 s ((cellPath [2] 3).symm (0, ⟨[1], by decide⟩)) then (1 : ℝ) else 0; exState] ∧
      ∫ s, (E s - m) ^ 2 ∂exState = v / 6 ∧ ∫ s, D s ^ 2 ∂exState = v / 6 := by
  have hL := exLipschitzN (ι := Cells [2]) (exCoef idT)
    (fun j : {id // id ∈ ({idT, idW, idJ} : Finset ℕ).erase idT} => exCoef j.1) 1 1
  obtain ⟨X, ss, -, e1, e2, e3⟩ := C103_montecarlo (ids := {idT, idW, idJ}) (a := fun id _ x k => exCoef id * x k) (t0 := 1)
    (T := 1) zero_le_one hL (fun _ : Cells [2] => 10) (law := jumpLaw idJ 3 exJumpLaw) exMerton_prob
    (N := 3) (cellPath [2] 3) (S := exMerton) (by norm_num) (exJumps_ok _ _) rfl (exJumps_ids _ _) exMerton_coef rfl
    (fun _ => rfl) exMerton_paths exAlongS
  choose mc hmc using fun s => exHistory (fun r => exSmp fun i =>
    if X r (3 / 2) s ((cellPath [2] 3).symm (i, ⟨[1], by decide⟩)) < X r 2 s ((cellPath [2] 3).symm (i, ⟨[1], by decide⟩))
    then 1 else 0) (fun r => rfl) (fun r => ⟨by simp [exSmp], by simp [exSmp], .inl rfl⟩) 2
  have hφ : Measurable fun w : {t : ℝ // t ∈ [1, 3 / 2, 2] ∧ t ∈ Set.Icc (1 : ℝ) (1 + 1)} → Cells [2] → ℝ =>
      if w ⟨3 / 2, by norm_num⟩ ⟨[1], by decide⟩ < w ⟨2, by norm_num⟩ ⟨[1], by decide⟩ then (1 : ℝ) else 0 :=
    Measurable.ite (measurableSet_lt (by fun_prop) (by fun_prop)) measurable_const measurable_const
  obtain ⟨m, hm⟩ : ∃ m, m = ∫ s, (if X 0 (3 / 2) s ((cellPath [2] 3).symm (0, ⟨[1], by decide⟩)) <
      X 0 2 s ((cellPath [2] 3).symm (0, ⟨[1], by decide⟩)) then (1 : ℝ) else 0) ∂exState := ⟨_, rfl⟩
  obtain ⟨v, hv⟩ : ∃ v, v = Var[fun s => if X 0 (3 / 2) s ((cellPath [2] 3).symm (0, ⟨[1], by decide⟩)) <
      X 0 2 s ((cellPath [2] 3).symm (0, ⟨[1], by decide⟩)) then (1 : ℝ) else 0; exState] := ⟨_, rfl⟩
  obtain ⟨E, f1, f2, f3, f4⟩ := (e3 _ hφ 0 (MemLp.of_bound
    (hφ.comp_aemeasurable (e2 0 0)).aestronglyMeasurable 1 (ae_of_all _ fun s => by
      simp only [Function.comp_apply]
      split_ifs <;> simp)) hm hv exAuto_ok (vs := []) (c := []) (by simp [InRange]) (fun s r => ⟨rfl, by
        simp [exSmp, Batch.raw, Batch.ax, List.ofFn_succ, List.range_succ]⟩)).1 2 (by norm_num) hmc
  obtain ⟨D, d1, d2⟩ := f4 (by norm_num)
  refine ⟨X, ss, mc, E, D, e1, hmc, f1, d1, m, v, hm, hv, (f3 _).trans ?_, d2.trans ?_⟩ <;> norm_num

/-- The mean at 2 of the second component. -/
example : ∃ (Ω : Type) (_ : MeasurableSpace Ω) (P : Measure Ω)
    (Z : ℝ → Ω → {id // id ∈ ({idT, idW, idJ} : Finset ℕ).erase idT} → Cells [2] → ℝ) (Y : ℝ → Ω → Cells [2] → ℝ) (K : ℝ)
    (X : ℕ → ℝ → (ℕ → Item ℝ) → Cells ([2] ++ [3]) → ℝ) (ss : ℕ → (ℕ → Item ℝ) → ℕ → Item ℝ)
    (mc : (ℕ → Item ℝ) → MC ℝ) (E : (ℕ → Item ℝ) → ℝ),
    Solves P (fun _ x k => exCoef idT * x k) (fun j _ x k => exCoef j.1 * x k) 1 1 (fun _ => 10)
      (fun u ω c => Z u ω c.1 c.2) Y ∧
    (∀ r s, exMerton.call 10 .none 0 ⟨[3], [1, 3 / 2, 2]⟩ (ss r s) =
      .ok ([some (X r 1 s), some (X r (3 / 2) s), some (X r 2 s)], ss (r + 1) s)) ∧
    (∀ s, McHistory exAuto .none none "all" ((List.range 2).map fun r => exSmp fun i =>
      X r 2 s ((cellPath [2] 3).symm (i, ⟨[1], by decide⟩))) (mc s)) ∧
    (∀ s, ∃ m, (mc s).mean = some m ∧ m.get [] = some (E s)) ∧
    ∫ s, (E s - ∫ ω, Y 2 ω ⟨[1], by decide⟩ ∂P) ^ 2 ∂exState ≤
      (√Var[fun ω => Y 2 ω ⟨[1], by decide⟩; P] + √(K * (1 / 2))) ^ 2 / 6 + (K * (1 / 2)) ^ 2 := by
  have h2 : MemLp id 2 exJumpLaw := memLp_id_gaussianReal 2
  obtain ⟨Ω, mΩ, P, Z, hP, hI, hN⟩ := exists_noise_paths (ι := Cells [2]) (({idT, idW, idJ} : Finset ℕ).erase idT)
    (by norm_num : (0 : ℝ) ≤ 3) exJumpLaw h2
  have hL := exLipschitzN (ι := Cells [2]) (exCoef idT)
    (fun j : {id // id ∈ ({idT, idW, idJ} : Finset ℕ).erase idT} => exCoef j.1) 1 1
  have hv : ∀ j : ℕ, (0 : ℝ) < if j = idJ then 3 * ∫ x, x ^ 2 ∂exJumpLaw else 1 := fun j => by
    split_ifs
    · exact mul_pos (by norm_num) exJumpLaw_sq
    · exact one_pos
  obtain ⟨K0, -, h0⟩ := exists_solution_all zero_le_one hL (fun _ => 10) _
    (v := fun j => if j.1 = idJ then 3 * ∫ x, x ^ 2 ∂exJumpLaw else 1) fun j => hv j.1
  obtain ⟨Y, hY, -⟩ := h0 hN
  obtain ⟨K, -, h⟩ := C103_means (ids := {idT, idW, idJ}) (a := fun id _ x k => exCoef id * x k) (t0 := 1) (T := 1)
    one_pos hL (fun _ : Cells [2] => 10) (law := jumpLaw idJ 3 exJumpLaw) exMerton_prob
    (m := fun j => if j = idJ then 3 * ∫ x, x ∂exJumpLaw else 0) (fun j _ => hv j)
    (fun j hj => jumpDiffusion_moments (J := ({idT, idW, idJ} : Finset ℕ).erase idT) (by norm_num) h2 ⟨j, hj⟩)
    (fun t _ => exMeanDrift_affine _ t) (exMeanDrift_field _ 1 1)
  obtain ⟨X, ss, -, e1, e2⟩ := h (N := 3) (cellPath [2] 3) (S := exMerton) (by norm_num) (exJumps_ok _ _) rfl
    (exJumps_ids _ _) exMerton_coef rfl (fun _ => rfl) exMerton_paths hI hY (δ := 1 / 2) (by norm_num) exAlongS exMesh
  choose mc hmc using fun s => exHistory (fun r => exSmp fun i => X r 2 s ((cellPath [2] 3).symm (i, ⟨[1], by decide⟩)))
    (fun r => rfl) (fun r => ⟨by simp [exSmp], by simp [exSmp], .inl rfl⟩) 2
  obtain ⟨E, f1, -, -, f2⟩ := e2 2 (by simp) (by norm_num) ⟨[1], by decide⟩ exAuto_ok (vs := []) (c := [])
    (by simp [InRange]) (fun s r => ⟨rfl, by
      simp [exSmp, Batch.raw, Batch.ax, List.ofFn_succ, List.range_succ]⟩) 2 (by norm_num) hmc
  refine ⟨Ω, mΩ, P, Z, Y, K, X, ss, mc, E, hY, e1, hmc, f1, f2.trans (le_of_eq ?_)⟩
  norm_num

end Sdepy
