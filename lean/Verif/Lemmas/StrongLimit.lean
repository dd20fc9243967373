import Verif.Lemmas.StrongLink
import Mathlib.MeasureTheory.Function.L2Space
import Mathlib.MeasureTheory.Function.ConvergenceInMeasure

/-!
# Solutions of stochastic differential equations as limits of Euler schemes
-/

set_option linter.unusedSectionVars false

open MeasureTheory ProbabilityTheory Filter Topology

namespace Sdepy

open Spec

variable {Ω ι : Type} [MeasurableSpace Ω] [Fintype ι] {P : Measure Ω} [IsProbabilityMeasure P]
  {t0 T L : ℝ} {D : Set ℝ} {W : ℝ → Ω → ι → ℝ} {a b : ℝ → (ι → ℝ) → ι → ℝ} {x0 : ι → ℝ}

/-! ### Grids and schemes -/

theorem exists_grid {t δ : ℝ} (hδ : 0 < δ) (ht : t ∈ Set.Icc t0 (t0 + T)) :
    ∃ grid : List ℝ, grid.Pairwise (· < ·) ∧ t0 ∈ grid ∧ t ∈ grid ∧
      (∀ u ∈ grid, u ∈ Set.Icc t0 (t0 + T)) ∧ Mesh grid δ := by
  have hT : 0 ≤ T := by linarith [ht.1, ht.2]
  obtain ⟨N, hN⟩ := exists_nat_gt (T / δ)
  rw [div_lt_iff₀ hδ] at hN
  let A : Finset ℝ := insert t0 (insert t (((Finset.range (N + 1)).image fun k : ℕ => t0 + k * δ).filter
    (· ≤ t0 + T)))
  have hA : ∀ u, u ∈ A ↔ u = t0 ∨ u = t ∨ ((∃ k : ℕ, k < N + 1 ∧ t0 + k * δ = u) ∧ u ≤ t0 + T) := by
    intro u; simp [A]
  have hmem : ∀ u, u ∈ A.sort (· ≤ ·) ↔ u = t0 ∨ u = t ∨ ((∃ k : ℕ, k < N + 1 ∧ t0 + k * δ = u) ∧ u ≤ t0 + T) :=
    fun u => by rw [Finset.mem_sort, hA]
  have hI : ∀ u ∈ A.sort (· ≤ ·), u ∈ Set.Icc t0 (t0 + T) := by
    intro u hu
    rcases (hmem u).1 hu with rfl | rfl | ⟨⟨k, -, rfl⟩, h⟩
    · exact ⟨le_rfl, by linarith⟩
    · exact ht
    · exact ⟨by have := mul_nonneg (Nat.cast_nonneg (α := ℝ) k) hδ.le; linarith, h⟩
  refine ⟨A.sort (· ≤ ·), (Finset.sortedLT_sort _).pairwise, (hmem _).2 (.inl rfl), (hmem _).2 (.inr (.inl rfl)),
    hI, ?_⟩
  intro u hu v hv huv hno
  have huI := hI u hu
  have hvI := hI v hv
  have h0 : 0 ≤ (u - t0) / δ := div_nonneg (by linarith [huI.1]) hδ.le
  set k := ⌊(u - t0) / δ⌋₊ with hk
  have k1 : (k : ℝ) ≤ (u - t0) / δ := Nat.floor_le h0
  have k2 : (u - t0) / δ < k + 1 := Nat.lt_floor_add_one _
  rw [le_div_iff₀ hδ] at k1
  rw [div_lt_iff₀ hδ] at k2
  by_contra hc
  push Not at hc
  refine hno (t0 + ((k + 1 : ℕ) : ℝ) * δ) ((hmem _).2 (.inr (.inr ⟨⟨k + 1, ?_, rfl⟩, ?_⟩))) ⟨?_, ?_⟩
  · have : (k : ℝ) * δ < N * δ := by linarith [hvI.2]
    have := lt_of_mul_lt_mul_right this hδ.le
    have : k < N := by exact_mod_cast this
    omega
  · push_cast; linarith [hvI.2]
  · push_cast; linarith
  · push_cast; linarith

/-- Sums with coefficients along given values, for all grids. -/
theorem exists_sums {grid : List ℝ} (hg : grid.Pairwise (· < ·)) (h0 : t0 ∈ grid) (a b : ℝ → (ι → ℝ) → ι → ℝ)
    (x0 : ι → ℝ) (W : ℝ → Ω → ι → ℝ) : ∃ X : ℝ → Ω → ι → ℝ, IsScheme a b t0 x0 grid W X := by
  let dw : Src ℝ ι Ω := fun t dt ω => .ok (W (t + dt) ω - W t ω, ω)
  let S : SDE ℝ (ι → ℝ) (ι → ℝ) ℕ Ω := ⟨[(idT, dtSource), (idW, dw)],
    fun t x => .ok (some [(idT, a t x), (idW, b t x)]), fun _ => .ok x0, fun _ x => x, false, id, id⟩
  have hm : ∀ ω, Memory (fun s => s = ω) (fun _ => True) dw (fun u => W u ω) := by
    intro ω t dt s hs _ _
    subst hs
    exact ⟨s, rfl, rfl⟩
  have hc : ∀ ω, cumulated dw t0 grid ω = .ok (grid.map fun u => (u, fun i => W u ω i - W t0 ω i), ω) := by
    intro ω
    obtain ⟨s', h, rfl⟩ := cumulated_memory (hm ω) hg h0 (fun _ _ => trivial) ω rfl
    exact h
  choose X hX hX0 hXs using fun ω => solution_of_noise (S := S) (dw := dw) (a := a) (b := b) rfl (fun _ _ => rfl) hg h0 x0 (hc ω)
  exact ⟨fun u ω => X ω u, ⟨hX0, fun u v huv _ _ ω i => by linarith [hXs ω u v huv i]⟩⟩

/-! ### Sums along different values -/

set_option maxHeartbeats 1000000 in
/-- Sums with coefficients along values that are close, are close. -/
theorem sums_close (hT : 0 ≤ T) (h : LipschitzCoef a b t0 T L) :
    ∃ M ≥ 0, ∀ {Ω : Type} [MeasurableSpace Ω] {P : Measure Ω} [IsProbabilityMeasure P] {D : Set ℝ}
      {W Y1 Y2 R1 R2 : ℝ → Ω → ι → ℝ} {grid : List ℝ} {x0 : ι → ℝ} {ρ : ℝ}, Drives P t0 D W → 0 ≤ ρ →
      grid.Pairwise (· < ·) → t0 ∈ grid → (∀ u ∈ grid, u ∈ D) →
      IsSums a b t0 x0 grid W Y1 R1 → IsSums a b t0 x0 grid W Y2 R2 →
      (∀ u ∈ grid, t0 ≤ u → u ≤ t0 + T → KnownAt D W u (Y1 u) ∧ KnownAt D W u (Y2 u) ∧
        (∀ i, MemLp (fun ω => Y1 u ω i) 2 P) ∧ (∀ i, MemLp (fun ω => Y2 u ω i) 2 P) ∧
        meanSq P (fun ω i => Y1 u ω i - Y2 u ω i) ≤ 3 * meanSq P (fun ω i => R1 u ω i - R2 u ω i) + ρ) →
      ∀ t ∈ grid, t0 ≤ t → t ≤ t0 + T →
        KnownAt D W t (R1 t) ∧ KnownAt D W t (R2 t) ∧
        (∀ i, MemLp (fun ω => R1 t ω i) 2 P) ∧ (∀ i, MemLp (fun ω => R2 t ω i) 2 P) ∧
        meanSq P (fun ω i => R1 t ω i - R2 t ω i) ≤ M * ρ := by
  have hLip := h.abs
  have hL : 0 ≤ |L| := abs_nonneg L
  set Λ := |L|
  obtain ⟨C, hC0, hC⟩ := hLip.growth hT hL
  have hm := fun t ht => hLip.meas (t := t) ht
  set κ := 1 + 3 * ((1 + T) * Λ) with hκ
  have hκ0 : 0 ≤ κ := by positivity
  set E := (1 + T) * Λ with hE
  have hE0 : 0 ≤ E := by positivity
  refine ⟨Real.exp (κ * T) * (E * T), by positivity, ?_⟩
  intro Ω _ P _ D W Y1 Y2 R1 R2 grid x0 ρ hW hρ hg h0 hD hR1 hR2 hY t ht h0t htT
  have key := grid_induction hg h0 (Q := fun v => v ≤ t →
      KnownAt D W v (R1 v) ∧ KnownAt D W v (R2 v) ∧
      (∀ i, MemLp (fun ω => R1 v ω i) 2 P) ∧ (∀ i, MemLp (fun ω => R2 v ω i) 2 P) ∧
      meanSq P (fun ω i => R1 v ω i - R2 v ω i) ≤
        Real.exp (κ * (v - t0)) * (E * ρ * (v - t0))) ?_ ?_ t ht h0t le_rfl
  · obtain ⟨k1, k2, k3, k4, k5⟩ := key
    refine ⟨k1, k2, k3, k4, k5.trans ?_⟩
    have i1 : t - t0 ≤ T := by linarith
    have i2 : 0 ≤ t - t0 := by linarith
    calc _ ≤ Real.exp (κ * T) * (E * ρ * T) := by gcongr
      _ = _ := by ring
  · intro _
    have e1 : R1 t0 = fun _ => x0 := funext hR1.start
    have e2 : R2 t0 = fun _ => x0 := funext hR2.start
    rw [e1, e2]
    refine ⟨knownAt_const _ _, knownAt_const _ _, fun i => memLp_const _, fun i => memLp_const _, ?_⟩
    simp [meanSq]
  · intro v v' hst h0v hlt ih hv't
    obtain ⟨kR1, kR2, lR1, lR2, ih⟩ := ih (hlt.le.trans hv't)
    have hvT : v ≤ t0 + T := (hlt.le.trans hv't).trans htT
    have hvD := hD v hst.1
    have hv'D := hD v' hst.2.1
    have hI : v ∈ Set.Icc t0 (t0 + T) := ⟨h0v, hvT⟩
    obtain ⟨k1, k2, l1, l2, hd⟩ := hY v hst.1 h0v hvT
    obtain ⟨la1, lb1, -⟩ := coef_memLp (P := P) (hm v hI) (hC v hI) l1
    obtain ⟨la2, lb2, -⟩ := coef_memLp (P := P) (hm v hI) (hC v hI) l2
    have m1 := (hm v hI).1
    have m2 := (hm v hI).2
    have lA : ∀ i, MemLp (fun ω => a v (Y1 v ω) i - a v (Y2 v ω) i) 2 P := fun i => (la1 i).sub (la2 i)
    have lB : ∀ i, MemLp (fun ω => b v (Y1 v ω) i - b v (Y2 v ω) i) 2 P := fun i => (lb1 i).sub (lb2 i)
    have lE : ∀ i, MemLp (fun ω => R1 v ω i - R2 v ω i) 2 P := fun i => (lR1 i).sub (lR2 i)
    have hh : 0 ≤ v' - v := by linarith
    have hhT : v' - v ≤ T := by linarith
    have hw1 := hW.memLp v hvD v' hv'D h0v hlt.le
    have hw2 := hW.mean v hvD v' hv'D h0v hlt.le
    have hw3 := hW.var v hvD v' hv'D h0v hlt.le
    have one : ∀ {R Y : ℝ → Ω → ι → ℝ}, IsSums a b t0 x0 grid W Y R → KnownAt D W v (R v) →
        KnownAt D W v (Y v) → (∀ i, MemLp (fun ω => R v ω i) 2 P) →
        (∀ i, MemLp (fun ω => a v (Y v ω) i) 2 P) → (∀ i, MemLp (fun ω => b v (Y v ω) i) 2 P) →
        KnownAt D W v' (R v') ∧ ∀ i, MemLp (fun ω => R v' ω i) 2 P := by
      intro R Y hR kR kY lR la lb
      have e : R v' = fun ω i => R v ω i + a v (Y v ω) i * (v' - v) + b v (Y v ω) i * (W v' ω i - W v ω i) := by
        funext ω i
        exact hR.step v v' hst h0v hlt ω i
      rw [e]
      constructor
      · have kk := ((kR.prodMk kY).mono hlt.le).prodMk
          ((knownAt_self (W := W) hv'D le_rfl).prodMk (knownAt_self (W := W) hvD hlt.le))
        exact kk.comp (f := fun c : ((ι → ℝ) × (ι → ℝ)) × ((ι → ℝ) × (ι → ℝ)) => fun i =>
          c.1.1 i + a v c.1.2 i * (v' - v) + b v c.1.2 i * (c.2.1 i - c.2.2 i)) (by fun_prop)
      · have hi : IndepFun (fun ω => (R v ω, a v (Y v ω), b v (Y v ω))) (fun ω i => W v' ω i - W v ω i) P :=
          ((kR.prodMk kY).comp (f := fun c : (ι → ℝ) × (ι → ℝ) => (c.1, a v c.2, b v c.2))
            (by fun_prop)).indep hW hvD hv'D h0v hlt.le
        exact (meanSq_step hh hi lR la lb hw1 hw2 hw3).1
    obtain ⟨n1, n2⟩ := one hR1 kR1 k1 lR1 la1 lb1
    obtain ⟨n3, n4⟩ := one hR2 kR2 k2 lR2 la2 lb2
    refine ⟨n1, n3, n2, n4, ?_⟩
    have hind : IndepFun (fun ω => ((fun i => R1 v ω i - R2 v ω i),
        (fun i => a v (Y1 v ω) i - a v (Y2 v ω) i), (fun i => b v (Y1 v ω) i - b v (Y2 v ω) i)))
        (fun ω i => W v' ω i - W v ω i) P := by
      have kk := (kR1.prodMk kR2).prodMk (k1.prodMk k2)
      exact (kk.comp (f := fun c : ((ι → ℝ) × (ι → ℝ)) × ((ι → ℝ) × (ι → ℝ)) =>
        ((fun i => c.1.1 i - c.1.2 i), (fun i => a v c.2.1 i - a v c.2.2 i),
          (fun i => b v c.2.1 i - b v c.2.2 i))) (by fun_prop)).indep hW hvD hv'D h0v hlt.le
    obtain ⟨-, st⟩ := meanSq_step hh hind lE lA lB hw1 hw2 hw3
    have e : (fun ω i => R1 v' ω i - R2 v' ω i) = fun ω i => (R1 v ω i - R2 v ω i) +
        (a v (Y1 v ω) i - a v (Y2 v ω) i) * (v' - v) +
        (b v (Y1 v ω) i - b v (Y2 v ω) i) * (W v' ω i - W v ω i) := by
      funext ω i
      rw [hR1.step v v' hst h0v hlt ω i, hR2.step v v' hst h0v hlt ω i]
      ring
    rw [← e] at st
    have hlip := lip_meanSq (P := P) (hLip v hI v hI) l1 l2 lA lB
    rw [sub_self, abs_zero, mul_zero, add_zero] at hlip
    have n0 := meanSq_nonneg (P := P) fun ω i => R1 v ω i - R2 v ω i
    have n2 := meanSq_nonneg (P := P) fun ω i => a v (Y1 v ω) i - a v (Y2 v ω) i
    have n3 := meanSq_nonneg (P := P) fun ω i => b v (Y1 v ω) i - b v (Y2 v ω) i
    set m := meanSq P fun ω i => R1 v ω i - R2 v ω i
    set A := meanSq P fun ω i => a v (Y1 v ω) i - a v (Y2 v ω) i
    set B := meanSq P fun ω i => b v (Y1 v ω) i - b v (Y2 v ω) i
    set q := v' - v with hq
    have i1 : q * (1 + q) * A + q * B ≤ q * (1 + T) * (A + B) := by
      have : q * (1 + q) * A ≤ q * (1 + T) * A := by gcongr
      nlinarith [mul_nonneg (mul_nonneg hh hT) n3]
    have i2 : A + B ≤ Λ * (3 * m + ρ) := by
      refine hlip.trans ?_
      gcongr
    have i3 : q * (1 + T) * (A + B) ≤ q * (1 + T) * (Λ * (3 * m + ρ)) := by gcongr
    have i4 : meanSq P (fun ω i => R1 v' ω i - R2 v' ω i) ≤ (1 + κ * q) * m + E * ρ * q := by
      have e4 : (1 + κ * q) * m + E * ρ * q = (1 + q) * m + q * (1 + T) * (Λ * (3 * m + ρ)) := by
        rw [hκ, hE]; ring
      rw [e4]
      linarith
    have i5 : 1 + κ * q ≤ Real.exp (κ * q) := by
      rw [add_comm]; exact Real.add_one_le_exp _
    have i6 : 1 ≤ Real.exp (κ * (v' - t0)) := Real.one_le_exp (mul_nonneg hκ0 (by linarith))
    calc _ ≤ (1 + κ * q) * m + E * ρ * q := i4
      _ ≤ Real.exp (κ * q) * (Real.exp (κ * (v - t0)) * (E * ρ * (v - t0))) +
          Real.exp (κ * (v' - t0)) * (E * ρ * q) := by
        refine add_le_add (mul_le_mul i5 ih n0 (Real.exp_pos _).le) ?_
        exact le_mul_of_one_le_left (by positivity) i6
      _ = Real.exp (κ * (v' - t0)) * (E * ρ * (v' - t0)) := by
        have : Real.exp (κ * (v' - t0)) = Real.exp (κ * q) * Real.exp (κ * (v - t0)) := by
          rw [← Real.exp_add]; congr 1; rw [hq]; ring
        rw [this, hq]
        ring

/-! ### Limits in mean square -/

theorem norm_sq_toLp {f : Ω → ℝ} (hf : MemLp f 2 P) : ‖hf.toLp f‖ ^ 2 = ∫ ω, f ω ^ 2 ∂P := by
  rw [← real_inner_self_eq_norm_sq, L2.inner_def]
  refine integral_congr_ae ?_
  filter_upwards [hf.coeFn_toLp] with ω h
  simp only [h, RCLike.inner_apply, conj_trivial]
  ring

/-- A sequence that is Cauchy in mean square has a limit, which only depends on the values of the sequence. -/
theorem l2_limit {f : ℕ → Ω → ℝ} (hf : ∀ n, MemLp (f n) 2 P) {ε : ℕ → ℝ} (ha : Antitone ε)
    (hε : Tendsto ε atTop (𝓝 0)) (hc : ∀ n m, n ≤ m → ∫ ω, (f n ω - f m ω) ^ 2 ∂P ≤ ε n) :
    ∃ ns : ℕ → ℕ, MemLp (fun ω => limsup (fun k => f (ns k) ω) atTop) 2 P ∧
      ∀ h : Ω → ℝ, MemLp h 2 P → Tendsto (fun n => ∫ ω, (h ω - f n ω) ^ 2 ∂P) atTop
        (𝓝 (∫ ω, (h ω - limsup (fun k => f (ns k) ω) atTop) ^ 2 ∂P)) := by
  have hsq : ∀ n m, n ≤ m → ‖(hf n).toLp (f n) - (hf m).toLp (f m)‖ ≤ √(ε n) := by
    intro n m hnm
    apply Real.le_sqrt_of_sq_le
    rw [← MemLp.toLp_sub, norm_sq_toLp]
    exact hc n m hnm
  have hC : CauchySeq fun n => (hf n).toLp (f n) := by
    refine cauchySeq_of_le_tendsto_0 (fun n => √(ε n)) (fun n m N hn hm => ?_) ?_
    · rw [dist_eq_norm]
      rcases le_total n m with h | h
      · exact (hsq n m h).trans (Real.sqrt_le_sqrt (ha hn))
      · rw [norm_sub_rev]
        exact (hsq m n h).trans (Real.sqrt_le_sqrt (ha hm))
    · have := (Real.continuous_sqrt.tendsto 0).comp hε
      rwa [Real.sqrt_zero] at this
  obtain ⟨g, hg⟩ := cauchySeq_tendsto_of_complete hC
  obtain ⟨ns, -, hns⟩ := (tendstoInMeasure_of_tendsto_Lp hg).exists_seq_tendsto_ae
  have hall : ∀ᵐ ω ∂P, ∀ n, (hf n).toLp (f n) ω = f n ω := ae_all_iff.2 fun n => (hf n).coeFn_toLp
  have hlim : (fun ω => limsup (fun k => f (ns k) ω) atTop) =ᵐ[P] g := by
    filter_upwards [hns, hall] with ω h1 h2
    simp only [h2] at h1
    exact h1.limsup_eq
  have hgm : MemLp g 2 P := Lp.memLp g
  have hm : MemLp (fun ω => limsup (fun k => f (ns k) ω) atTop) 2 P := (memLp_congr_ae hlim).2 hgm
  refine ⟨ns, hm, fun h hh => ?_⟩
  have e1 : ∀ n, ∫ ω, (h ω - f n ω) ^ 2 ∂P = ‖hh.toLp h - (hf n).toLp (f n)‖ ^ 2 := by
    intro n
    rw [← MemLp.toLp_sub, norm_sq_toLp]
    rfl
  have e2 : ∫ ω, (h ω - limsup (fun k => f (ns k) ω) atTop) ^ 2 ∂P = ‖hh.toLp h - g‖ ^ 2 := by
    have : g = hm.toLp _ := by
      apply Lp.ext
      exact hlim.symm.trans hm.coeFn_toLp.symm
    rw [this, ← MemLp.toLp_sub, norm_sq_toLp]
    rfl
  simp only [e1, e2]
  exact ((tendsto_const_nhds.sub hg).norm).pow 2

theorem meanSq_two {X Y Z : Ω → ι → ℝ} (hX : ∀ i, MemLp (fun ω => X ω i) 2 P)
    (hY : ∀ i, MemLp (fun ω => Y ω i) 2 P) (hZ : ∀ i, MemLp (fun ω => Z ω i) 2 P) :
    meanSq P (fun ω i => X ω i - Z ω i) ≤
      2 * (meanSq P (fun ω i => X ω i - Y ω i) + meanSq P (fun ω i => Y ω i - Z ω i)) := by
  simp only [meanSq, ← Finset.sum_add_distrib, Finset.mul_sum]
  refine Finset.sum_le_sum fun i _ => ?_
  have h1 := ((hX i).sub (hY i)).integrable_sq
  have h2 := ((hY i).sub (hZ i)).integrable_sq
  simp only [Pi.sub_apply] at h1 h2
  rw [← integral_add h1 h2, ← integral_const_mul]
  refine integral_mono ((hX i).sub (hZ i)).integrable_sq ((h1.add h2).const_mul 2) fun ω => ?_
  simp only [Pi.add_apply]
  nlinarith [sq_nonneg (X ω i - Y ω i - (Y ω i - Z ω i))]

theorem meanSq_comm (X Y : Ω → ι → ℝ) :
    meanSq P (fun ω i => X ω i - Y ω i) = meanSq P fun ω i => Y ω i - X ω i := by
  unfold meanSq
  refine Finset.sum_congr rfl fun i _ => integral_congr_ae (.of_forall fun ω => ?_)
  simp only
  ring

theorem _root_.Sdepy.Spec.Mesh.mono {grid : List ℝ} {δ δ' : ℝ} (h : Mesh grid δ) (hd : δ ≤ δ') : Mesh grid δ' :=
  fun u hu v hv huv hn => (h u hu v hv huv hn).trans hd

/-! ### Existence -/

set_option maxHeartbeats 1000000 in
/-- Euler schemes have a limit, that does not depend on the grids. -/
theorem exists_limit (hT : 0 ≤ T) (h : LipschitzCoef a b t0 T L) (x0 : ι → ℝ) :
    ∃ K ≥ 0, ∀ {Ω : Type} [MeasurableSpace Ω] {P : Measure Ω} [IsProbabilityMeasure P]
      {W : ℝ → Ω → ι → ℝ}, Drives P t0 (Set.Icc t0 (t0 + T)) W →
      ∃ Y : ℝ → Ω → ι → ℝ, (∀ t ∈ Set.Icc t0 (t0 + T), KnownAt (Set.Icc t0 (t0 + T)) W t (Y t)) ∧
        (∀ t ∈ Set.Icc t0 (t0 + T), ∀ i, MemLp (fun ω => Y t ω i) 2 P) ∧
        ∀ {X : ℝ → Ω → ι → ℝ} {grid : List ℝ} {δ : ℝ}, 0 ≤ δ →
          grid.Pairwise (· < ·) → t0 ∈ grid → (∀ u ∈ grid, u ∈ Set.Icc t0 (t0 + T)) → Mesh grid δ →
          IsScheme a b t0 x0 grid W X → ∀ t ∈ grid,
            KnownAt (Set.Icc t0 (t0 + T)) W t (X t) ∧ (∀ i, MemLp (fun ω => X t ω i) 2 P) ∧
            meanSq P (fun ω i => X t ω i - Y t ω i) ≤ K * δ := by
  obtain ⟨K, hK, hclose⟩ := schemes_close hT h x0
  have hLip := h.abs
  obtain ⟨C, hC0, hC⟩ := hLip.growth hT (abs_nonneg L)
  have hm := fun t ht => hLip.meas (t := t) ht
  refine ⟨K, hK, ?_⟩
  intro Ω _ P _ W hW
  set I := Set.Icc t0 (t0 + T) with hI
  set δn : ℕ → ℝ := fun n => 1 / ((n : ℝ) + 1) with hδn
  have hδ0 : ∀ n, 0 < δn n := fun n => Nat.one_div_pos_of_nat
  have hδa : Antitone δn := fun n m hnm => Nat.one_div_le_one_div hnm
  have hδt : Tendsto δn atTop (𝓝 0) := tendsto_one_div_add_atTop_nhds_zero_nat
  choose! gr g1 g2 g3 g4 g5 using fun (t : ℝ) (n : ℕ) (ht : t ∈ I) => exists_grid (hδ0 n) ht
  have hex : ∀ (t : ℝ) (n : ℕ), ∃ X : ℝ → Ω → ι → ℝ, t ∈ I → IsScheme a b t0 x0 (gr t n) W X := by
    intro t n
    by_cases ht : t ∈ I
    · obtain ⟨X, hX⟩ := exists_sums (g1 t n ht) (g2 t n ht) a b x0 W
      exact ⟨X, fun _ => hX⟩
    · exact ⟨fun _ _ => 0, fun h => absurd h ht⟩
  choose X hX using hex
  have hmom : ∀ t ∈ I, ∀ n, KnownAt I W t (X t n t) ∧ ∀ i, MemLp (fun ω => X t n t ω i) 2 P := by
    intro t ht n
    have := scheme_moments hT hC0 hm hC hW (g1 t n ht) (g2 t n ht) (g4 t n ht) (hX t n ht) t (g3 t n ht)
      ht.1 ht.2
    exact ⟨this.1, this.2.1⟩
  have hcau : ∀ t ∈ I, ∀ n m, n ≤ m →
      meanSq P (fun ω i => X t n t ω i - X t m t ω i) ≤ K * δn n := by
    intro t ht n m hnm
    exact (hclose hW (hδ0 n).le (g1 t n ht) (g2 t n ht) (g4 t n ht) (g5 t n ht) (g1 t m ht) (g2 t m ht)
      (g4 t m ht) ((g5 t m ht).mono (hδa hnm)) (hX t n ht) (hX t m ht) t (g3 t n ht) (g3 t m ht) ht.1 ht.2).2.2
  have hcell : ∀ t ∈ I, ∀ i, ∃ ns : ℕ → ℕ,
      MemLp (fun ω => limsup (fun k => X t (ns k) t ω i) atTop) 2 P ∧
      ∀ h : Ω → ℝ, MemLp h 2 P → Tendsto (fun n => ∫ ω, (h ω - X t n t ω i) ^ 2 ∂P) atTop
        (𝓝 (∫ ω, (h ω - limsup (fun k => X t (ns k) t ω i) atTop) ^ 2 ∂P)) := by
    intro t ht i
    refine l2_limit (f := fun n ω => X t n t ω i) (fun n => (hmom t ht n).2 i) (ε := fun n => K * δn n)
      (fun n m hnm => mul_le_mul_of_nonneg_left (hδa hnm) hK) ?_ ?_
    · have := hδt.const_mul K
      rwa [mul_zero] at this
    · intro n m hnm
      refine le_trans ?_ (hcau t ht n m hnm)
      unfold meanSq
      exact Finset.single_le_sum (f := fun i => ∫ ω, (X t n t ω i - X t m t ω i) ^ 2 ∂P)
        (fun j _ => integral_nonneg fun ω => sq_nonneg _) (Finset.mem_univ i)
  choose! ns n1 n2 using hcell
  refine ⟨fun t ω i => limsup (fun k => X t (ns t i k) t ω i) atTop, ?_, n1, ?_⟩
  · intro t ht
    choose g hg e using fun n => (hmom t ht n).1
    refine ⟨fun x i => limsup (fun k => g (ns t i k) x i) atTop, ?_, fun ω => ?_⟩
    · exact measurable_pi_lambda _ fun i => Measurable.limsup fun k =>
        (measurable_pi_apply i).comp (hg (ns t i k))
    · funext i
      simp only [e]
  · intro X' grid δ hδ hg h0 hgI hM hX' t ht
    have htI := hgI t ht
    have hmX := scheme_moments hT hC0 hm hC hW hg h0 hgI hX' t ht htI.1 htI.2
    refine ⟨hmX.1, hmX.2.1, ?_⟩
    have ht1 : Tendsto (fun n => meanSq P (fun ω i => X' t ω i - X t n t ω i)) atTop
        (𝓝 (meanSq P fun ω i => X' t ω i - limsup (fun k => X t (ns t i k) t ω i) atTop)) := by
      unfold meanSq
      exact tendsto_finsetSum _ fun i _ => n2 t htI i _ (hmX.2.1 i)
    have ht2 : Tendsto (fun n => K * max δ (δn n)) atTop (𝓝 (K * δ)) := by
      have := (tendsto_const_nhds (x := δ)).max hδt
      rw [max_eq_left hδ] at this
      exact this.const_mul K
    refine le_of_tendsto_of_tendsto' ht1 ht2 fun n => ?_
    exact (hclose hW (hδ.trans (le_max_left _ _)) hg h0 hgI (hM.mono (le_max_left _ _)) (g1 t n htI) (g2 t n htI)
      (g4 t n htI) ((g5 t n htI).mono (le_max_right _ _)) hX' (hX t n htI) t ht (g3 t n htI) htI.1 htI.2).2.2

/-- Sums with coefficients along any values. -/
theorem exists_isSums {grid : List ℝ} (hg : grid.Pairwise (· < ·)) (h0 : t0 ∈ grid) (a b : ℝ → (ι → ℝ) → ι → ℝ)
    (x0 : ι → ℝ) (W Y : ℝ → Ω → ι → ℝ) : ∃ R : ℝ → Ω → ι → ℝ, IsSums a b t0 x0 grid W Y R := by
  have hone : ∀ ω : Ω, ∃ X : ℝ → Unit → ι → ℝ, IsScheme (fun s _ => a s (Y s ω)) (fun s _ => b s (Y s ω)) t0 x0 grid
      (fun u _ => W u ω) X := fun ω => exists_sums hg h0 _ _ x0 _
  choose X hX using hone
  exact ⟨fun u ω => X ω u (), ⟨fun ω => (hX ω).start (), fun s t h1 h2 h3 ω i => (hX ω).step s t h1 h2 h3 () i⟩⟩

theorem scheme_sums {grid : List ℝ} {X : ℝ → Ω → ι → ℝ} (h : IsScheme a b t0 x0 grid W X) :
    IsSums a b t0 x0 grid W X X := ⟨h.start, h.step⟩

/-- The limit of Euler schemes is a solution. -/
theorem exists_solution (hT : 0 ≤ T) (h : LipschitzCoef a b t0 T L) (x0 : ι → ℝ) :
    ∃ K ≥ 0, ∀ {Ω : Type} [MeasurableSpace Ω] {P : Measure Ω} [IsProbabilityMeasure P]
      {W : ℝ → Ω → ι → ℝ}, Drives P t0 (Set.Icc t0 (t0 + T)) W →
      ∃ Y : ℝ → Ω → ι → ℝ, IsSolution P a b t0 T x0 W Y ∧
        ∀ {X : ℝ → Ω → ι → ℝ} {grid : List ℝ} {δ : ℝ}, 0 ≤ δ →
          grid.Pairwise (· < ·) → t0 ∈ grid → (∀ u ∈ grid, u ∈ Set.Icc t0 (t0 + T)) → Mesh grid δ →
          IsScheme a b t0 x0 grid W X → ∀ t ∈ grid,
            (∀ i, MemLp (fun ω => X t ω i) 2 P) ∧
            meanSq P (fun ω i => X t ω i - Y t ω i) ≤ K * δ := by
  obtain ⟨K, hK, hlim⟩ := exists_limit hT h x0
  obtain ⟨M, hM, hsums⟩ := sums_close hT h
  refine ⟨K, hK, ?_⟩
  intro Ω _ P _ W hW
  obtain ⟨Y, y1, y2, y3⟩ := hlim hW
  refine ⟨Y, ⟨y1, y2, ?_⟩, fun hδ hg h0 hgI hm hX t ht => (y3 hδ hg h0 hgI hm hX t ht).2⟩
  intro ε hε
  obtain ⟨δ, hδ, hle⟩ : ∃ δ > 0, 2 * (K * δ + M * (K * δ)) ≤ ε := by
    have hc : 0 < 2 * (K + M * K) + 1 := by positivity
    refine ⟨ε / (2 * (K + M * K) + 1), by positivity, ?_⟩
    have e : 2 * (K * (ε / (2 * (K + M * K) + 1)) + M * (K * (ε / (2 * (K + M * K) + 1)))) =
        ε * ((2 * (K + M * K)) / (2 * (K + M * K) + 1)) := by ring
    rw [e]
    refine mul_le_of_le_one_right hε.le ?_
    rw [div_le_one hc]
    linarith
  refine ⟨δ, hδ, fun grid R hg h0 hgI hm hR t ht => ?_⟩
  obtain ⟨X, hX⟩ := exists_sums hg h0 a b x0 W
  have hx := y3 hδ.le hg h0 hgI hm hX
  have hc := hsums hW (ρ := K * δ) (by positivity) hg h0 hgI (scheme_sums hX) hR (fun u hu _ _ =>
    ⟨(hx u hu).1, y1 u (hgI u hu), (hx u hu).2.1, y2 u (hgI u hu), by
      have := meanSq_nonneg (P := P) fun ω i => X u ω i - R u ω i
      linarith [(hx u hu).2.2]⟩) t ht (hgI t ht).1 (hgI t ht).2
  refine (meanSq_two (y2 t (hgI t ht)) hc.2.2.1 hc.2.2.2.1).trans (le_trans ?_ hle)
  have := (hx t ht).2.2
  rw [meanSq_comm] at this
  linarith [hc.2.2.2.2]

/-- Solutions are unique, in mean square. -/
theorem solution_unique (hT : 0 ≤ T) (h : LipschitzCoef a b t0 T L)
    (hW : Drives P t0 (Set.Icc t0 (t0 + T)) W) {Y1 Y2 : ℝ → Ω → ι → ℝ}
    (h1 : IsSolution P a b t0 T x0 W Y1) (h2 : IsSolution P a b t0 T x0 W Y2) :
    ∀ t ∈ Set.Icc t0 (t0 + T), meanSq P (fun ω i => Y1 t ω i - Y2 t ω i) = 0 := by
  obtain ⟨M, hM, hsums⟩ := sums_close hT h
  intro t ht
  refine le_antisymm (le_of_forall_pos_le_add fun η hη => ?_) (meanSq_nonneg _)
  rw [zero_add]
  obtain ⟨ε, hε, hle⟩ : ∃ ε > 0, 3 * (M * (6 * ε)) + 6 * ε ≤ η := by
    have hc : 0 < 18 * M + 6 + 1 := by positivity
    refine ⟨η / (18 * M + 6 + 1), by positivity, ?_⟩
    have e : 3 * (M * (6 * (η / (18 * M + 6 + 1)))) + 6 * (η / (18 * M + 6 + 1)) =
        η * ((18 * M + 6) / (18 * M + 6 + 1)) := by ring
    rw [e]
    refine mul_le_of_le_one_right hη.le ?_
    rw [div_le_one hc]
    linarith
  obtain ⟨δ1, d1, e1⟩ := h1.integral ε hε
  obtain ⟨δ2, d2, e2⟩ := h2.integral ε hε
  obtain ⟨grid, g1, g2, g3, g4, g5⟩ := exists_grid (lt_min d1 d2) ht
  obtain ⟨R1, hR1⟩ := exists_isSums g1 g2 a b x0 W Y1
  obtain ⟨R2, hR2⟩ := exists_isSums g1 g2 a b x0 W Y2
  have f1 := e1 grid R1 g1 g2 g4 (g5.mono (min_le_left _ _)) hR1
  have f2 := e2 grid R2 g1 g2 g4 (g5.mono (min_le_right _ _)) hR2
  have hzero : ∀ Z : Ω → ι → ℝ, meanSq P (fun ω i => Z ω i - Z ω i) = 0 := fun Z => by simp [meanSq]
  have hR : ∀ {Y R : ℝ → Ω → ι → ℝ}, IsSolution P a b t0 T x0 W Y → IsSums a b t0 x0 grid W Y R →
      ∀ u ∈ grid, ∀ i, MemLp (fun ω => R u ω i) 2 P := by
    intro Y R hY hR u hu
    exact (hsums hW le_rfl g1 g2 g4 hR hR (fun v hv _ _ => ⟨hY.known v (g4 v hv), hY.known v (g4 v hv),
      hY.memLp v (g4 v hv), hY.memLp v (g4 v hv), by rw [hzero, hzero]; norm_num⟩) u hu (g4 u hu).1 (g4 u hu).2).2.2.1
  have hb : ∀ u ∈ grid, meanSq P (fun ω i => Y1 u ω i - Y2 u ω i) ≤
      3 * meanSq P (fun ω i => R1 u ω i - R2 u ω i) + 6 * ε := by
    intro u hu
    have m1 := hR h1 hR1 u hu
    have m2 := hR h2 hR2 u hu
    have := meanSq_three (P := P) (X := fun ω i => R1 u ω i - R2 u ω i) (Y := fun ω i => R1 u ω i - Y1 u ω i)
      (Z := fun ω i => R2 u ω i - Y2 u ω i) (fun i => (m1 i).sub (m2 i))
      (fun i => (m1 i).sub (h1.memLp u (g4 u hu) i)) (fun i => (m2 i).sub (h2.memLp u (g4 u hu) i))
    have e : (fun ω i => Y1 u ω i - Y2 u ω i) = fun ω i => (R1 u ω i - R2 u ω i) - (R1 u ω i - Y1 u ω i) +
        (R2 u ω i - Y2 u ω i) := by
      funext ω i; ring
    rw [e]
    refine this.trans ?_
    have k1 := f1 u hu
    have k2 := f2 u hu
    rw [meanSq_comm] at k1 k2
    linarith
  have hc := hsums hW (ρ := 6 * ε) (by positivity) g1 g2 g4 hR1 hR2 (fun u hu _ _ =>
    ⟨h1.known u (g4 u hu), h2.known u (g4 u hu), h1.memLp u (g4 u hu), h2.memLp u (g4 u hu), hb u hu⟩)
    t g3 ht.1 ht.2
  refine (hb t g3).trans (le_trans ?_ hle)
  linarith [hc.2.2.2.2]

end Sdepy
