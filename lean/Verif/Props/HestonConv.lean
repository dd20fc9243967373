import Verif.Lemmas.AffineLaw
import Verif.Props.HestonChf
import Verif.Props.HestonLaw

/-!
# C76: the law of the values simulated for a Heston process, and `heston_log_chf`
-/

set_option linter.unusedSectionVars false

open MeasureTheory ProbabilityTheory Real Set Filter Topology
open Complex (I)
open scoped BoundedContinuousFunction

namespace Sdepy
open Spec

/-! ### specification -/

/-- An integration of the Heston equations with, for the component `c` and the path `q`, the constant
parameters given, and noises that are normal variates of constant correlation. -/
structure Spec.HestonRun (x0 mu sigma y0 theta k xi rho : ℝ) {σ : Type} [MeasurableSpace σ] (μ : Measure σ)
    (a : Bool) (v : List ℕ) (p : ℕ) (P : HestonParams) (dw : Src ℝ (List ℕ) σ) (x y : Arr ℝ) (c : List ℕ)
    (q fuel : ℕ) (steps : Steps ℝ) (i0 : ℤ) (tl : TArr ℝ) (grid : List ℝ) (t0 : ℝ) : Prop where
  prob : IsProbabilityMeasure μ
  addaxis : v = [] → a = true
  init : HestonInitOk v p x y
  comp : InRange v c
  path : q < p
  x0_eq : bcAt x (c ++ [q]) = x0
  y0_eq : bcAt y (c ++ [q]) = y0
  params : ∀ t, P.mu t (c ++ [q]) = mu ∧ P.sigma t (c ++ [q]) = sigma ∧ P.theta t (c ++ [q]) = theta ∧
    P.k t (c ++ [q]) = k ∧ P.xi t (c ++ [q]) = xi
  noise : ∀ t dt, dt ≠ 0 → ∃ N, DrawsLaw μ N (dw t dt) ∧
    CorrNormal rho |dt| (N.map fun w => (w (workCell a v 0 c q), w (workCell a v 1 c q)))
  along : Along fuel steps i0 tl grid t0

/-! ### lemmas -/

section
variable {x0 mu sigma y0 theta k xi rho : ℝ} {σ : Type} [MeasurableSpace σ] {μ : Measure σ}
  {a : Bool} {v : List ℕ} {p : ℕ} {P : HestonParams} {dw : Src ℝ (List ℕ) σ} {x y : Arr ℝ} {c : List ℕ}
  {q fuel : ℕ} {steps : Steps ℝ} {i0 : ℤ} {tl : TArr ℝ} {grid : List ℝ} {t0 δ : ℝ}

theorem run_chain (h : HestonRun x0 mu sigma y0 theta k xi rho μ a v p P dw x y c q fuel steps i0 tl grid t0)
    (hm : Mesh grid δ) :
    ∃ (X Y : ℝ → σ → Arr ℝ) (st : σ → σ),
      (∀ s, fullHestonCall a v p P x y dw fuel steps i0 tl s =
        .ok (tl.data.map fun t => some (X t s, Y t s), st s)) ∧
      (∀ s, hestonCall a v p P x y dw fuel steps i0 tl s =
        .ok (tl.data.map fun t => some (X t s), st s)) ∧
      (∀ t s, 0 < (X t s).get (c ++ [q])) ∧
      HestonChain mu sigma theta k xi rho (log x0) y0 μ grid t0 δ
        fun t s => (log ((X t s).get (c ++ [q])), (Y t s).get (c ++ [q])) := by
  have := h.prob
  have hw := h.noise
  choose! N hw1 hw2 using hw
  obtain ⟨X, Y, st, e, e', hpos, hX⟩ := C75_heston_recursion (P := P) h.addaxis h.init h.comp h.path
    (M := fun t dt => (N t dt).map (fun w => (w (workCell a v 0 c q), w (workCell a v 1 c q))))
    (fun t dt hdt => ⟨N t dt, hw1 t dt hdt, rfl⟩) h.along
  obtain ⟨-, h2, -⟩ := along_mem h.along
  have hP := h.params
  simp only [h.x0_eq, h.y0_eq, (hP _).1, (hP _).2.1, (hP _).2.2.1, (hP _).2.2.2.1, (hP _).2.2.2.2] at hX
  refine ⟨X, Y, st, e, e', hpos, ⟨this, h.along.isGrid.1, h2, hm, hX.start, hX.meas, ?_⟩⟩
  intro a' b hs _ _
  obtain ⟨Z, z1, z2, z3, z4⟩ := hX.step a' b hs
  exact ⟨Z, _, z1, z2, hw2 a' (b - a') (StepOf_ne hs), z3, z4⟩

theorem heston_riccati (hk : 0 < k) (hxi : xi ≠ 0) (hr : |rho| ≤ 1) (hx : 0 < x0) (mu sigma theta u : ℝ) :
    ∃ A B, Riccati mu sigma theta k xi rho u 0 A B ∧ ∀ y0 t : ℝ,
      hestonLogChf x0 mu sigma y0 theta k xi rho t u =
        Complex.exp (I * u * (log x0 : ℝ) + A t + B t * y0) := by
  obtain ⟨d, C, D, hf, hC, hD, hd, hder⟩ := heston_affine (xi := xi) hk hr mu sigma theta u
  have hxi' : (xi : ℂ) ≠ 0 := by exact_mod_cast hxi
  refine ⟨fun t => I * u * mu * t + theta * k / (xi * xi) * C t, fun t => D t / (xi * xi), ⟨?_, ?_, ?_, ?_⟩, ?_⟩
  · simp [hC]
  · simp [hD]
  · intro t ht
    have h0 : HasDerivAt (fun t : ℝ => (t : ℂ)) 1 t := Complex.ofRealCLM.hasDerivAt
    have := (h0.const_mul (I * u * mu)).add ((hder t ht).1.const_mul (theta * k / (xi * xi) : ℂ))
    refine this.congr_deriv ?_
    field_simp
  · intro t ht
    refine ((hder t ht).2.div_const _).congr_deriv ?_
    rw [hd]
    unfold ricR
    field_simp
    ring
  · intro y0 t
    have := hf t (log x0) y0
    rw [exp_log hx] at this
    rw [this]
    congr 1
    ring

end

/-- With enough steps, the longest one is as short as wanted. -/
theorem exists_mesh (tl : TArr ℝ) {δ : ℝ} (hδ : 0 < δ) :
    ∃ N : ℕ, ∀ (fuel n : ℕ) (i0 : ℤ) (grid : List ℝ) (t0 : ℝ), N ≤ n →
      Along fuel (.int n) i0 tl grid t0 → Mesh grid δ := by
  set a := tl.data.head?.getD 0 with ha'
  set b := tl.data.getLast?.getD 0 with hb'
  obtain ⟨N, hN⟩ := exists_nat_gt (|b - a| / δ)
  refine ⟨N + 2, fun fuel n i0 grid t0 hn hal => ?_⟩
  obtain ⟨h1, h2, h3⟩ := along_mem hal
  have hhead : tl.data.head? = some a := by
    cases hl : tl.data with
    | nil => rw [hl] at h1; simp at h1
    | cons x l => simp [ha', hl]
  have hlast : tl.data.getLast? = some b := by
    cases hl : tl.data.getLast? with
    | none => rw [List.getLast?_eq_none_iff] at hl; rw [hl] at h1; simp at h1
    | some x => simp [hb', hl]
  have hm := C65_mesh (by omega) hal hhead hlast
  have hn' : (N : ℝ) + 1 ≤ n - 1 := by
    have : ((N + 2 : ℕ) : ℝ) ≤ n := by exact_mod_cast hn
    push_cast at this; linarith
  have hN0 : (0 : ℝ) ≤ N := N.cast_nonneg
  have hsm : (b - a) / (n - 1) ≤ δ := by
    rw [div_le_iff₀ (by linarith)]
    rw [div_lt_iff₀ hδ] at hN
    calc b - a ≤ |b - a| := le_abs_self _
      _ ≤ δ * N := by rw [mul_comm]; exact hN.le
      _ ≤ _ := by gcongr; linarith
  exact fun x hx y hy hxy hc => (hm x hx y hy hxy hc).trans hsm

/-! ### C76 -/

/-- **C76** (characteristic function). The characteristic function of the logarithm of the values simulated by
`heston_process` and `full_heston_process` differs from `heston_log_chf` by at most a constant times the longest
step. -/
theorem C76_heston_order {x0 mu sigma y0 theta k xi rho : ℝ} (hx : 0 < x0) (hy : 0 ≤ y0) (hth : 0 < theta)
    (hk : 0 < k) (hxi : xi ≠ 0) (hr : |rho| ≤ 1) {T : ℝ} (hT : 0 ≤ T) (u : ℝ) :
    ∃ B δ0 : ℝ, 0 < B ∧ 0 < δ0 ∧ ∀ (σ : Type) [MeasurableSpace σ] (μ : Measure σ) (a : Bool) (v : List ℕ)
      (p : ℕ) (P : HestonParams) (dw : Src ℝ (List ℕ) σ) (x y : Arr ℝ) (c : List ℕ) (q fuel : ℕ)
      (steps : Steps ℝ) (i0 : ℤ) (tl : TArr ℝ) (grid : List ℝ) (t0 δ : ℝ),
      HestonRun x0 mu sigma y0 theta k xi rho μ a v p P dw x y c q fuel steps i0 tl grid t0 →
      Mesh grid δ → 0 < δ → δ ≤ δ0 →
      ∃ (X Y : ℝ → σ → Arr ℝ) (st : σ → σ),
        (∀ s, fullHestonCall a v p P x y dw fuel steps i0 tl s =
          .ok (tl.data.map fun t => some (X t s, Y t s), st s)) ∧
        (∀ s, hestonCall a v p P x y dw fuel steps i0 tl s =
          .ok (tl.data.map fun t => some (X t s), st s)) ∧
        ∀ t ∈ tl.data, t0 ≤ t → t ≤ t0 + T →
          ‖∫ s, Complex.exp (I * u * log ((X t s).get (c ++ [q]))) ∂μ -
            hestonLogChf x0 mu sigma y0 theta k xi rho (t - t0) u‖ ≤ B * δ := by
  obtain ⟨A, B, hAB, e⟩ := heston_riccati hk hxi hr hx mu sigma theta u
  obtain ⟨K, δ0, hK, hδ0, h⟩ := chain_order hth hk hr hy hAB (by simp) hT
  refine ⟨K, δ0, hK, hδ0, ?_⟩
  intro σ _ μ a v p P dw x y c q fuel steps i0 tl grid t0 δ hrun hm hδ hδ'
  obtain ⟨X, Y, st, e1, e2, -, hc⟩ := run_chain hrun hm
  refine ⟨X, Y, st, e1, e2, fun t ht h1 h2 => ?_⟩
  have := h σ μ grid t0 δ _ _ hc hδ hδ' t ((along_mem hrun.along).2.2 t ht) h1 h2
  rw [← e] at this
  simpa using this

theorem heston_near {x0 mu sigma y0 theta k xi rho : ℝ} (hx : 0 < x0) (hy : 0 ≤ y0) (hth : 0 < theta)
    (hk : 0 < k) (hxi : xi ≠ 0) (hr : |rho| ≤ 1) {τ : ℝ} (hτ : 0 ≤ τ) :
    ChfNear (chainLawFst mu sigma theta k xi rho (log x0) y0 τ)
      fun u => hestonLogChf x0 mu sigma y0 theta k xi rho τ u :=
  chainLawFst_near hth hk hr hy hτ fun u => by
    obtain ⟨A, B, h1, h2⟩ := heston_riccati hk hxi hr hx mu sigma theta u
    exact ⟨A, B, h1, h2 y0 τ⟩

/-- A run with correlation `rho`, and steps as short as wanted. -/
theorem heston_run_exists (x0 mu sigma y0 theta k xi : ℝ) {rho : ℝ} (hr : |rho| ≤ 1) {τ : ℝ} (hτ : 0 < τ) {n : ℕ}
    (hn : 2 ≤ n) :
    ∃ (W : WienerSrc) (fuel : ℕ) (grid : List ℝ),
      HestonRun x0 mu sigma y0 theta k xi rho (Measure.infinitePi fun _ : ℕ => gaussItemLaw) true [] 1
        ⟨fun _ _ => mu, fun _ _ => sigma, fun _ _ => theta, fun _ _ => k, fun _ _ => xi⟩
        (wienerAt W gaussRng) (.scalar x0) (.scalar y0) [] 0 fuel (.int n) 0 ⟨[2], [0, τ]⟩ grid 0 ∧
      Mesh grid (τ / (n - 1)) := by
  obtain ⟨W, -, hW⟩ := C75_rho gaussRng_mvn (a := true) (v := []) (by simp) 1 (n := 1) (.scalar fun _ => rho)
    (by intro i hi; exact hr) rfl
  obtain ⟨fuel, grid, hal⟩ := along_of_valid (steps := .int n) (i0 := 0) (tl := ⟨[2], [0, τ]⟩)
    (i := 0) (t0 := 0) ⟨rfl, by simp [hτ]⟩ ⟨by simp, .inl rfl⟩ rfl (by rintro _ ⟨⟩; simp)
  have hm := C65_mesh hn hal (a := 0) (b := τ) rfl rfl
  refine ⟨W, fuel, grid, ⟨inferInstance, by simp, by unfold HestonInitOk; show BcOk [] [1] ∧ BcOk [] [1]; decide, by decide,
    by decide, by simp [bcAt, Arr.scalar], by simp [bcAt, Arr.scalar], fun _ => ⟨rfl, rfl, rfl, rfl, rfl⟩,
    fun t dt _ => hW [] 0 (by decide) (by decide) t dt, hal⟩, by simpa using hm⟩

/-- **C76** (law). `heston_log_chf` is the characteristic function of a law. -/
theorem C76_heston_law {x0 mu sigma y0 theta k xi rho : ℝ} (hx : 0 < x0) (hy : 0 ≤ y0) (hth : 0 < theta)
    (hk : 0 < k) (hxi : xi ≠ 0) (hr : |rho| ≤ 1) {τ : ℝ} (hτ : 0 ≤ τ) :
    ∃! ν : Measure ℝ, IsProbabilityMeasure ν ∧
      ∀ u : ℝ, charFun ν u = hestonLogChf x0 mu sigma y0 theta k xi rho τ u := by
  suffices h : ∃ ν : Measure ℝ, IsProbabilityMeasure ν ∧
      ∀ u : ℝ, charFun ν u = hestonLogChf x0 mu sigma y0 theta k xi rho τ u by
    obtain ⟨ν, h1, h2⟩ := h
    refine ⟨ν, ⟨h1, h2⟩, ?_⟩
    rintro ν' ⟨h1', h2'⟩
    exact Measure.ext_of_charFun (funext fun u => by rw [h2, h2'])
  rcases hτ.eq_or_lt with rfl | hτ
  · refine ⟨Measure.dirac (log x0), inferInstance, fun u => ?_⟩
    have := (C54_heston hk hxi hr mu sigma theta u).1 (log x0) y0
    rw [exp_log hx] at this
    rw [this, charFun_dirac]
    congr 1
    simp
    ring
  · have hn := heston_near (mu := mu) (sigma := sigma) hx hy hth hk hxi hr hτ.le
    have hex : ∀ n : ℕ, ∃ ν, chainLawFst mu sigma theta k xi rho (log x0) y0 τ ν (τ / (n + 1)) := by
      intro n
      obtain ⟨W, fuel, grid, hrun, hm⟩ := heston_run_exists x0 mu sigma y0 theta k xi hr hτ (n := n + 2) (by omega)
      have e : τ / (((n + 2 : ℕ) : ℝ) - 1) = τ / (n + 1) := by push_cast; congr 1; ring
      rw [e] at hm
      obtain ⟨X, Y, st, -, -, -, hc⟩ := run_chain hrun hm
      exact ⟨_, _, _, _, _, _, _, hc, by
        rw [zero_add]; exact (along_mem hrun.along).2.2 τ (by simp), rfl⟩
    choose ν hν using hex
    refine exists_law_of_chf (fun n => hn.1 _ _ (hν n)) ?_ (chfNear_tendsto hn hν (fun n => by positivity) ?_)
    · have := (C54_heston_log_mean hk hxi x0 mu sigma y0 theta rho τ).continuousAt
      have h2 : ContinuousAt (fun u : ℝ => (u : ℂ)) 0 := Complex.continuous_ofReal.continuousAt
      exact ContinuousAt.comp (g := fun u : ℂ => hestonLogChf x0 mu sigma y0 theta k xi rho τ u)
        (by simpa using this) h2
    · have := (tendsto_one_div_add_atTop_nhds_zero_nat (𝕜 := ℝ)).const_mul τ
      simpa [div_eq_mul_inv] using this

/-- **C76** (convergence in distribution). As the longest step goes to zero, the logarithm of the values
simulated after a time `τ` converges in distribution to the law with characteristic function `heston_log_chf`:
averages of bounded continuous functions do, and so do cumulative probabilities, at values that have
probability zero. -/
theorem C76_heston_conv {x0 mu sigma y0 theta k xi rho : ℝ} (hx : 0 < x0) (hy : 0 ≤ y0) (hth : 0 < theta)
    (hk : 0 < k) (hxi : xi ≠ 0) (hr : |rho| ≤ 1) {τ : ℝ} (hτ : 0 ≤ τ) {ν : Measure ℝ} [IsProbabilityMeasure ν]
    (hν : ∀ u : ℝ, charFun ν u = hestonLogChf x0 mu sigma y0 theta k xi rho τ u) (f : ℝ →ᵇ ℝ) {z : ℝ}
    (hz : ν {z} = 0) {ε : ℝ} (hε : 0 < ε) :
    ∃ δ0 : ℝ, 0 < δ0 ∧ ∀ (σ : Type) [MeasurableSpace σ] (μ : Measure σ) (a : Bool) (v : List ℕ)
      (p : ℕ) (P : HestonParams) (dw : Src ℝ (List ℕ) σ) (x y : Arr ℝ) (c : List ℕ) (q fuel : ℕ)
      (steps : Steps ℝ) (i0 : ℤ) (tl : TArr ℝ) (grid : List ℝ) (t0 δ : ℝ),
      HestonRun x0 mu sigma y0 theta k xi rho μ a v p P dw x y c q fuel steps i0 tl grid t0 →
      Mesh grid δ → 0 < δ → δ ≤ δ0 → t0 + τ ∈ tl.data →
      ∃ (X Y : ℝ → σ → Arr ℝ) (st : σ → σ),
        (∀ s, fullHestonCall a v p P x y dw fuel steps i0 tl s =
          .ok (tl.data.map fun t => some (X t s, Y t s), st s)) ∧
        (∀ s, hestonCall a v p P x y dw fuel steps i0 tl s =
          .ok (tl.data.map fun t => some (X t s), st s)) ∧
        |∫ s, f (log ((X (t0 + τ) s).get (c ++ [q]))) ∂μ - ∫ r, f r ∂ν| ≤ ε ∧
        |μ.real {s | (X (t0 + τ) s).get (c ++ [q]) ≤ exp z} - ν.real (Iic z)| ≤ ε := by
  have hn := heston_near (mu := mu) (sigma := sigma) hx hy hth hk hxi hr hτ
  rw [← funext hν] at hn
  obtain ⟨δ1, hδ1, h1⟩ := chfNear_integral hn f hε
  obtain ⟨δ2, hδ2, h2⟩ := chfNear_cdf hn hz hε
  refine ⟨min δ1 δ2, by positivity, ?_⟩
  intro σ _ μ a v p P dw x y c q fuel steps i0 tl grid t0 δ hrun hm hδ hδ' ht
  obtain ⟨X, Y, st, e1, e2, hpos, hc⟩ := run_chain hrun hm
  have hg := (along_mem hrun.along).2.2 _ ht
  have hR : chainLawFst mu sigma theta k xi rho (log x0) y0 τ
      (μ.map fun s => log ((X (t0 + τ) s).get (c ++ [q]))) δ := ⟨σ, _, μ, grid, t0, _, hc, hg, rfl⟩
  have hmeas : Measurable fun s => log ((X (t0 + τ) s).get (c ++ [q])) := measurable_fst.comp (hc.meas _ hg)
  refine ⟨X, Y, st, e1, e2, ?_, ?_⟩
  · have := h1 _ _ hR hδ (hδ'.trans (min_le_left _ _))
    rwa [integral_map hmeas.aemeasurable f.continuous.aestronglyMeasurable] at this
  · have := h2 _ _ hR hδ (hδ'.trans (min_le_right _ _))
    rw [map_measureReal_apply hmeas measurableSet_Iic] at this
    convert this using 4
    ext s
    simp [log_le_iff_le_exp (hpos _ s)]

/-- **C76** (number of steps). With enough integration steps, cumulative probabilities of the values simulated
at a time `t` of a timeline are as near as wanted to those of the law with characteristic function
`heston_log_chf`. -/
theorem C76_heston_steps {x0 mu sigma y0 theta k xi rho : ℝ} (hx : 0 < x0) (hy : 0 ≤ y0) (hth : 0 < theta)
    (hk : 0 < k) (hxi : xi ≠ 0) (hr : |rho| ≤ 1) (tl : TArr ℝ) {t0 t : ℝ} (ht : t ∈ tl.data) (hle : t0 ≤ t)
    {ν : Measure ℝ} [IsProbabilityMeasure ν]
    (hν : ∀ u : ℝ, charFun ν u = hestonLogChf x0 mu sigma y0 theta k xi rho (t - t0) u) {z : ℝ}
    (hz : ν {z} = 0) {ε : ℝ} (hε : 0 < ε) :
    ∃ N : ℕ, ∀ (σ : Type) [MeasurableSpace σ] (μ : Measure σ) (a : Bool) (v : List ℕ)
      (p : ℕ) (P : HestonParams) (dw : Src ℝ (List ℕ) σ) (x y : Arr ℝ) (c : List ℕ) (q fuel n : ℕ)
      (i0 : ℤ) (grid : List ℝ), N ≤ n →
      HestonRun x0 mu sigma y0 theta k xi rho μ a v p P dw x y c q fuel (.int n) i0 tl grid t0 →
      ∃ (X : ℝ → σ → Arr ℝ) (st : σ → σ),
        (∀ s, hestonCall a v p P x y dw fuel (.int n) i0 tl s =
          .ok (tl.data.map fun t => some (X t s), st s)) ∧
        |μ.real {s | (X t s).get (c ++ [q]) ≤ exp z} - ν.real (Iic z)| ≤ ε := by
  obtain ⟨δ0, hδ0, h⟩ := C76_heston_conv hx hy hth hk hxi hr (sub_nonneg.2 hle) hν 0 hz hε
  obtain ⟨N, hN⟩ := exists_mesh tl hδ0
  refine ⟨N, ?_⟩
  intro σ _ μ a v p P dw x y c q fuel n i0 grid hn hrun
  obtain ⟨X, Y, st, -, e, -, hX⟩ := h σ μ a v p P dw x y c q fuel (.int n) i0 tl grid t0 δ0 hrun
    (hN fuel n i0 grid t0 hn hrun.along) hδ0 le_rfl (by rw [add_sub_cancel]; exact ht)
  rw [add_sub_cancel] at hX
  exact ⟨X, st, e, hX⟩

/-! ### cases meeting the hypotheses -/

theorem exists_not_atom (ν : Measure ℝ) [IsProbabilityMeasure ν] : ∃ z, ν {z} = 0 := by
  by_contra h
  push Not at h
  have hc := Measure.countable_meas_pos_of_disjoint_iUnion (μ := ν) (As := fun z : ℝ => {z})
    (fun _ => measurableSet_singleton _) (fun a b hab => by simpa using hab)
  have : {z : ℝ | 0 < ν {z}} = univ := by
    ext z; simp [pos_iff_ne_zero, h z]
  rw [this] at hc
  exact not_countable_univ hc

example := C76_heston_law (x0 := 10) (mu := 1) (sigma := 2) (y0 := 1) (theta := 3) (k := 4) (xi := 5)
  (rho := -1 / 2) (by norm_num) (by norm_num) (by norm_num) (by norm_num) (by norm_num)
  (by norm_num [abs_le]) (τ := 1) (by norm_num)

/-- Two components, three paths, correlations given by component. -/
theorem exHestonRun {n : ℕ} (hn : 2 ≤ n) : ∃ (W : WienerSrc) (fuel : ℕ) (grid : List ℝ),
    wienerNew 3 [4] .none (.arr ⟨[2], fun i => 1 / 2 - i.headD 0⟩) = .ok W ∧
    HestonRun 10 1 2 1 3 4 5 (-1 / 2) (Measure.infinitePi fun _ : ℕ => gaussItemLaw) false [2] 3 exParams
      (wienerAt W gaussRng) (.scalar 10) (.scalar 1) [1] 2 fuel (.int n) 0 ⟨[2], [1, 2]⟩ grid 1 ∧
    Mesh grid (1 / (n - 1)) := by
  obtain ⟨W, hnew, hW⟩ := exHestonRho
  obtain ⟨fuel, grid, hal⟩ := along_of_valid (steps := .int n) (i0 := 0) (tl := ⟨[2], [1, 2]⟩)
    (i := 0) (t0 := 1) ⟨rfl, by simp⟩ ⟨by simp, .inl rfl⟩ rfl (by rintro _ ⟨⟩; simp)
  have hm := C65_mesh hn hal (a := 1) (b := 2) rfl rfl
  refine ⟨W, fuel, grid, hnew, ⟨inferInstance, by simp, by unfold HestonInitOk; decide, by decide, by decide,
    by simp [bcAt, Arr.scalar], by simp [bcAt, Arr.scalar], fun _ => ⟨rfl, rfl, rfl, rfl, rfl⟩,
    fun t dt _ => ?_, hal⟩, by norm_num at hm ⊢; exact hm⟩
  obtain ⟨N, h1, h2⟩ := hW [1] 2 (by decide) (by decide) t dt
  rw [show (1 / 2 - (([1] : List ℕ).getLastD 0 : ℕ) : ℝ) = -1 / 2 by norm_num] at h2
  exact ⟨N, h1, h2⟩

/-- With steps short enough, the characteristic function at `u = 7` of the values simulated in two units of
time. -/
example : ∃ (n fuel : ℕ) (X : ℝ → (ℕ → GaussItem) → Arr ℝ) (st : (ℕ → GaussItem) → ℕ → GaussItem)
    (W : WienerSrc), wienerNew 3 [4] .none (.arr ⟨[2], fun i => 1 / 2 - i.headD 0⟩) = .ok W ∧
    (∀ s, hestonCall false [2] 3 exParams (.scalar 10) (.scalar 1) (wienerAt W gaussRng) fuel (.int n) 0
      ⟨[2], [1, 2]⟩ s = .ok ([some (X 1 s), some (X 2 s)], st s)) ∧
    ‖∫ s, Complex.exp (I * (7 : ℝ) * log ((X 2 s).get [1, 2])) ∂(Measure.infinitePi fun _ : ℕ => gaussItemLaw) -
      hestonLogChf 10 1 2 1 3 4 5 (-1 / 2) 1 (7 : ℝ)‖ ≤ 1 / 1000 := by
  obtain ⟨B, δ0, hB, hδ0, h⟩ := C76_heston_order (x0 := 10) (mu := 1) (sigma := 2) (y0 := 1) (theta := 3) (k := 4)
    (xi := 5) (rho := -1 / 2) (by norm_num) (by norm_num) (by norm_num) (by norm_num) (by norm_num)
    (by norm_num [abs_le]) (T := 1) (by norm_num) 7
  have hmin : 0 < min δ0 (1 / 1000 / B) := lt_min hδ0 (by positivity)
  obtain ⟨N, hN⟩ := exists_mesh ⟨[2], [1, 2]⟩ hmin
  obtain ⟨W, fuel, grid, hnew, hrun, -⟩ := exHestonRun (n := N + 2) (by omega)
  obtain ⟨X, Y, st, -, e, hX⟩ := h _ _ false [2] 3 exParams (wienerAt W gaussRng) (.scalar 10) (.scalar 1) [1] 2
    fuel (.int (N + 2 : ℕ)) 0 ⟨[2], [1, 2]⟩ grid 1 (min δ0 (1 / 1000 / B)) hrun
    (hN fuel (N + 2) 0 grid 1 (by omega) hrun.along) hmin (min_le_left _ _)
  have h2 := hX 2 (by simp) (by norm_num) (by norm_num)
  rw [show (2 : ℝ) - 1 = 1 by norm_num] at h2
  refine ⟨N + 2, fuel, X, st, W, hnew, e, h2.trans ?_⟩
  calc B * min δ0 (1 / 1000 / B) ≤ B * (1 / 1000 / B) := by gcongr; exact min_le_right _ _
    _ = _ := by field_simp

/-- With enough steps, a cumulative probability of the values simulated. -/
example : ∃ (ν : Measure ℝ) (z : ℝ) (n fuel : ℕ) (X : ℝ → (ℕ → GaussItem) → Arr ℝ)
    (st : (ℕ → GaussItem) → ℕ → GaussItem) (W : WienerSrc),
    (∀ u : ℝ, charFun ν u = hestonLogChf 10 1 2 1 3 4 5 (-1 / 2) 1 u) ∧
    wienerNew 3 [4] .none (.arr ⟨[2], fun i => 1 / 2 - i.headD 0⟩) = .ok W ∧
    (∀ s, hestonCall false [2] 3 exParams (.scalar 10) (.scalar 1) (wienerAt W gaussRng) fuel (.int n) 0
      ⟨[2], [1, 2]⟩ s = .ok ([some (X 1 s), some (X 2 s)], st s)) ∧
    |(Measure.infinitePi fun _ : ℕ => gaussItemLaw).real {s | (X 2 s).get [1, 2] ≤ exp z} -
      ν.real (Iic z)| ≤ 1 / 1000 := by
  obtain ⟨ν, ⟨hp, hν⟩, -⟩ := C76_heston_law (x0 := 10) (mu := 1) (sigma := 2) (y0 := 1) (theta := 3) (k := 4)
    (xi := 5) (rho := -1 / 2) (by norm_num) (by norm_num) (by norm_num) (by norm_num) (by norm_num)
    (by norm_num [abs_le]) (τ := 1) (by norm_num)
  obtain ⟨z, hz⟩ := exists_not_atom ν
  obtain ⟨N, h⟩ := C76_heston_steps (x0 := 10) (mu := 1) (sigma := 2) (y0 := 1) (theta := 3) (k := 4)
    (xi := 5) (rho := -1 / 2) (by norm_num) (by norm_num) (by norm_num) (by norm_num) (by norm_num)
    (by norm_num [abs_le]) ⟨[2], [1, 2]⟩ (t0 := 1) (t := 2) (by simp) (by norm_num) (ν := ν)
    (by rw [show (2 : ℝ) - 1 = 1 by norm_num]; exact hν) hz (ε := 1 / 1000) (by norm_num)
  obtain ⟨W, fuel, grid, hnew, hrun, -⟩ := exHestonRun (n := N + 2) (by omega)
  obtain ⟨X, st, e, hX⟩ := h _ _ false [2] 3 exParams (wienerAt W gaussRng) (.scalar 10) (.scalar 1) [1] 2
    fuel (N + 2) 0 grid (by omega) hrun
  exact ⟨ν, z, N + 2, fuel, X, st, W, hν, hnew, e, hX⟩

end Sdepy
