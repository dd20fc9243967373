import Verif.Props.WienerSource
import Verif.Props.Presets
import Verif.Props.Pdf
import Verif.Props.BlackScholes

/-!
# Property C64: the law of simulated Wiener and lognormal processes
-/

set_option linter.unusedSectionVars false
set_option linter.unusedSimpArgs false

open MeasureTheory ProbabilityTheory Matrix

namespace Sdepy

open Spec

variable {Ω ι κ : Type} [MeasurableSpace Ω] [Fintype κ] [DecidableEq κ] [DecidableEq ι]
  {P : Measure Ω} [IsProbabilityMeasure P]

/-! ### Properties of Wiener processes -/

section
variable {F : ℝ → Matrix κ κ ℝ} {t0 : ℝ} {z0 : ι → κ → ℝ} {D : Set ℝ} {W : ℝ → Ω → ι → κ → ℝ}

theorem Spec.IsWienerProcess.hasGaussianLaw (h : IsWienerProcess P F t0 z0 D W) {u : ℝ} (hu : u ∈ D)
    (i : ι) (k : κ) : HasGaussianLaw (fun ω => W u ω i k) P :=
  h.gauss.hasGaussianLaw_eval (⟨u, hu⟩, i, k)

theorem Spec.IsWienerProcess.gauss_affine (h : IsWienerProcess P F t0 z0 D W) {S : Type}
    {Y : S → Ω → ℝ}
    (hY : ∀ s, Y s ∈ affSpan fun (p : D × ι × κ) ω => W p.1 ω p.2.1 p.2.2) :
    IsGaussianProcess Y P := gauss_of_affSpan h.gauss hY

theorem Spec.IsWienerProcess.mono (h : IsWienerProcess P F t0 z0 D W) {D' : Set ℝ} (hD : D' ⊆ D) :
    IsWienerProcess P F t0 z0 D' W :=
  ⟨h.start, h.gauss_affine fun p => affSpan_draw
      (fun (p : D × ι × κ) ω => W p.1 ω p.2.1 p.2.2) (⟨p.1, hD p.1.2⟩, p.2.1, p.2.2),
    fun u hu => h.mean u (hD hu), fun u hu v hv => h.cov u (hD hu) v (hD hv)⟩

/-- Each value is normal, with the given mean and variance. -/
theorem Spec.IsWienerProcess.law (h : IsWienerProcess P F t0 z0 D W) {u : ℝ} (hu : u ∈ D)
    (i : ι) (k : κ) :
    HasLaw (fun ω => W u ω i k) (gaussianReal (z0 i k) (wienerCov F t0 u u k k).toNNReal) P := by
  have hg := h.hasGaussianLaw hu i k
  refine ⟨hg.aemeasurable, ?_⟩
  rw [hg.map_eq_gaussianReal, h.mean u hu i k, ← covariance_self hg.aemeasurable,
    h.cov u hu u hu i i k k, if_pos rfl]

theorem Spec.IsWienerProcess.cov_sub (h : IsWienerProcess P F t0 z0 D W) {u a b : ℝ} (hu : u ∈ D)
    (ha : a ∈ D) (hb : b ∈ D) (i j : ι) (k l : κ) :
    cov[fun ω => W u ω i k, fun ω => W b ω j l - W a ω j l; P] =
      if i = j then wienerCov F t0 u b k l - wienerCov F t0 u a k l else 0 := by
  rw [covariance_fun_sub_right (h.hasGaussianLaw hu i k).memLp_two
    (h.hasGaussianLaw hb j l).memLp_two (h.hasGaussianLaw ha j l).memLp_two,
    h.cov u hu b hb, h.cov u hu a ha]
  split_ifs <;> simp

/-- Increments are normal, with mean zero and with the variance given by the integral of correlations. -/
theorem Spec.IsWienerProcess.increment (h : IsWienerProcess P F t0 z0 D W) {a b : ℝ} (ha : a ∈ D)
    (hb : b ∈ D) (hab : a ≤ b) (i : ι) (k : κ) :
    HasLaw (fun ω => W b ω i k - W a ω i k) (gaussianReal 0 (F b k k - F a k k).toNNReal) P := by
  have hg : HasGaussianLaw (fun ω => W b ω i k - W a ω i k) P := by
    have := h.gauss_affine (S := Unit) (Y := fun _ ω => W b ω i k - W a ω i k) (fun _ => by
      exact Submodule.sub_mem _
        (affSpan_draw (fun (p : D × ι × κ) ω => W p.1 ω p.2.1 p.2.2) (⟨b, hb⟩, i, k))
        (affSpan_draw (fun (p : D × ι × κ) ω => W p.1 ω p.2.1 p.2.2) (⟨a, ha⟩, i, k)))
    exact this.hasGaussianLaw_eval ()
  refine ⟨hg.aemeasurable, ?_⟩
  rw [hg.map_eq_gaussianReal, integral_sub (h.hasGaussianLaw hb i k).integrable
    (h.hasGaussianLaw ha i k).integrable, h.mean b hb, h.mean a ha, sub_self,
    ← covariance_self hg.aemeasurable, covariance_fun_sub_left (h.hasGaussianLaw hb i k).memLp_two
    (h.hasGaussianLaw ha i k).memLp_two hg.memLp_two, h.cov_sub hb ha hb, h.cov_sub ha ha hb, if_pos rfl,
    if_pos rfl]
  congr 2
  simp only [wienerCov_eq, min_self, max_self, min_eq_left hab, min_eq_right hab,
    max_eq_left hab, max_eq_right hab, Matrix.sub_apply, Matrix.add_apply]
  rcases le_total t0 a with h1 | h1
  · simp only [max_eq_right h1, max_eq_right (h1.trans hab), min_eq_left h1,
      min_eq_left (h1.trans hab)]
    ring
  · rcases le_total t0 b with h2 | h2
    · simp only [max_eq_left h1, max_eq_right h2, min_eq_right h1, min_eq_left h2]
      ring
    · simp only [max_eq_left h1, max_eq_left h2, min_eq_right h1, min_eq_right h2]
      ring

/-- After the start, increments are independent of everything realised before. -/
theorem Spec.IsWienerProcess.indep (h : IsWienerProcess P F t0 z0 D W) {a b : ℝ} (ha : a ∈ D)
    (hb : b ∈ D) (h0 : t0 ≤ a) (hab : a ≤ b) :
    IndepFun (fun ω (p : {u : ℝ // u ∈ D ∧ u ≤ a} × ι × κ) => W p.1 ω p.2.1 p.2.2)
      (fun ω (p : ι × κ) => W b ω p.1 p.2 - W a ω p.1 p.2) P := by
  refine IsGaussianProcess.indepFun_of_covariance_eq_zero
    (X := fun (p : {u : ℝ // u ∈ D ∧ u ≤ a} × ι × κ) ω => W p.1 ω p.2.1 p.2.2)
    (Y := fun (p : ι × κ) ω => W b ω p.1 p.2 - W a ω p.1 p.2)
    (h.gauss_affine ?_) (fun p => (h.hasGaussianLaw p.1.2.1 _ _).aemeasurable)
    (fun p => (h.hasGaussianLaw hb _ _).aemeasurable.sub (h.hasGaussianLaw ha _ _).aemeasurable) ?_
  · rintro (p | p)
    · exact affSpan_draw (fun (p : D × ι × κ) ω => W p.1 ω p.2.1 p.2.2)
        (⟨p.1, p.1.2.1⟩, p.2.1, p.2.2)
    · exact Submodule.sub_mem _
        (affSpan_draw (fun (p : D × ι × κ) ω => W p.1 ω p.2.1 p.2.2) (⟨b, hb⟩, p.1, p.2))
        (affSpan_draw (fun (p : D × ι × κ) ω => W p.1 ω p.2.1 p.2.2) (⟨a, ha⟩, p.1, p.2))
  · rintro ⟨⟨u, hu, hua⟩, i, k⟩ ⟨j, l⟩
    simp only
    rw [h.cov_sub hu ha hb]
    have e : wienerCov F t0 u b = wienerCov F t0 u a := by
      simp only [wienerCov_eq, min_eq_left hua, min_eq_left (hua.trans hab), max_eq_right hua,
        max_eq_right (hua.trans hab), min_eq_left h0, min_eq_left (h0.trans hab)]
    rw [e]
    simp

end

/-! ### C30 -/

/-- **C30** (law). The values returned by a Wiener source with memory at any times, asked for in any
order, and the value it starts from, have the joint law of a Wiener process at those times. -/
theorem C30_law {t0 rtol : ℝ} {corr : Corr κ} {D : Set ℝ} {F : ℝ → Matrix κ κ ℝ}
    (hC : CorrOk corr D F) {G : ℕ → Matrix κ κ ℝ → ℝ → ℝ → Ω → ι → κ → ℝ} (hG : Draws P G)
    (hJ : GaussianDraws P G)
    (hr : 0 ≤ rtol) (h0 : t0 ∈ D) (z0 : ι → κ → ℝ) (ss : List ℝ) (hss : ∀ s ∈ ss, s ∈ D) :
    ∃ (us : List ℝ) (W : ℝ → Ω → ι → κ → ℝ) (m : Ω → Mem ℝ (ι → κ → ℝ) (Ω × ℕ)),
      (∀ ω, (trueWiener t0 rtol corr (seeded G)).call ss none (Mem.new t0 z0 (ω, 0)) =
        .ok (us.map (fun u => W u ω), m ω)) ∧
      List.Forall₂ (fun s u => |s - u| ≤ rtol * |u|) ss us ∧
      IsWienerProcess P F t0 z0 {u | u ∈ t0 :: us} W := by
  obtain ⟨us, ts', W, n', h1, h2, h3, h4, h5⟩ := wiener_getList hC hG hr ss
    (good_start (P := P) G F t0 z0 0) (by simp) (by simp) (by simpa using h0) hss
  have h4' := h4 t0 (by simp)
  refine ⟨us, W, fun ω => memAt ts' W n' ω, h1, h5,
    isWiener_of_good hJ h2 ?_ fun ω => by rw [h4'.2]⟩
  intro u hu
  rcases List.mem_cons.1 hu with rfl | hu
  · exact h4'.1
  · exact h3 u hu

/-! ### C64 -/

section
variable {corr : Corr κ} {D : Set ℝ} {F : ℝ → Matrix κ κ ℝ}
  {G : ℕ → Matrix κ κ ℝ → ℝ → ℝ → Ω → ι → κ → ℝ}

/-- The noise cumulated in a simulation is a Wiener process at the integration steps. -/
theorem cumulated_wiener (hC : CorrOk corr D F) (hG : Draws P G) (hJ : GaussianDraws P G)
    {t0 : ℝ} {grid : List ℝ} (hg : grid.Pairwise (· < ·)) (h0 : t0 ∈ grid)
    (hD : ∀ u ∈ grid, u ∈ D) (n : ℕ) :
    ∃ (W : ℝ → Ω → ι → κ → ℝ) (m : ℕ), IsWienerProcess P F t0 0 {u | u ∈ grid} W ∧
      ∀ ω, cumulated (noise G (corrAt corr)) t0 grid (ω, n) =
        .ok (grid.map fun u => (u, fun c => W u ω c.1 c.2), (ω, m)) := by
  obtain ⟨W, m, ts, h1, h2, h3, h4⟩ := cumulated_good hC hG hg h0 hD n
  exact ⟨W, m, isWiener_of_good hJ h2 (fun u hu => (h3 u).2 hu) fun ω => by rw [h4], h1⟩

theorem grid_mem {fuel : ℕ} {steps : Steps ℝ} {i0 : ℤ} {tl : TArr ℝ} {grid : List ℝ}
    {t0 : ℝ} (h : Along fuel steps i0 tl grid t0) {D : Set ℝ} (hc : D.OrdConnected)
    (hD : ∀ u ∈ tl.data, u ∈ D) : ∀ u ∈ grid, u ∈ D := by
  intro u hu
  rcases (h.isGrid.2 u).1 hu with h' | ⟨-, ⟨a, ha, hau⟩, b, hb, hub⟩
  · exact hD u h'
  · exact hc.out (hD a ha) (hD b hb) ⟨hau, hub⟩

/-- **C64** (Wiener process). The values simulated with constant parameters are
`x0 + mu*(t - t0) + sigma*W(t)`, jointly at all times and for all components and paths, `W` having the law of a
Wiener process; whatever the timeline, the integration steps, the initial time. -/
theorem C64_wiener (hC : CorrOk corr D F) (hG : Draws P G) (hJ : GaussianDraws P G)
    (x0 mu sigma : ι × κ → ℝ) {fuel : ℕ} {steps : Steps ℝ} {i0 : ℤ} {tl : TArr ℝ} {grid : List ℝ}
    {t0 : ℝ} (h : Along fuel steps i0 tl grid t0) (hD : ∀ u ∈ tl.data, u ∈ D) (n : ℕ) :
    ∃ (W : ℝ → Ω → ι → κ → ℝ) (m : ℕ), IsWienerProcess P F t0 0 {u | u ∈ tl.data} W ∧
      ∀ ω, (wienerSDE x0 (fun _ => mu) (fun _ => sigma) (noise G (corrAt corr))).call
          fuel steps i0 tl (ω, n) =
        .ok (tl.data.map fun t => some fun c =>
          x0 c + mu c * (t - t0) + sigma c * W t ω c.1 c.2, (ω, m)) := by
  obtain ⟨h1, h2, h3⟩ := along_mem h
  obtain ⟨W, m, hW, he⟩ := cumulated_wiener hC hG hJ h.isGrid.1 h2 (grid_mem h hC.conn hD) n
  refine ⟨W, m, hW.mono h3, fun ω => ?_⟩
  rw [C14_wiener x0 mu sigma _ h (ω, n), he]
  simp only [bind, Except.bind, pure, Except.pure, Except.ok.injEq, Prod.mk.injEq, and_true]
  apply List.map_congr_left
  intro t ht
  rw [lookup_map_self (fun u (c : ι × κ) => W u ω c.1 c.2) (h3 t ht)]
  rfl

/-- **C64** (lognormal process). The values simulated with constant parameters are
`x0*exp((mu - sigma²/2)*(t - t0) + sigma*W(t))`, `W` having the law of a Wiener process. -/
theorem C64_lognorm (hC : CorrOk corr D F) (hG : Draws P G) (hJ : GaussianDraws P G)
    (x0 mu sigma : ι × κ → ℝ) (hx : ∀ c, 0 < x0 c) {fuel : ℕ} {steps : Steps ℝ} {i0 : ℤ}
    {tl : TArr ℝ} {grid : List ℝ} {t0 : ℝ} (h : Along fuel steps i0 tl grid t0)
    (hD : ∀ u ∈ tl.data, u ∈ D) (n : ℕ) :
    ∃ (W : ℝ → Ω → ι → κ → ℝ) (m : ℕ), IsWienerProcess P F t0 0 {u | u ∈ tl.data} W ∧
      ∀ ω, (lognormSDE x0 (fun _ => mu) (fun _ => sigma) (noise G (corrAt corr))).call
          fuel steps i0 tl (ω, n) =
        .ok (tl.data.map fun t => some fun c =>
          x0 c * Real.exp ((mu c - sigma c ^ 2 / 2) * (t - t0) + sigma c * W t ω c.1 c.2),
          (ω, m)) := by
  obtain ⟨h1, h2, h3⟩ := along_mem h
  obtain ⟨W, m, hW, he⟩ := cumulated_wiener hC hG hJ h.isGrid.1 h2 (grid_mem h hC.conn hD) n
  refine ⟨W, m, hW.mono h3, fun ω => ?_⟩
  rw [C14_lognorm x0 mu sigma hx _ h (ω, n), he]
  simp only [bind, Except.bind, pure, Except.pure, Except.ok.injEq, Prod.mk.injEq, and_true]
  apply List.map_congr_left
  intro t ht
  rw [lookup_map_self (fun u (c : ι × κ) => W u ω c.1 c.2) (h3 t ht)]
  rfl

/-- With correlation matrices (ones on the diagonal), each component is a standard Wiener process. -/
theorem wienerCov_diag (hC : CorrOk corr D F) (hone : ∀ u ∈ D, ∀ k, corrAt corr u k k = 1) {t0 t : ℝ}
    (h0 : t0 ∈ D) (ht : t ∈ D) (h : t0 ≤ t) (k : κ) : wienerCov F t0 t t k k = t - t0 := by
  have := hC.mid t0 h0 t ht
  rw [wienerCov, if_pos ⟨h, h⟩, min_self, this, Matrix.smul_apply, hone _ (hC.mem h0 ht),
    smul_eq_mul, mul_one]

/-- **C64** (Wiener process, distribution). The values simulated at each time after `t0` have the
density `wiener_pdf` and the distribution function `wiener_cdf`. -/
theorem C64_wiener_pdf (hC : CorrOk corr D F) (hone : ∀ u ∈ D, ∀ k, corrAt corr u k k = 1)
    (hG : Draws P G) (hJ : GaussianDraws P G)
    (x0 mu sigma : ι × κ → ℝ) {fuel : ℕ} {steps : Steps ℝ} {i0 : ℤ} {tl : TArr ℝ} {grid : List ℝ}
    {t0 : ℝ} (h : Along fuel steps i0 tl grid t0) (hD : ∀ u ∈ tl.data, u ∈ D) (n : ℕ) :
    ∃ (X : ℝ → Ω → ι × κ → ℝ) (m : ℕ),
      (∀ ω, (wienerSDE x0 (fun _ => mu) (fun _ => sigma) (noise G (corrAt corr))).call
          fuel steps i0 tl (ω, n) = .ok (tl.data.map fun t => some (X t ω), (ω, m))) ∧
      ∀ t ∈ tl.data, t0 < t → ∀ c, 0 < sigma c →
        Describe (P.map fun ω => X t ω c) (wienerPdf (x0 c) (mu c) (sigma c) (t - t0))
          (wienerCdf (x0 c) (mu c) (sigma c) (t - t0)) := by
  obtain ⟨W, m, hW, he⟩ := C64_wiener hC hG hJ x0 mu sigma h hD n
  obtain ⟨h1, h2, h3⟩ := along_mem h
  refine ⟨fun t ω c => x0 c + mu c * (t - t0) + sigma c * W t ω c.1 c.2, m, he,
    fun t ht h0 c hs => ?_⟩
  have hl := hW.law ht c.1 c.2
  rw [wienerCov_diag hC hone (hD _ h1) (hD _ ht) h0.le] at hl
  have e : P.map (fun ω => x0 c + mu c * (t - t0) + sigma c * W t ω c.1 c.2) =
      gaussianReal (wienerMean (x0 c) (mu c) (sigma c) (t - t0))
        (wienerVar (x0 c) (mu c) (sigma c) (t - t0)).toNNReal := by
    have := (gaussianReal_const_add (gaussianReal_const_mul hl (sigma c))
      (x0 c + mu c * (t - t0))).map_eq
    rw [this]
    unfold wienerMean wienerVar
    congr 1
    · simp
    · ext
      simp [Real.toNNReal_of_nonneg (sub_nonneg.2 h0.le), pow_two,
        mul_nonneg (mul_self_nonneg (sigma c)) (sub_nonneg.2 h0.le)]
  rw [e]
  exact C60_wiener _ _ hs (sub_pos.2 h0)

theorem lognorm_map {W : ℝ → Ω → ι → κ → ℝ} {t0 t : ℝ} {i : ι} {k : κ}
    (hl : HasLaw (fun ω => W t ω i k) (gaussianReal 0 (t - t0).toNNReal) P) (x0 mu sigma : ℝ) :
    P.map (fun ω => x0 * Real.exp ((mu - sigma ^ 2 / 2) * (t - t0) + sigma * W t ω i k)) =
      geometricLaw x0 mu sigma (t - t0) := by
  unfold geometricLaw
  rw [← hl.map_eq, AEMeasurable.map_map_of_aemeasurable (by fun_prop) hl.aemeasurable]
  rfl

/-- **C64** (lognormal process, distribution). The values simulated at each time after `t0` have the
density `lognorm_pdf` and the distribution function `lognorm_cdf`. -/
theorem C64_lognorm_pdf (hC : CorrOk corr D F) (hone : ∀ u ∈ D, ∀ k, corrAt corr u k k = 1)
    (hG : Draws P G) (hJ : GaussianDraws P G)
    (x0 mu sigma : ι × κ → ℝ) (hx : ∀ c, 0 < x0 c) {fuel : ℕ} {steps : Steps ℝ} {i0 : ℤ}
    {tl : TArr ℝ} {grid : List ℝ} {t0 : ℝ} (h : Along fuel steps i0 tl grid t0)
    (hD : ∀ u ∈ tl.data, u ∈ D) (n : ℕ) :
    ∃ (X : ℝ → Ω → ι × κ → ℝ) (m : ℕ),
      (∀ ω, (lognormSDE x0 (fun _ => mu) (fun _ => sigma) (noise G (corrAt corr))).call
          fuel steps i0 tl (ω, n) = .ok (tl.data.map fun t => some (X t ω), (ω, m))) ∧
      ∀ t ∈ tl.data, t0 < t → ∀ c, 0 < sigma c →
        Describe (P.map fun ω => X t ω c) (lognormPdf (x0 c) (mu c) (sigma c) (t - t0))
          (lognormCdf (x0 c) (mu c) (sigma c) (t - t0)) := by
  obtain ⟨W, m, hW, he⟩ := C64_lognorm hC hG hJ x0 mu sigma hx h hD n
  obtain ⟨h1, h2, h3⟩ := along_mem h
  refine ⟨fun t ω c => x0 c *
    Real.exp ((mu c - sigma c ^ 2 / 2) * (t - t0) + sigma c * W t ω c.1 c.2), m, he,
    fun t ht h0 c hs => ?_⟩
  have hl := hW.law ht c.1 c.2
  rw [wienerCov_diag hC hone (hD _ h1) (hD _ ht) h0.le] at hl
  rw [lognorm_map hl]
  exact C60_lognorm _ (hx c) hs (sub_pos.2 h0)

/-- **C64** (option prices). Black-Scholes prices are the expected discounted payoffs of options on
lognormal processes simulated with drift `r - q`, at each time from `t0` on. -/
theorem C64_black_scholes (hC : CorrOk corr D F) (hone : ∀ u ∈ D, ∀ k, corrAt corr u k k = 1)
    (hG : Draws P G) (hJ : GaussianDraws P G)
    (x0 r q sigma : ι × κ → ℝ) (hx : ∀ c, 0 < x0 c) {fuel : ℕ} {steps : Steps ℝ} {i0 : ℤ}
    {tl : TArr ℝ} {grid : List ℝ} {t0 : ℝ} (h : Along fuel steps i0 tl grid t0)
    (hD : ∀ u ∈ tl.data, u ∈ D) (n : ℕ) :
    ∃ (X : ℝ → Ω → ι × κ → ℝ) (m : ℕ),
      (∀ ω, (lognormSDE x0 (fun _ => r - q) (fun _ => sigma) (noise G (corrAt corr))).call
          fuel steps i0 tl (ω, n) = .ok (tl.data.map fun t => some (X t ω), (ω, m))) ∧
      ∀ t ∈ tl.data, t0 ≤ t → ∀ c, 0 ≤ sigma c → ∀ k, 0 < k →
        Real.exp (-r c * (t - t0)) * ∫ ω, max (X t ω c - k) 0 ∂P =
          bscall k (t - t0) (x0 c) (r c) (q c) (sigma c) ∧
        Real.exp (-r c * (t - t0)) * ∫ ω, max (k - X t ω c) 0 ∂P =
          bsput k (t - t0) (x0 c) (r c) (q c) (sigma c) := by
  obtain ⟨W, m, hW, he⟩ := C64_lognorm hC hG hJ x0 (r - q) sigma hx h hD n
  obtain ⟨h1, h2, h3⟩ := along_mem h
  refine ⟨_, m, he, fun t ht h0 c hs k hk => ?_⟩
  have hl := hW.law ht c.1 c.2
  rw [wienerCov_diag hC hone (hD _ h1) (hD _ ht) h0] at hl
  have key : ∀ f : ℝ → ℝ, Measurable f → ∫ ω, f (x0 c * Real.exp (((r - q) c - sigma c ^ 2 / 2) *
      (t - t0) + sigma c * W t ω c.1 c.2)) ∂P = expected (t - t0) (x0 c) (r c) (q c) (sigma c) f := by
    intro f hf
    unfold expected
    exact hl.integral_comp (f := fun w => f (x0 c * Real.exp ((r c - q c - sigma c ^ 2 / 2) *
      (t - t0) + sigma c * w))) (by
        refine Measurable.aestronglyMeasurable ?_
        exact hf.comp (by fun_prop))
  rw [C56_call _ _ hk (hx c) (sub_nonneg.2 h0) hs, C56_put _ _ hk (hx c) (sub_nonneg.2 h0) hs]
  exact ⟨by rw [← key _ (by fun_prop)], by rw [← key _ (by fun_prop)]⟩

end

/-! ### The source of noise -/

section
variable {N0 : ℕ → Ω → List ℕ → ℝ}
  {N : (M : ℕ) → ℕ → Matrix (Fin M) (Fin M) ℝ → Ω → List ℕ → Fin M → ℝ}

/-- The attribute `corr` of a `wiener_source`. -/
noncomputable def Spec.corrParam {M : ℕ} (sh : Option (List ℕ)) : Corr (Fin M) → Param ℝ
  | .none => .none
  | .const C => .arr (ofMatrix C)
  | .fn C => .fn sh fun t => .ok (ofMatrix (C t))

/-- A `wiener_source` as used in a simulation, at scalar times; cells are those of its values, of
shape `pre + (M, paths)`: the components along the axis of correlated values are the second index. -/
noncomputable def Spec.wienerNoise {σ : Type} {M : ℕ} (paths : ℕ) (pre : List ℕ) (corr : Param ℝ)
    (rng : Rng σ) : Src ℝ ((List ℕ × ℕ) × Fin M) σ := fun t dt s =>
  match wienerCall ⟨paths, pre ++ [M], corr⟩ rng (.scalar t) (.scalar dt) s with
  | .error e => .error e
  | .ok (dz, s) => .ok (fun c => dz.get (c.1.1 ++ [(c.2 : ℕ), c.1.2]), s)

/-- The same for independent components, and values of any shape: cells are all taken together. -/
noncomputable def Spec.plainNoise {σ : Type} (paths : ℕ) (vshape : List ℕ) (rng : Rng σ) :
    Src ℝ (List ℕ × Unit) σ := fun t dt s =>
  match wienerCall ⟨paths, vshape, .none⟩ rng (.scalar t) (.scalar dt) s with
  | .error e => .error e
  | .ok (dz, s) => .ok (fun c => dz.get c.1, s)

theorem wienerNoise_fn {M : ℕ} (paths : ℕ) (pre : List ℕ) (sh : Option (List ℕ))
    (C : ℝ → Matrix (Fin M) (Fin M) ℝ) (t dt : ℝ) (s : Ω × ℕ) :
    wienerNoise (M := M) paths pre (.fn sh fun t => .ok (ofMatrix (C t))) (seededRng N0 N) t dt s =
      .ok (fun c => √|dt| * N M s.2 (C (t + dt / 2)) s.1 (c.1.1 ++ [c.1.2]) c.2, (s.1, s.2 + 1)) := by
  obtain ⟨ω, n⟩ := s
  have hb : broadcast2 (Arr.scalar t) (Arr.scalar dt) = .ok (.scalar t, .scalar dt) := rfl
  have hlast : (pre ++ [M]).getLast? = some M := by simp
  have hnd : ndindex (Arr.scalar dt).shape = [[]] := rfl
  have hcov : covOf (ofMatrix (C (t + dt / 2))) = .ok (ofMatrix (C (t + dt / 2))) := rfl
  have hs : (ofMatrix (C (t + dt / 2))).shape = [M, M] := rfl
  have hbody : wienerBody (seededRng N0 N) (fun t => .ok (ofMatrix (C t))) M (pre ++ [paths])
      (Arr.scalar t).get (Arr.scalar dt).get [] (ω, n) =
      (seededRng N0 N).mvnZ M (ofMatrix (C (t + dt / 2))) (pre ++ [paths]) (ω, n) := rfl
  simp only [wienerNoise, wienerCall, hb, wienerStd, hlast, hnd, loopIdx, hbody, mvnZ_seeded hs,
    List.dropLast_concat]
  rw [if_neg (not_not.2 (by
    rw [swapaxes_shape _ (l := (Arr.scalar dt).shape ++ pre) (x := paths) (y := M)
      (by simp [assemble])]
    simp))]
  simp only [Except.ok.injEq, Prod.mk.injEq, and_true]
  funext c
  rw [swapaxes_get]
  have h1 : (c.1.1 ++ [c.1.2, (c.2 : ℕ)]).getLastD 0 = c.2 := by simp
  have h2 : (c.1.1 ++ [c.1.2, (c.2 : ℕ)]).dropLast = c.1.1 ++ [c.1.2] := by
    rw [show c.1.1 ++ [c.1.2, (c.2 : ℕ)] = (c.1.1 ++ [c.1.2]) ++ [(c.2 : ℕ)] by simp,
      List.dropLast_concat]
  have h3 : (Arr.scalar dt).shape.length = 0 := rfl
  simp only [assemble, h3, List.take_zero, List.drop_zero, List.lookup_cons_self, h1, h2, c.2.2,
    dif_pos, toMatrix_ofMatrix]
  rw [mul_comm]
  rfl

/-- **C64** (source). A `wiener_source` is a source of increments as those in the properties above,
if the random generator provides normal variates. -/
theorem C64_source {M : ℕ} (paths : ℕ) (pre : List ℕ) (hN : Normals P (N M))
    (h0 : StdNormals P N0) (hJ : JointlyGaussian P (N M))
    (hJ0 : IsGaussianProcess (fun (p : ℕ × List ℕ) ω => N0 p.1 ω p.2) P)
    (corr : Corr (Fin M)) (sh : Option (List ℕ)) :
    ∃ G, Draws P G ∧ GaussianDraws P G ∧
      wienerNoise paths pre (corrParam sh corr) (seededRng N0 N) = noise G (corrAt corr) := by
  obtain ⟨G, h1, h2, h3, h4⟩ := underlying_draws paths pre hN h0 corr
  refine ⟨G, h1, h2 hJ hJ0, ?_⟩
  have hdw : ∀ (c : Option (Matrix (Fin M) (Fin M) ℝ)) t dt s,
      dwOf (M := M) paths pre (seededRng N0 N) c t dt s = seeded G c t dt s →
      wienerNoise (M := M) paths pre (c.elim .none fun c => .arr (ofMatrix c)) (seededRng N0 N)
        t dt s = .ok (fun x => G s.2 (c.getD 1) t dt s.1 x.1 x.2, (s.1, s.2 + 1)) := by
    intro c t dt s h
    unfold dwOf seeded at h
    unfold wienerNoise
    cases hw : wienerCall ⟨paths, pre ++ [M], c.elim .none fun c => .arr (ofMatrix c)⟩
        (seededRng N0 N) (.scalar t) (.scalar dt) s with
    | error e => rw [hw] at h; cases h
    | ok r =>
      rw [hw] at h
      simp only [Except.ok.injEq, Prod.mk.injEq] at h ⊢
      refine ⟨?_, h.2⟩
      funext x
      exact congrFun (congrFun h.1 x.1) x.2
  funext t dt s
  cases corr with
  | none => exact hdw none t dt s (by rw [h3 rfl])
  | const C => exact hdw (some C) t dt s (by rw [h4 (by simp)])
  | fn C =>
    have e := h4 (by simp) (C (t + dt / 2))
    have e1 : √|dt| = √|dt| := rfl
    have := congrFun (congrFun (congrFun e t) dt) s
    rw [dwOf_some] at this
    simp only [seeded, Except.ok.injEq, Prod.mk.injEq, and_true, Option.getD_some] at this
    simp only [corrParam, wienerNoise_fn, noise, corrAt, Except.ok.injEq, Prod.mk.injEq, and_true]
    funext x
    exact congrFun (congrFun this x.1) x.2

/-- **C64** (source, independent components). The same, for values of any shape, scalar values among them. -/
theorem C64_source_plain (paths : ℕ) (vshape : List ℕ) (h0 : StdNormals P N0)
    (hJ0 : IsGaussianProcess (fun (p : ℕ × List ℕ) ω => N0 p.1 ω p.2) P) :
    ∃ G : ℕ → Matrix Unit Unit ℝ → ℝ → ℝ → Ω → List ℕ → Unit → ℝ, Draws P G ∧ GaussianDraws P G ∧
      plainNoise paths vshape (seededRng N0 N) = noise G (corrAt .none) := by
  obtain ⟨N', hN', h1, hJ⟩ := normals_of_std (P := P) (ι := List ℕ) (κ := Unit)
    (X := fun n ω i _ => N0 n ω i)
    (fun n i k => h0.l2 n _) (fun n i => by funext k; exact h0.mean n _) (by
      intro n i m j
      ext k l
      simp only [covM]
      rw [h0.cov]
      by_cases hnm : n = m ∧ i = j
      · simp [hnm, Matrix.one_apply]
      · rw [if_neg hnm, if_neg hnm]; rfl)
  refine ⟨_, draws_of_normals hN', gaussianDraws_of_jointly (hJ
    (hJ0.comp_right fun p : ℕ × List ℕ × Unit => (p.1, p.2.1))), ?_⟩
  funext t dt s
  obtain ⟨ω, n⟩ := s
  have hb : broadcast2 (Arr.scalar t) (Arr.scalar dt) = .ok (.scalar t, .scalar dt) := rfl
  simp only [plainNoise, wienerCall, hb, wienerStd, noise, corrAt, h1, Except.ok.injEq,
    Prod.mk.injEq, seededRng, and_true]
  funext c
  rw [mul_comm]
  rfl

end

/-! ### The hypotheses can be met -/

theorem exPosSemidef : (!![1, 1 / 2; 1 / 2, 1] : Matrix (Fin 2) (Fin 2) ℝ).PosSemidef := by
  refine Matrix.PosSemidef.of_dotProduct_mulVec_nonneg ?_ ?_
  · ext i j; fin_cases i <;> fin_cases j <;> simp [Matrix.conjTranspose]
  · intro x
    simp [Matrix.mulVec, dotProduct, Fin.sum_univ_two]
    nlinarith [sq_nonneg (x 0 + x 1), sq_nonneg (x 0), sq_nonneg (x 1)]

/-- Lognormal processes with two components and correlation 1/2: the price of a call on the second
component, at a strike of 9. -/
example : ∃ (Ω : Type) (_ : MeasurableSpace Ω) (P : Measure Ω)
    (rng : Rng (Ω × ℕ)) (X : ℝ → Ω → (List ℕ × ℕ) × Fin 2 → ℝ) (m : ℕ),
    (∀ ω, (lognormSDE (fun _ => 10) (fun _ _ => 1 / 20) (fun _ c => if c.2 = 0 then 1 / 5 else 1 / 3)
        (wienerNoise 5 [] (.arr (ofMatrix !![1, 1 / 2; 1 / 2, 1])) rng)).call 10 .none 0 ⟨[2], [1, 2]⟩ (ω, 0) = .ok ([some (X 1 ω), some (X 2 ω)], (ω, m))) ∧
    Real.exp (-(1 / 20) * (2 - 1)) * ∫ ω, max (X 2 ω (([], 3), 1) - 9) 0 ∂P =
      bscall 9 (2 - 1) 10 (1 / 20) 0 (1 / 3) := by
  obtain ⟨Ω, mΩ, P, N0, N, hP, h0, -, hN, hJ0, hJ⟩ := exists_rng
  obtain ⟨G, hG, hGJ, e⟩ := C64_source (P := P) 5 [] (hN 2) h0 (hJ 2) hJ0
    (.const !![1, 1 / 2; 1 / 2, 1]) none
  obtain ⟨X, m, h1, h2⟩ := C64_black_scholes (D := Set.univ) (corrOk_const exPosSemidef)
    (by intro u _ k; fin_cases k <;> simp [corrAt]) hG hGJ (fun _ => 10) (fun _ => 1 / 20)
    (fun _ => 0) (fun c => if c.2 = 0 then 1 / 5 else 1 / 3) (fun _ => by norm_num) exAlongR
    (fun _ _ => trivial) 0
  rw [← e] at h1
  refine ⟨Ω, mΩ, P, seededRng N0 N, X, m, fun ω => ?_, ?_⟩
  · have := h1 ω
    have e' : ((fun _ => 1 / 20) - fun _ => 0 : (List ℕ × ℕ) × Fin 2 → ℝ) = fun _ => 1 / 20 := by
      funext c; simp
    rw [e'] at this
    exact this
  · have := (h2 2 (by simp) (by norm_num) (([], 3), 1) (by norm_num) 9 (by norm_num)).1
    simpa using this

/-- A Wiener process of scalar values. -/
example : ∃ (Ω : Type) (_ : MeasurableSpace Ω) (P : Measure Ω) (rng : Rng (Ω × ℕ))
    (X : ℝ → Ω → List ℕ × Unit → ℝ) (m : ℕ),
    (∀ ω, (wienerSDE (fun _ => 10) (fun _ _ => 1 / 20) (fun _ _ => 1 / 5)
        (plainNoise 5 [] rng)).call 10 .none 0 ⟨[2], [1, 2]⟩ (ω, 0) =
          .ok ([some (X 1 ω), some (X 2 ω)], (ω, m))) ∧
    Describe (P.map fun ω => X 2 ω ([3], ())) (wienerPdf 10 (1 / 20) (1 / 5) (2 - 1))
      (wienerCdf 10 (1 / 20) (1 / 5) (2 - 1)) := by
  obtain ⟨Ω, mΩ, P, N0, N, hP, h0, -, hN, hJ0, hJ⟩ := exists_rng
  obtain ⟨G, hG, hGJ, e⟩ := C64_source_plain (P := P) (N := N) 5 [] h0 hJ0
  obtain ⟨X, m, h1, h2⟩ := C64_wiener_pdf (D := Set.univ) corrOk_none
    (by intro u _ k; simp [corrAt]) hG hGJ (fun _ => 10) (fun _ => 1 / 20)
    (fun _ => 1 / 5) exAlongR (fun _ _ => trivial) 0
  rw [← e] at h1
  exact ⟨Ω, mΩ, P, seededRng N0 N, X, m, h1,
    h2 2 (by simp) (by norm_num) ([3], ()) (by norm_num)⟩

end Sdepy
