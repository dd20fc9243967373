import Verif.Lemmas.JumpRvs
import Verif.Lemmas.Stream
import Verif.Props.Presets
import Verif.Props.ChfPdf
import Mathlib.MeasureTheory.Measure.CharacteristicFunction.Basic

/-!
# Property C66: the law of simulated jump-diffusion processes
-/

set_option linter.unusedSectionVars false
set_option linter.unusedSimpArgs false

open MeasureTheory ProbabilityTheory

namespace Sdepy

open Spec

variable {σ ι : Type} [MeasurableSpace σ] {μ : Measure σ} [IsProbabilityMeasure μ]

/-! ### specification -/

/-- The law of the increments over a time interval of length `h`, in the logarithm of a jump-diffusion
process. -/
noncomputable def Spec.jumpDiffLaw (mu sigma lam : ℝ) (ν : Measure ℝ) (h : ℝ) : Measure ℝ :=
  (jumpDraws h lam ν).map (logJumpDiff 1 mu sigma h)

/-- A `cpoisson_source` as used in a simulation, at scalar times, by cells of its values. -/
noncomputable def Spec.cpoissonNoise (shape : List ℕ) (S : CPoissonSrc ℝ ℝ σ) :
    Src ℝ (Cells shape) σ := fun t dt s =>
  match cpoissonCall S (.scalar t) (.scalar dt) s with
  | .error e => .error e
  | .ok ((dz, _, _), s) => .ok (fun c => dz.get c, s)

/-- A `wiener_source` as used in a simulation, at scalar times, by cells of its values. -/
noncomputable def Spec.wienerCells (shape : List ℕ) (W : WienerSrc) (rng : Rng σ) :
    Src ℝ (Cells shape) σ := fun t dt s =>
  match wienerCall W rng (.scalar t) (.scalar dt) s with
  | .error e => .error e
  | .ok (dz, s) => .ok (fun c => dz.get c, s)

/-- The random generator provides independent standard normal variates. -/
def Spec.NormalDraws (μ : Measure σ) (rng : Rng σ) : Prop :=
  ∀ size, DrawsLaw μ (Measure.pi fun _ : Cells size => gaussianReal 0 1)
    fun s => .ok (fun c => (rng.normal size s).1 c, (rng.normal size s).2)

/-- Arrays of any shape `(n, j)` of independent items of a given law. -/
def Spec.SampleDraws {Ω : Type} [MeasurableSpace Ω] (μ : Measure σ) (law : Measure Ω)
    (sample : ℕ → ℕ → σ → (ℕ → ℕ → Ω) × σ) : Prop :=
  ∀ n j, DrawsLaw μ (Measure.pi fun _ : Fin n => Measure.pi fun _ : Fin j => law)
    fun s => .ok (fun a b => (sample n j s).1 a b, (sample n j s).2)

/-! ### the law of increments -/

section
variable (mu sigma lam : ℝ) (ν : Measure ℝ) [IsProbabilityMeasure ν]

instance (h : ℝ) : IsProbabilityMeasure (jumpDiffLaw mu sigma lam ν h) := by
  have := jumpDraws_prob h lam ν
  exact Measure.isProbabilityMeasure_map (measurable_logJumpDiff _ _ _ _).aemeasurable

theorem charFun_jumpDiffLaw (hlam : 0 ≤ lam) {h : ℝ} (hh : 0 ≤ h) (u : ℝ) :
    charFun (jumpDiffLaw mu sigma lam ν h) u =
      Complex.exp (h * (Complex.I * u * (mu - sigma ^ 2 / 2) + sigma ^ 2 * (Complex.I * u) ^ 2 / 2 +
        lam * ((∫ x : ℝ, Complex.exp (Complex.I * u * x) ∂ν) - 1))) := by
  have hi : Integrable (fun x : ℝ => Complex.exp (Complex.I * u * x)) ν :=
    (integrable_cexp_iff _).2 (by simp)
  have := integral_logJumpDiff 1 mu sigma hh hlam ν (Complex.I * u) hi
  rw [Real.log_one, Complex.ofReal_zero, mul_zero, zero_add] at this
  rw [← this, charFun_apply_real, jumpDiffLaw, integral_map (measurable_logJumpDiff _ _ _ _).aemeasurable
    (Measurable.aestronglyMeasurable (by fun_prop))]
  refine integral_congr_ae (Filter.Eventually.of_forall fun s => ?_)
  simp only
  congr 1
  ring

/-- Laws of increments over consecutive intervals. -/
theorem jumpDiffLaw_conv (hlam : 0 ≤ lam) {a b : ℝ} (ha : 0 < a) (hb : 0 < b) :
    (jumpDiffLaw mu sigma lam ν a).conv (jumpDiffLaw mu sigma lam ν b) =
      jumpDiffLaw mu sigma lam ν (a + b) := by
  refine Measure.ext_of_charFun ?_
  funext u
  rw [charFun_conv, charFun_jumpDiffLaw _ _ _ _ hlam ha.le, charFun_jumpDiffLaw _ _ _ _ hlam hb.le,
    charFun_jumpDiffLaw _ _ _ _ hlam (add_pos ha hb).le, ← Complex.exp_add]
  congr 1
  push_cast
  ring

/-- One step: the jumps and the noise. -/
theorem step_law {h : ℝ} (c : ℝ) (hc : c = 1 ∨ c = -1) :
    (((compoundPoisson (lam * h) ν).map fun x => c * x).prod (gaussianReal 0 h.toNNReal)).map
      (fun p => h * (mu - sigma ^ 2 / 2) + c * (sigma * p.2 + p.1)) = jumpDiffLaw mu sigma lam ν h := by
  have hcc : c * c = 1 := by rcases hc with rfl | rfl <;> norm_num
  have hG : gaussianReal 0 h.toNNReal = (gaussianReal 0 h.toNNReal).map fun x => c * x := by
    rw [gaussianReal_map_const_mul]
    congr 1
    · simp
    · ext
      simp [pow_two, hcc]
  rw [hG]
  have h1 := Measure.map_prod_map (compoundPoisson (lam * h) ν) (gaussianReal 0 h.toNNReal)
    (f := fun x => c * x) (g := fun x => c * x) (by fun_prop) (by fun_prop)
  rw [h1, Measure.map_map (by fun_prop) (by fun_prop)]
  unfold compoundPoisson
  have h2 := Measure.map_prod_map ((poissonMeasure (lam * h).toNNReal).prod
    (Measure.infinitePi fun _ : ℕ => ν)) (gaussianReal 0 h.toNNReal)
    (f := fun z => ∑ i ∈ Finset.range z.1, z.2 i) (g := id) measurable_sumTo measurable_id
  rw [Measure.map_id] at h2
  rw [h2, Measure.map_map (by fun_prop) (by exact measurable_sumTo.prodMap measurable_id)]
  unfold jumpDiffLaw jumpDraws
  rw [← Measure.prod_swap, Measure.map_map (((by fun_prop : Measurable _).comp (by fun_prop)).comp
    (measurable_sumTo.prodMap measurable_id)) measurable_swap]
  congr 1
  funext z
  simp only [Function.comp_apply, Prod.map_apply, logJumpDiff, Prod.swap, Real.log_one, id]
  linear_combination (sigma * z.1 + ∑ i ∈ Finset.range z.2.1, z.2.2 i) * hcc

end

/-! ### C66 -/

section
variable [Fintype ι]

theorem pi_conv {law1 law2 : ι → Measure ℝ} [∀ i, IsProbabilityMeasure (law1 i)]
    [∀ i, IsProbabilityMeasure (law2 i)] :
    (Measure.pi law1).conv (Measure.pi law2) = Measure.pi fun i => (law1 i).conv (law2 i) := by
  have h := (measurePreserving_arrowProdEquivProdArrow ℝ ℝ ι law1 law2).map_eq
  rw [Measure.conv, ← h, Measure.map_map (by fun_prop) (MeasurableEquiv.measurable _)]
  have h2 := Measure.pi_map_pi (μ := fun i => (law1 i).prod (law2 i))
    (f := fun _ (p : ℝ × ℝ) => p.1 + p.2) (fun i => by fun_prop)
  exact h2

theorem pi_step {law1 law2 : ι → Measure ℝ} [∀ i, IsProbabilityMeasure (law1 i)]
    [∀ i, IsProbabilityMeasure (law2 i)] {f : ι → ℝ × ℝ → ℝ} (hf : ∀ i, Measurable (f i)) :
    ((Measure.pi law1).prod (Measure.pi law2)).map (fun p i => f i (p.1 i, p.2 i)) =
      Measure.pi fun i => ((law1 i).prod (law2 i)).map (f i) := by
  have h := (measurePreserving_arrowProdEquivProdArrow ℝ ℝ ι law1 law2).map_eq
  have hm : Measurable fun (p : (ι → ℝ) × (ι → ℝ)) i => f i (p.1 i, p.2 i) :=
    measurable_pi_iff.2 fun i => (hf i).comp (by fun_prop)
  rw [← h, Measure.map_map hm (MeasurableEquiv.measurable _)]
  exact Measure.pi_map_pi (μ := fun i => (law1 i).prod (law2 i)) (f := f)
    (fun i => (hf i).aemeasurable)

theorem both_draws {ι : Type} {dj dw : Src ℝ ι σ} {Nj Nw : Measure (ι → ℝ)} {t dt : ℝ}
    (hj : DrawsLaw μ Nj (dj t dt)) (hw : DrawsLaw μ Nw (dw t dt)) :
    DrawsLaw μ (Nj.prod Nw) (both dj dw t dt) :=
  hj.pair hw

/-- **C66** (jump-diffusion process). The simulated values are `x0*exp(X)`, and `X` is the process with
independent increments of the jump-diffusion law, independent also for each of the components; this
holds at all times of the timeline, those before the initial one included, and whatever the integration
steps. -/
theorem C66_jumpdiff (x0 mu sigma lam : ι → ℝ) (ν : ι → Measure ℝ) [∀ i, IsProbabilityMeasure (ν i)]
    (hx : ∀ i, 0 < x0 i) (hlam : ∀ i, 0 ≤ lam i) {dw dj : Src ℝ ι σ}
    (hw : ∀ t dt, dt ≠ 0 → DrawsLaw μ (Measure.pi fun _ => gaussianReal 0 |dt|.toNNReal) (dw t dt))
    (hj : ∀ t dt, dt ≠ 0 → DrawsLaw μ (Measure.pi fun i =>
      (compoundPoisson (lam i * |dt|) (ν i)).map fun x => (SignType.sign dt : ℝ) * x) (dj t dt))
    {fuel : ℕ} {steps : Steps ℝ} {i0 : ℤ} {tl : TArr ℝ} {grid : List ℝ} {t0 : ℝ}
    (h : Along fuel steps i0 tl grid t0) :
    ∃ (X : ℝ → σ → ι → ℝ) (st : σ → σ),
      (∀ s, (jumpdiffSDE x0 (fun _ => mu) (fun _ => sigma) dw dj).call fuel steps i0 tl s =
        .ok (tl.data.map fun t => some fun i => x0 i * Real.exp (X t s i), st s)) ∧
      IsLevyProcess μ (fun h => Measure.pi fun i => jumpDiffLaw (mu i) (sigma i) (lam i) (ν i) h) t0
        {u | u ∈ tl.data} X := by
  obtain ⟨h1, h2, h3⟩ := along_mem h
  obtain ⟨W, st, hW, hrun⟩ := cumulated_steps (μ := μ) (z := both dj dw)
    (fun t dt hdt => both_draws (hj t dt hdt) (hw t dt hdt)) h.isGrid.1 h2
  let φ : (ι → ℝ) × (ι → ℝ) →+ (ι → ℝ) :=
    { toFun := fun p i => sigma i * p.2 i + p.1 i
      map_zero' := by funext i; simp
      map_add' := fun p q => by funext i; simp; ring }
  have hφ : Measurable φ := by
    change Measurable fun (p : (ι → ℝ) × (ι → ℝ)) i => sigma i * p.2 i + p.1 i
    fun_prop
  have hcp : ∀ (c m : ℝ) i, IsProbabilityMeasure ((compoundPoisson m (ν i)).map fun x => c * x) :=
    fun c m i => Measure.isProbabilityMeasure_map (by fun_prop)
  have hL := hW.levy h.isGrid.1 (law := fun h => Measure.pi fun i =>
    jumpDiffLaw (mu i) (sigma i) (lam i) (ν i) h)
    (fun a b ha hb => by
      rw [pi_conv]
      congr 1
      funext i
      exact jumpDiffLaw_conv _ _ _ _ (hlam i) ha hb) φ hφ (fun i => mu i - sigma i ^ 2 / 2)
    (fun t dt hdt => by
      have := fun i => hcp (SignType.sign dt) (lam i * |dt|) i
      have e := pi_step (law1 := fun i => (compoundPoisson (lam i * |dt|) (ν i)).map fun x =>
        (SignType.sign dt : ℝ) * x) (law2 := fun _ => gaussianReal 0 |dt|.toNNReal)
        (f := fun i p => dt * (mu i - sigma i ^ 2 / 2) + 1 * (sigma i * p.2 + p.1)) (fun i => by fun_prop)
      have e2 := fun i => step_law (mu i) (sigma i) (lam i) (ν i) (h := dt) 1 (Or.inl rfl)
      rw [abs_of_pos hdt, sign_pos hdt] at e ⊢
      simp only [SignType.coe_one, e2] at e ⊢
      rw [← e]
      congr 1
      funext p i
      simp [φ])
    (fun t dt hdt => by
      have := fun i => hcp (SignType.sign dt) (lam i * |dt|) i
      have e := pi_step (law1 := fun i => (compoundPoisson (lam i * |dt|) (ν i)).map fun x =>
        (SignType.sign dt : ℝ) * x) (law2 := fun _ => gaussianReal 0 |dt|.toNNReal)
        (f := fun i p => -dt * (mu i - sigma i ^ 2 / 2) + (-1) * (sigma i * p.2 + p.1))
          (fun i => by fun_prop)
      have e2 := fun i => step_law (mu i) (sigma i) (lam i) (ν i) (h := -dt) (-1) (Or.inr rfl)
      rw [abs_of_neg hdt, sign_neg hdt] at e ⊢
      simp only [SignType.coe_neg_one, e2] at e ⊢
      rw [← e]
      congr 1
      funext p i
      simp [φ]
      ring)
  refine ⟨_, st, fun s => ?_, ⟨hL.start, fun a ha b hb => hL.law a (h3 a ha) b (h3 b hb),
    fun n t ht hD => hL.indep n t ht fun k => h3 _ (hD k)⟩⟩
  rw [C14_jumpdiff x0 mu sigma hx dw dj h s]
  simp only [hrun, bind, Except.bind, pure, Except.pure, Except.ok.injEq, Prod.mk.injEq, and_true]
  apply List.map_congr_left
  intro t ht
  rw [lookup_map_self (fun u => W u s) (h3 t ht)]
  simp only [Option.map_some, Option.some.injEq]
  funext i
  congr 2
  simp [φ]
  ring

/-- **C66** (each component). The same holds for a component at a time, with no assumption on how
components depend on each other: of the noise, correlated or not, and of the jumps, only the laws for that
component are required. -/
theorem C66_jumpdiff_cell (x0 mu sigma : ι → ℝ) (i : ι) {lam : ℝ} (ν : Measure ℝ)
    [IsProbabilityMeasure ν] (hx : ∀ i, 0 < x0 i) (hlam : 0 ≤ lam) {dw dj : Src ℝ ι σ}
    (hw : ∀ t dt, dt ≠ 0 → ∃ N, DrawsLaw μ N (dw t dt) ∧
      N.map (fun x => x i) = gaussianReal 0 |dt|.toNNReal)
    (hj : ∀ t dt, dt ≠ 0 → ∃ N, DrawsLaw μ N (dj t dt) ∧
      N.map (fun x => x i) = (compoundPoisson (lam * |dt|) ν).map fun x => (SignType.sign dt : ℝ) * x)
    {fuel : ℕ} {steps : Steps ℝ} {i0 : ℤ} {tl : TArr ℝ} {grid : List ℝ} {t0 : ℝ}
    (h : Along fuel steps i0 tl grid t0) :
    ∃ (x : ℝ → σ → ι → ℝ) (st : σ → σ) (X : ℝ → σ → ℝ),
      (∀ s, (jumpdiffSDE x0 (fun _ => mu) (fun _ => sigma) dw dj).call fuel steps i0 tl s =
        .ok (tl.data.map fun t => some (x t s), st s)) ∧
      (∀ t s, x t s i = x0 i * Real.exp (X t s)) ∧
      IsLevyProcess μ (jumpDiffLaw (mu i) (sigma i) lam ν) t0 {u | u ∈ tl.data} X := by
  obtain ⟨h1, h2, h3⟩ := along_mem h
  choose! Nw hw1 hw2 using hw
  choose! Nj hj1 hj2 using hj
  obtain ⟨W, st, hW, hrun⟩ := cumulated_steps (μ := μ) (z := both dj dw)
    (fun t dt hdt => both_draws (hj1 t dt hdt) (hw1 t dt hdt)) h.isGrid.1 h2
  let φ : (ι → ℝ) × (ι → ℝ) →+ ℝ :=
    { toFun := fun p => sigma i * p.2 i + p.1 i
      map_zero' := by simp
      map_add' := fun p q => by simp; ring }
  have hφ : Measurable φ := by
    change Measurable fun (p : (ι → ℝ) × (ι → ℝ)) => sigma i * p.2 i + p.1 i
    fun_prop
  have hstep : ∀ t dt, dt ≠ 0 → ∀ f : ℝ × ℝ → ℝ, Measurable f →
      ((Nj t dt).prod (Nw t dt)).map (fun p => f (p.1 i, p.2 i)) =
        (((compoundPoisson (lam * |dt|) ν).map fun x => (SignType.sign dt : ℝ) * x).prod
          (gaussianReal 0 |dt|.toNNReal)).map f := by
    intro t dt hdt f hf
    have := (hw1 t dt hdt).isProb
    have := (hj1 t dt hdt).isProb
    rw [← hw2 t dt hdt, ← hj2 t dt hdt, Measure.map_prod_map _ _ (by fun_prop) (by fun_prop),
      Measure.map_map hf (by fun_prop)]
    rfl
  have hL := hW.levy h.isGrid.1 (law := jumpDiffLaw (mu i) (sigma i) lam ν)
    (fun a b ha hb => jumpDiffLaw_conv _ _ _ _ hlam ha hb) φ hφ (mu i - sigma i ^ 2 / 2)
    (fun t dt hdt => by
      have e := hstep t dt hdt.ne' (fun p => dt * (mu i - sigma i ^ 2 / 2) + 1 * (sigma i * p.2 + p.1))
        (by fun_prop)
      have e2 := step_law (mu i) (sigma i) lam ν (h := dt) 1 (Or.inl rfl)
      rw [abs_of_pos hdt, sign_pos hdt] at e
      simp only [SignType.coe_one, e2] at e
      rw [← e]
      congr 1
      funext p
      simp [φ])
    (fun t dt hdt => by
      have e := hstep t dt hdt.ne (fun p => -dt * (mu i - sigma i ^ 2 / 2) +
        (-1) * (sigma i * p.2 + p.1)) (by fun_prop)
      have e2 := step_law (mu i) (sigma i) lam ν (h := -dt) (-1) (Or.inr rfl)
      rw [abs_of_neg hdt, sign_neg hdt] at e
      simp only [SignType.coe_neg_one, e2] at e
      rw [← e]
      congr 1
      funext p
      simp [φ]
      ring)
  refine ⟨fun t s j => x0 j * Real.exp ((mu j - sigma j ^ 2 / 2) * (t - t0) + sigma j * (W t s).2 j +
      (W t s).1 j), st, _, fun s => ?_, fun t s => ?_,
    ⟨hL.start, fun a ha b hb => hL.law a (h3 a ha) b (h3 b hb),
    fun n t ht hD => hL.indep n t ht fun k => h3 _ (hD k)⟩⟩
  · rw [C14_jumpdiff x0 mu sigma hx dw dj h s]
    simp only [hrun, bind, Except.bind, pure, Except.pure, Except.ok.injEq, Prod.mk.injEq, and_true]
    apply List.map_congr_left
    intro t ht
    rw [lookup_map_self (fun u => W u s) (h3 t ht)]
    rfl
  · simp only [φ, AddMonoidHom.coe_mk, ZeroHom.coe_mk, smul_eq_mul]
    congr 2
    ring

/-- The law of the logarithm of values after the initial time. -/
theorem levy_log_law {x0 mu sigma lam : ℝ} {ν : Measure ℝ} [IsProbabilityMeasure ν] (hx : 0 < x0)
    {t0 : ℝ} {D : Set ℝ} (h0 : t0 ∈ D) {X : ℝ → σ → ℝ}
    (h : IsLevyProcess μ (jumpDiffLaw mu sigma lam ν) t0 D X) {t : ℝ} (ht : t ∈ D) (hlt : t0 < t) :
    μ.map (fun s => Real.log (x0 * Real.exp (X t s))) =
      (jumpDraws (t - t0) lam ν).map (logJumpDiff x0 mu sigma (t - t0)) := by
  have hl := h.law t0 h0 t ht hlt
  simp only [h.start, sub_zero] at hl
  have e : (fun s => Real.log (x0 * Real.exp (X t s))) = (fun y => Real.log x0 + y) ∘ X t := by
    funext s
    simp only [Function.comp_apply]
    rw [Real.log_mul hx.ne' (Real.exp_pos _).ne', Real.log_exp]
  rw [e, ← AEMeasurable.map_map_of_aemeasurable (by fun_prop) hl.aemeasurable, hl.map_eq, jumpDiffLaw,
    Measure.map_map (by fun_prop) (measurable_logJumpDiff _ _ _ _)]
  congr 1
  funext z
  simp [logJumpDiff]
  ring

end

/-! ### Sources -/

/-- **C66** (jumps). A compound Poisson source draws, for each of its cells, independent compound Poisson
variates: the number of jumps has mean `lam*|dt|`, with `lam` taken at mid time, jumps have the law of
`y`, again at mid time, and the sum has the sign of `dt`. -/
theorem C66_source {S : CPoissonSrc ℝ ℝ σ} {lam : Param ℝ}
    {draw : (List ℕ → ℝ) → List ℕ → σ → (List ℕ → ℤ) × σ} (hd : PoissonDraws μ draw)
    (hS : S.dn = poissonCall ⟨S.paths, S.vshape, lam⟩ draw)
    (hne : Nonempty (Cells (S.vshape ++ [S.paths]))) {t dt : ℝ} (hdt : dt ≠ 0) {L : Arr ℝ}
    (hL : LamIs lam (t + dt / 2) L) (hb : BcOk L.shape (S.vshape ++ [S.paths]))
    (h0 : ∀ c, InRange (S.vshape ++ [S.paths]) c → 0 ≤ L.bget c) {rvs : Rvs ℝ σ}
    (hy : S.y (t + dt / 2) = .ok rvs) {ν : Measure ℝ} [IsProbabilityMeasure ν]
    (hr : VariatesLaw μ ν rvs) :
    DrawsLaw μ (Measure.pi fun c : Cells (S.vshape ++ [S.paths]) =>
        (compoundPoisson (L.bget c * |dt|) ν).map fun x => (SignType.sign dt : ℝ) * x)
      (cpoissonNoise (S.vshape ++ [S.paths]) S t dt) :=
  cpoisson_draws hd hS hne hdt hL hb h0 hy hr

/-- **C66** (noise). A Wiener source with no correlations draws, for each of its cells, independent
normal variates of null mean and variance `|dt|`. -/
theorem C66_noise {W : WienerSrc} {rng : Rng σ} (hW : W.corr = .none) (hr : NormalDraws μ rng)
    (t dt : ℝ) :
    DrawsLaw μ (Measure.pi fun _ : Cells (W.vshape ++ [W.paths]) => gaussianReal 0 |dt|.toNNReal)
      (wienerCells (W.vshape ++ [W.paths]) W rng t dt) :=
  wiener_draws hW (hr _) t dt

/-- **C66** (normal jumps). The variates of `norm_rv(a, b)`. -/
theorem C66_normal_variates {sample : ℕ → ℕ → σ → (ℕ → ℕ → ℝ) × σ} (hs : SampleDraws μ stdNormal sample)
    (a : ℝ) {b : ℝ} (hb : 0 ≤ b) : ∃ rv, normRv a b = .ok rv ∧
      VariatesLaw μ (gaussianReal a (b ^ 2).toNNReal) (rvsOf rv sample) := by
  refine ⟨_, rfl, ?_⟩
  rw [← stdNormal_affine]
  refine rvsOf_law (by fun_prop) (fun z => ?_) hs
  simp only [frozen]
  rw [if_neg (not_lt.2 hb)]

/-- **C66** (double exponential jumps). The variates of `double_exp_rv(a, b, pa)`. -/
theorem C66_double_exp_variates {sample : ℕ → ℕ → σ → (ℕ → ℕ → ℝ × ℝ × ℝ) × σ}
    (hs : SampleDraws μ doubleExpDraws sample) {a b pa : ℝ} (ha : 0 < a) (hb : 0 < b) (h0 : 0 ≤ pa)
    (h1 : pa ≤ 1) : ∃ rv, doubleExpRv a b pa = .ok rv ∧
      VariatesLaw μ (twoSided a b pa) (rvsOf rv sample) := by
  refine ⟨_, by rw [doubleExpRv, if_neg (by push Not; exact ⟨ha, hb, h1, h0⟩)], ?_⟩
  rw [← doubleExp_law ha hb h0 h1]
  exact rvsOf_law (measurable_double a b pa) (fun z => rfl) hs

/-- The value of a parameter of a distribution at a given time: a number, or the value of a function. -/
inductive Spec.RvIs : RvParam ℝ → ℝ → ℝ → Prop
  | const (x t : ℝ) : RvIs (.const x) t x
  | func (f : ℝ → ℝ) (t : ℝ) : RvIs (.func f) t (f t)

theorem Spec.RvIs.eq {p : RvParam ℝ} {t x : ℝ} (h : RvIs p t x) : p.value t = x := by
  cases h <;> rfl

theorem rvsAt_variable {Ω : Type} (rv : List ℝ → Py (RV Ω)) {ps : List (RvParam ℝ)}
    {y : MaybeTimed ℝ (RV Ω)} (hy : makeVariable rv ps = .ok y)
    (sample : ℕ → ℕ → σ → (ℕ → ℕ → Ω) × σ) (t : ℝ) :
    y.rvsAt sample t = (rv (ps.map fun p => p.value t)).map fun r => rvsOf r sample := by
  by_cases h : ∃ f, RvParam.func f ∈ ps
  · obtain ⟨d, h1, h2⟩ := (C33_variable rv ps).1 h
    rw [hy] at h1
    cases h1
    simp only [MaybeTimed.rvsAt, h2]
    cases rv (ps.map fun p => p.value t) <;> rfl
  · have := (C33_variable rv ps).2 h t
    rw [hy] at this
    cases hr : rv (ps.map fun p => p.value t) with
    | error e => rw [hr] at this; cases this
    | ok r =>
      rw [hr] at this
      cases this
      rfl

theorem makeVariable_ok {Ω : Type} (rv : List ℝ → Py (RV Ω)) {ps : List (RvParam ℝ)} (t : ℝ)
    (h : ∃ r, rv (ps.map fun p => p.value t) = .ok r) : ∃ y, makeVariable rv ps = .ok y := by
  by_cases hf : ∃ f, RvParam.func f ∈ ps
  · obtain ⟨d, h1, -⟩ := (C33_variable rv ps).1 hf
    exact ⟨_, h1⟩
  · obtain ⟨r, hr⟩ := h
    exact ⟨.plain r, by rw [(C33_variable rv ps).2 hf t, hr]; rfl⟩

section
variable {paths : ℕ} {wshape : List ℕ} {draw : (List ℕ → ℝ) → List ℕ → σ → (List ℕ → ℤ) × σ} {L : Arr ℝ}

/-- **C66** (Merton, parameters that may depend on time). The source of jumps that
`merton_jumpdiff_process` instantiates draws jumps of normal law, its parameters being those at mid time
of the step. -/
theorem C66_merton_source {sample : ℕ → ℕ → σ → (ℕ → ℕ → ℝ) × σ}
    (hd : PoissonDraws μ draw) (hs : SampleDraws μ stdNormal sample)
    (hne : Nonempty (Cells (wshape ++ [paths]))) (hb : BcOk L.shape (wshape ++ [paths]))
    (h0 : ∀ c, InRange (wshape ++ [paths]) c → 0 ≤ L.bget c) {a b : RvParam ℝ} {av bv : ℝ → ℝ}
    (ha : ∀ t, RvIs a t (av t)) (hbv : ∀ t, RvIs b t (bv t)) (hpos : ∀ t, 0 ≤ bv t) :
    ∃ S : CPoissonSrc ℝ ℝ σ, mertonSourceDj paths wshape draw sample (.arr L) a b = .ok S ∧
      S.vshape ++ [S.paths] = wshape ++ [paths] ∧
      ∀ t dt : ℝ, dt ≠ 0 → DrawsLaw μ (Measure.pi fun c : Cells (wshape ++ [paths]) =>
        (compoundPoisson (L.bget c * |dt|)
          (gaussianReal (av (t + dt / 2)) (bv (t + dt / 2) ^ 2).toNNReal)).map
            fun x => (SignType.sign dt : ℝ) * x)
        (cpoissonNoise (wshape ++ [paths]) S t dt) := by
  have hrv : ∀ t, ∃ rv, normRv (a.value t) (b.value t) = .ok rv ∧
      VariatesLaw μ (gaussianReal (av t) (bv t ^ 2).toNNReal) (rvsOf rv sample) := by
    intro t
    rw [(ha t).eq, (hbv t).eq]
    exact C66_normal_variates hs _ (hpos t)
  obtain ⟨y, hy⟩ := makeVariable_ok (fun l => normRv (l.getD 0 0) (l.getD 1 0)) (ps := [a, b]) 0
    (by obtain ⟨rv, h, -⟩ := hrv 0; exact ⟨rv, h⟩)
  have hy' : norm_rv a b = .ok y := hy
  refine ⟨⟨paths, wshape, poissonCall ⟨paths, wshape, .arr L⟩ draw, y.rvsAt sample⟩, ?_, rfl,
    fun t dt hdt => ?_⟩
  · simp only [mertonSourceDj, hy', sourceDj]
    rw [show poissonNew paths wshape (.arr L) = .ok ⟨paths, wshape, .arr L⟩ by
      simp only [poissonNew, RawParam.setup, Param.shape]
      rw [if_pos hb]]
  · obtain ⟨rv, h1, h2⟩ := hrv (t + dt / 2)
    refine C66_source (S := ⟨paths, wshape, poissonCall ⟨paths, wshape, .arr L⟩ draw,
      y.rvsAt sample⟩) hd rfl hne hdt (.const _) hb h0 (rvs := rvsOf rv sample) ?_ h2
    simp only
    rw [rvsAt_variable _ hy]
    simp only [List.map_cons, List.map_nil, List.getD_cons_zero, List.getD_cons_succ, h1]
    rfl

/-- **C66** (Kou, parameters that may depend on time). The source of jumps that
`kou_jumpdiff_process` instantiates draws jumps of double exponential law, its parameters being those at
mid time of the step. -/
theorem C66_kou_source {sample : ℕ → ℕ → σ → (ℕ → ℕ → ℝ × ℝ × ℝ) × σ}
    (hd : PoissonDraws μ draw) (hs : SampleDraws μ doubleExpDraws sample)
    (hne : Nonempty (Cells (wshape ++ [paths]))) (hb : BcOk L.shape (wshape ++ [paths]))
    (h0 : ∀ c, InRange (wshape ++ [paths]) c → 0 ≤ L.bget c) {a b pa : RvParam ℝ} {av bv pv : ℝ → ℝ}
    (ha : ∀ t, RvIs a t (av t)) (hbv : ∀ t, RvIs b t (bv t)) (hpa : ∀ t, RvIs pa t (pv t))
    (ha0 : ∀ t, 0 < av t) (hb0 : ∀ t, 0 < bv t) (hp0 : ∀ t, 0 ≤ pv t) (hp1 : ∀ t, pv t ≤ 1) :
    ∃ S : CPoissonSrc ℝ ℝ σ, kouSourceDj paths wshape draw sample (.arr L) a b pa = .ok S ∧
      S.vshape ++ [S.paths] = wshape ++ [paths] ∧
      ∀ t dt : ℝ, dt ≠ 0 → DrawsLaw μ (Measure.pi fun c : Cells (wshape ++ [paths]) =>
        (compoundPoisson (L.bget c * |dt|)
          (twoSided (av (t + dt / 2)) (bv (t + dt / 2)) (pv (t + dt / 2)))).map
            fun x => (SignType.sign dt : ℝ) * x)
        (cpoissonNoise (wshape ++ [paths]) S t dt) := by
  have hrv : ∀ t, ∃ rv, doubleExpRv (a.value t) (b.value t) (pa.value t) = .ok rv ∧
      VariatesLaw μ (twoSided (av t) (bv t) (pv t)) (rvsOf rv sample) := by
    intro t
    rw [(ha t).eq, (hbv t).eq, (hpa t).eq]
    exact C66_double_exp_variates hs (ha0 t) (hb0 t) (hp0 t) (hp1 t)
  obtain ⟨y, hy⟩ := makeVariable_ok (fun l => doubleExpRv (l.getD 0 0) (l.getD 1 0) (l.getD 2 0))
    (ps := [a, b, pa]) 0 (by obtain ⟨rv, h, -⟩ := hrv 0; exact ⟨rv, h⟩)
  have hy' : double_exp_rv a b pa = .ok y := hy
  refine ⟨⟨paths, wshape, poissonCall ⟨paths, wshape, .arr L⟩ draw, y.rvsAt sample⟩, ?_, rfl,
    fun t dt hdt => ?_⟩
  · simp only [kouSourceDj, hy', sourceDj]
    rw [show poissonNew paths wshape (.arr L) = .ok ⟨paths, wshape, .arr L⟩ by
      simp only [poissonNew, RawParam.setup, Param.shape]
      rw [if_pos hb]]
  · obtain ⟨rv, h1, h2⟩ := hrv (t + dt / 2)
    have := twoSided_prob (ha0 (t + dt / 2)) (hb0 (t + dt / 2)) (hp0 (t + dt / 2)) (hp1 (t + dt / 2))
    refine C66_source (S := ⟨paths, wshape, poissonCall ⟨paths, wshape, .arr L⟩ draw,
      y.rvsAt sample⟩) hd rfl hne hdt (.const _) hb h0 (rvs := rvsOf rv sample) ?_ h2
    simp only
    rw [rvsAt_variable _ hy]
    simp only [List.map_cons, List.map_nil, List.getD_cons_zero, List.getD_cons_succ, h1]
    rfl

end

/-! ### Preset processes -/

/-- A simulated process: its values at the times of the timeline are `x0*exp(X)`, and for each cell
`pdf`, a function of time since `t0`, gives the density of the logarithm of simulated values. -/
structure Spec.SimulatesLogPdf {ι : Type} [Fintype ι] (μ : Measure σ) (call : σ → Py (List (Option (ι → ℝ)) × σ))
    (tl : TArr ℝ) (t0 : ℝ) (law : ι → ℝ → Measure ℝ) (x0 : ι → ℝ)
    (pdf : ι → Arr ℝ → Arr ℝ → Py (Arr ℝ)) : Prop where
  sim : ∃ (X : ℝ → σ → ι → ℝ) (st : σ → σ),
    (∀ s, call s = .ok (tl.data.map fun t => some fun i => x0 i * Real.exp (X t s i), st s)) ∧
    IsLevyProcess μ (fun h => Measure.pi fun i => law i h) t0 {u | u ∈ tl.data} X
  dens : ∀ {x : ℝ → σ → ι → ℝ} {st : σ → σ},
    (∀ s, call s = .ok (tl.data.map fun t => some (x t s), st s)) →
    ∀ i, GivesDensities (fun h => μ.map fun s => Real.log (x (t0 + h) s i))
      (fun h => 0 < h ∧ t0 + h ∈ tl.data) (pdf i)

theorem IsLevyProcess.eval {ι : Type} [Fintype ι] {law : ι → ℝ → Measure ℝ}
    [∀ i h, IsProbabilityMeasure (law i h)] {t0 : ℝ} {D : Set ℝ} {X : ℝ → σ → ι → ℝ}
    (h : IsLevyProcess μ (fun h => Measure.pi fun i => law i h) t0 D X) (i : ι) :
    IsLevyProcess μ (law i) t0 D fun t s => X t s i := by
  refine ⟨fun s => by rw [h.start]; rfl, fun a ha b hb hab => ?_, fun n t ht hD => ?_⟩
  · have h1 := h.law a ha b hb hab
    have h2 : HasLaw (fun x : ι → ℝ => x i) (law i (b - a)) (Measure.pi fun i => law i (b - a)) :=
      ⟨(measurable_pi_apply i).aemeasurable, (measurePreserving_eval (fun i => law i (b - a)) i).map_eq⟩
    exact h2.comp h1
  · exact (h.indep n t ht hD).comp (fun _ x => x i) (fun _ => by fun_prop)

theorem givesDensities_congr {law law' : ℝ → Measure ℝ} {dom dom' : ℝ → Prop}
    {pdf : Arr ℝ → Arr ℝ → Py (Arr ℝ)} (h : GivesDensities law dom pdf)
    (hd : ∀ t, dom' t → dom t ∧ law' t = law t) : GivesDensities law' dom' pdf := by
  refine ⟨fun t x ht => ?_, fun t x ht => ?_⟩
  · rw [(hd t ht).2]
    exact h.scalar_t t x (hd t ht).1
  · obtain ⟨r, h1, h2, h3⟩ := h.scalar_x t x fun i hi => (hd _ (ht i hi)).1
    refine ⟨r, h1, h2, fun i hi => ?_⟩
    rw [(hd _ (ht i hi)).2]
    exact h3 i hi

theorem simulatesLogPdf {ι : Type} [Fintype ι] {call : σ → Py (List (Option (ι → ℝ)) × σ)}
    {tl : TArr ℝ} {t0 : ℝ} (h0 : t0 ∈ tl.data) {x0 mu sigma lam : ι → ℝ} {ν : Measure ℝ}
    [IsProbabilityMeasure ν] (hx : ∀ i, 0 < x0 i) {pdf : ι → Arr ℝ → Arr ℝ → Py (Arr ℝ)}
    (hp : ∀ i, GivesDensities (fun t => (jumpDraws t (lam i) ν).map
      (logJumpDiff (x0 i) (mu i) (sigma i) t)) (0 < ·) (pdf i))
    (hsim : ∃ (X : ℝ → σ → ι → ℝ) (st : σ → σ),
      (∀ s, call s = .ok (tl.data.map fun t => some fun i => x0 i * Real.exp (X t s i), st s)) ∧
      IsLevyProcess μ (fun h => Measure.pi fun i => jumpDiffLaw (mu i) (sigma i) (lam i) ν h) t0
        {u | u ∈ tl.data} X) :
    SimulatesLogPdf μ call tl t0 (fun i => jumpDiffLaw (mu i) (sigma i) (lam i) ν) x0 pdf := by
  refine ⟨hsim, ?_⟩
  intro x st hc i
  obtain ⟨X, st', hc', hX⟩ := hsim
  refine givesDensities_congr (hp i) fun h hh => ⟨hh.1, ?_⟩
  have hv : ∀ s, x (t0 + h) s i = x0 i * Real.exp (X (t0 + h) s i) := by
    intro s
    have := (hc s).symm.trans (hc' s)
    simp only [Except.ok.injEq, Prod.mk.injEq] at this
    have := List.map_inj_left.1 this.1 _ hh.2
    simp only [Option.some.injEq] at this
    exact congrFun this i
  simp only [hv]
  have := levy_log_law (hx i) h0 (IsLevyProcess.eval (law := fun i =>
    jumpDiffLaw (mu i) (sigma i) (lam i) ν) hX i) hh.2 (by linarith [hh.1])
  rw [this]
  congr 2 <;> ring

section
variable {paths : ℕ} {wshape : List ℕ} {rng : Rng σ}
  {draw : (List ℕ → ℝ) → List ℕ → σ → (List ℕ → ℤ) × σ} {L : Arr ℝ}
  {fuel : ℕ} {steps : Steps ℝ} {i0 : ℤ} {tl : TArr ℝ} {grid : List ℝ} {t0 : ℝ}

theorem preset_sim {ν : Measure ℝ} [IsProbabilityMeasure ν] {rvs : Rvs ℝ σ} (hr : NormalDraws μ rng)
    (hd : PoissonDraws μ draw) (hv : VariatesLaw μ ν rvs)
    (hne : Nonempty (Cells (wshape ++ [paths]))) (hb : BcOk L.shape (wshape ++ [paths]))
    (h0 : ∀ c, InRange (wshape ++ [paths]) c → 0 ≤ L.bget c)
    (x0 mu sigma : Cells (wshape ++ [paths]) → ℝ) (hx : ∀ i, 0 < x0 i)
    (h : Along fuel steps i0 tl grid t0) {y : ℝ → Py (Rvs ℝ σ)} (hy : ∀ t, y t = .ok rvs)
    {pdf : Cells (wshape ++ [paths]) → Arr ℝ → Arr ℝ → Py (Arr ℝ)}
    (hp : ∀ i : Cells (wshape ++ [paths]), GivesDensities (fun t => (jumpDraws t (L.bget i) ν).map
      (logJumpDiff (x0 i) (mu i) (sigma i) t)) (0 < ·) (pdf i)) :
    SimulatesLogPdf μ ((jumpdiffSDE x0 (fun _ => mu) (fun _ => sigma)
        (wienerCells (wshape ++ [paths]) ⟨paths, wshape, .none⟩ rng)
        (cpoissonNoise (wshape ++ [paths]) ⟨paths, wshape, poissonCall ⟨paths, wshape, .arr L⟩ draw,
          y⟩)).call fuel steps i0 tl) tl t0
      (fun i : Cells (wshape ++ [paths]) => jumpDiffLaw (mu i) (sigma i) (L.bget i) ν) x0 pdf := by
  have ht0 : t0 ∈ tl.data := by
    obtain ⟨i, -, hi⟩ := h.start
    exact List.mem_of_getElem? hi
  refine simulatesLogPdf (lam := fun i : Cells (wshape ++ [paths]) => L.bget i) ht0 hx hp ?_
  exact C66_jumpdiff x0 mu sigma (fun i => L.bget i) (fun _ => ν) hx (fun i => h0 i i.2)
    (fun t dt _ => C66_noise (W := ⟨paths, wshape, .none⟩) rfl hr t dt)
    (fun t dt hdt => C66_source (S := ⟨paths, wshape, poissonCall ⟨paths, wshape, .arr L⟩ draw, y⟩)
      hd rfl hne hdt (.const _) hb h0 (hy _) hv) h

theorem poissonNew_arr (hb : BcOk L.shape (wshape ++ [paths])) :
    poissonNew paths wshape (.arr L) = .ok ⟨paths, wshape, .arr L⟩ := by
  simp only [poissonNew, RawParam.setup, Param.shape]
  rw [if_pos hb]

/-- **C66** (Merton). With the sources that `merton_jumpdiff_process` instantiates, the logarithms of
simulated values have the densities that `mjd_log_pdf` computes: whatever the number of paths, the
shape of values and the integration steps; different cells are independent, and so are increments. -/
theorem C66_merton {sample : ℕ → ℕ → σ → (ℕ → ℕ → ℝ) × σ} (hr : NormalDraws μ rng)
    (hd : PoissonDraws μ draw) (hs : SampleDraws μ stdNormal sample)
    (hne : Nonempty (Cells (wshape ++ [paths]))) (hb : BcOk L.shape (wshape ++ [paths]))
    (h0 : ∀ c, InRange (wshape ++ [paths]) c → 0 ≤ L.bget c) (a : ℝ) {b : ℝ} (hb0 : 0 ≤ b)
    (x0 mu sigma : Cells (wshape ++ [paths]) → ℝ) (hx : ∀ i, 0 < x0 i) (hsig : ∀ i, sigma i ≠ 0)
    (h : Along fuel steps i0 tl grid t0) :
    ∃ (W : WienerSrc) (S : CPoissonSrc ℝ ℝ σ), wienerNew paths wshape .none .none = .ok W ∧
      mertonSourceDj paths wshape draw sample (.arr L) (.const a) (.const b) = .ok S ∧
      SimulatesLogPdf μ ((jumpdiffSDE x0 (fun _ => mu) (fun _ => sigma)
          (wienerCells (wshape ++ [paths]) W rng)
          (cpoissonNoise (wshape ++ [paths]) S)).call fuel steps i0 tl) tl t0
        (fun i => jumpDiffLaw (mu i) (sigma i) (L.bget i) (gaussianReal a (b ^ 2).toNNReal)) x0
        (fun i => mjdLogPdf (x0 i) (mu i) (sigma i) (L.bget i) a b) := by
  obtain ⟨rv, hrv, hv⟩ := C66_normal_variates hs a hb0
  have hrv' : norm_rv (T := ℝ) (.const a) (.const b) = .ok (.plain rv) := by
    simp only [norm_rv, makeVariable, List.any_cons, RvParam.callable, List.any_nil, Bool.or_self,
      Bool.false_eq_true, if_false, List.map_cons, RvParam.number, List.map_nil, List.getD_cons_zero,
      List.getD_cons_succ, hrv]
  refine ⟨⟨paths, wshape, .none⟩, ⟨paths, wshape, poissonCall ⟨paths, wshape, .arr L⟩ draw,
    fun _ => .ok (rvsOf rv sample)⟩, rfl, ?_, ?_⟩
  · simp only [mertonSourceDj, hrv', sourceDj, poissonNew_arr hb]
    rfl
  · exact preset_sim hr hd hv hne hb h0 x0 mu sigma hx h (fun _ => rfl)
      fun i => C61_mjd (x0 i) (mu i) a b (hsig i) (h0 i i.2)

/-- **C66** (Kou). With the sources that `kou_jumpdiff_process` instantiates, the logarithms of simulated
values have the densities that `kou_log_pdf` computes: whatever the number of paths, the shape of
values and the integration steps; different cells are independent, and so are increments. -/
theorem C66_kou {sample : ℕ → ℕ → σ → (ℕ → ℕ → ℝ × ℝ × ℝ) × σ} (hr : NormalDraws μ rng)
    (hd : PoissonDraws μ draw) (hs : SampleDraws μ doubleExpDraws sample)
    (hne : Nonempty (Cells (wshape ++ [paths]))) (hb : BcOk L.shape (wshape ++ [paths]))
    (h0 : ∀ c, InRange (wshape ++ [paths]) c → 0 ≤ L.bget c) {a b pa : ℝ} (ha : 0 < a) (hb0 : 0 < b)
    (hp0 : 0 ≤ pa) (hp1 : pa ≤ 1)
    (x0 mu sigma : Cells (wshape ++ [paths]) → ℝ) (hx : ∀ i, 0 < x0 i) (hsig : ∀ i, sigma i ≠ 0)
    (h : Along fuel steps i0 tl grid t0) :
    ∃ (W : WienerSrc) (S : CPoissonSrc ℝ ℝ σ), wienerNew paths wshape .none .none = .ok W ∧
      kouSourceDj paths wshape draw sample (.arr L) (.const a) (.const b) (.const pa) = .ok S ∧
      SimulatesLogPdf μ ((jumpdiffSDE x0 (fun _ => mu) (fun _ => sigma)
          (wienerCells (wshape ++ [paths]) W rng)
          (cpoissonNoise (wshape ++ [paths]) S)).call fuel steps i0 tl) tl t0
        (fun i => jumpDiffLaw (mu i) (sigma i) (L.bget i) (twoSided a b pa)) x0
        (fun i => kouLogPdf (x0 i) (mu i) (sigma i) (L.bget i) a b pa) := by
  obtain ⟨rv, hrv, hv⟩ := C66_double_exp_variates hs ha hb0 hp0 hp1
  have := twoSided_prob ha hb0 hp0 hp1
  have hrv' : double_exp_rv (T := ℝ) (.const a) (.const b) (.const pa) = .ok (.plain rv) := by
    simp only [double_exp_rv, makeVariable, List.any_cons, RvParam.callable, List.any_nil, Bool.or_self,
      Bool.false_eq_true, if_false, List.map_cons, RvParam.number, List.map_nil, List.getD_cons_zero,
      List.getD_cons_succ, hrv]
  refine ⟨⟨paths, wshape, .none⟩, ⟨paths, wshape, poissonCall ⟨paths, wshape, .arr L⟩ draw,
    fun _ => .ok (rvsOf rv sample)⟩, rfl, ?_, ?_⟩
  · simp only [kouSourceDj, hrv', sourceDj, poissonNew_arr hb]
    rfl
  · exact preset_sim hr hd hv hne hb h0 x0 mu sigma hx h (fun _ => rfl)
      fun i => C61_kou (x0 i) (mu i) (hsig i) (h0 i i.2) ha hb0 hp0 hp1

end

/-! ### Examples -/

section
/-- Draws from a stream of independent items. -/
theorem stream_draws {E A : Type} [MeasurableSpace E] [MeasurableSpace A] {m : Measure E}
    [IsProbabilityMeasure m] {ν : Measure A} {f : E → A} (hf : Measurable f) (h : m.map f = ν) :
    DrawsLaw (Measure.infinitePi fun _ : ℕ => m) ν fun s => .ok (f (s 0), fun n => s (n + 1)) := by
  refine ⟨fun s => (f (s 0), fun n => s (n + 1)), by fun_prop, fun _ => rfl, ?_⟩
  have e : (fun s : ℕ → E => (f (s 0), fun n => s (n + 1))) = Prod.map f id ∘ unconsSeq := rfl
  rw [e, ← Measure.map_map (by fun_prop) measurable_unconsSeq, stream_uncons,
    ← Measure.map_prod_map _ _ hf measurable_id, h, Measure.map_id]

/-- An item holds an answer to each possible request. -/
abbrev Item (Ω : Type) := ((size : List ℕ) → Cells size → ℝ) ×
  ((q : (List ℕ → ℝ) × List ℕ) → Cells q.2 → ℤ) × ((q : ℕ × ℕ) → Fin q.1 → Fin q.2 → Ω)

instance (l : ℝ) : IsProbabilityMeasure ((poissonMeasure l.toNNReal).map ((↑) : ℕ → ℤ)) :=
  Measure.isProbabilityMeasure_map (by fun_prop)

/-- Independent answers, with the laws asked for. -/
noncomputable def itemLaw {Ω : Type} [MeasurableSpace Ω] (law : Measure Ω) : Measure (Item Ω) :=
  (Measure.infinitePi fun size : List ℕ => Measure.pi fun _ : Cells size => gaussianReal 0 1).prod
    ((Measure.infinitePi fun q : (List ℕ → ℝ) × List ℕ => Measure.pi fun c : Cells q.2 =>
      (poissonMeasure (q.1 c).toNNReal).map ((↑) : ℕ → ℤ)).prod
    (Measure.infinitePi fun q : ℕ × ℕ => Measure.pi fun _ : Fin q.1 => Measure.pi fun _ : Fin q.2 => law))

instance {Ω : Type} [MeasurableSpace Ω] (law : Measure Ω) [IsProbabilityMeasure law] :
    IsProbabilityMeasure (itemLaw law) := by
  unfold itemLaw; infer_instance

open Classical in
noncomputable def itemRng (Ω : Type) : Rng (ℕ → Item Ω) where
  normal size s := (fun i => if h : InRange size i then (s 0).1 size ⟨i, h⟩ else 0, fun n => s (n + 1))
  mvn _ _ _ s := (fun _ _ => 0, s)

open Classical in
noncomputable def itemDraw (Ω : Type) (l : List ℕ → ℝ) (size : List ℕ) (s : ℕ → Item Ω) :
    (List ℕ → ℤ) × (ℕ → Item Ω) :=
  (fun i => if h : InRange size i then (s 0).2.1 (l, size) ⟨i, h⟩ else 0, fun n => s (n + 1))

noncomputable def itemSample (Ω : Type) [Zero Ω] (n j : ℕ) (s : ℕ → Item Ω) :
    (ℕ → ℕ → Ω) × (ℕ → Item Ω) :=
  (fun a b => if h : a < n ∧ b < j then (s 0).2.2 (n, j) ⟨a, h.1⟩ ⟨b, h.2⟩ else 0, fun n => s (n + 1))

theorem itemRng_draws {Ω : Type} [MeasurableSpace Ω] (law : Measure Ω) [IsProbabilityMeasure law] :
    NormalDraws (Measure.infinitePi fun _ : ℕ => itemLaw law) (itemRng Ω) := by
  intro size
  have h := stream_draws (m := itemLaw law) (ν := Measure.pi fun _ : Cells size => gaussianReal 0 1)
    (f := fun e => e.1 size) (by fun_prop) ?_
  · convert h using 1
    funext s
    simp only [itemRng, Except.ok.injEq, Prod.mk.injEq, and_true]
    funext c
    rw [dif_pos c.2]
  · have e : (fun e : Item Ω => e.1 size) = (fun x => x size) ∘ Prod.fst := rfl
    rw [e, ← Measure.map_map (by fun_prop) (by fun_prop), itemLaw, Measure.map_fst_prod, measure_univ,
      one_smul, Measure.infinitePi_map_eval]

theorem itemDraw_draws {Ω : Type} [MeasurableSpace Ω] (law : Measure Ω) [IsProbabilityMeasure law] :
    PoissonDraws (Measure.infinitePi fun _ : ℕ => itemLaw law) (itemDraw Ω) := by
  intro l size _
  have h := stream_draws (m := itemLaw law) (ν := Measure.pi fun c : Cells size =>
      (poissonMeasure (l c).toNNReal).map ((↑) : ℕ → ℤ))
    (f := fun e => e.2.1 (l, size)) (by fun_prop) ?_
  · convert h using 1
    funext s
    simp only [itemDraw, Except.ok.injEq, Prod.mk.injEq, and_true]
    funext c
    rw [dif_pos c.2]
  · have e : (fun e : Item Ω => e.2.1 (l, size)) = (fun x => x (l, size)) ∘ Prod.fst ∘ Prod.snd := rfl
    rw [e, ← Measure.map_map (by fun_prop) (by fun_prop), ← Measure.map_map (by fun_prop) (by fun_prop),
      itemLaw, Measure.map_snd_prod, measure_univ, one_smul, Measure.map_fst_prod, measure_univ,
      one_smul, Measure.infinitePi_map_eval]

theorem itemSample_draws {Ω : Type} [MeasurableSpace Ω] [Zero Ω] (law : Measure Ω) [IsProbabilityMeasure law] :
    SampleDraws (Measure.infinitePi fun _ : ℕ => itemLaw law) law (itemSample Ω) := by
  intro n j
  have h := stream_draws (m := itemLaw law) (ν := Measure.pi fun _ : Fin n => Measure.pi fun _ : Fin j =>
      law) (f := fun e => e.2.2 (n, j)) (by fun_prop) ?_
  · convert h using 1
    funext s
    simp only [itemSample, Except.ok.injEq, Prod.mk.injEq, and_true]
    funext a b
    rw [dif_pos ⟨a.2, b.2⟩]
  · have e : (fun e : Item Ω => e.2.2 (n, j)) = (fun x => x (n, j)) ∘ Prod.snd ∘ Prod.snd := rfl
    rw [e, ← Measure.map_map (by fun_prop) (by fun_prop), ← Measure.map_map (by fun_prop) (by fun_prop),
      itemLaw, Measure.map_snd_prod, measure_univ, one_smul, Measure.map_snd_prod, measure_univ,
      one_smul, Measure.infinitePi_map_eval]

theorem exCells : Nonempty (Cells ([2] ++ [3])) := ⟨⟨[1, 2], by decide⟩⟩

theorem exBc : BcOk (⟨[2, 1], fun i => 1 + i.headD 0⟩ : Arr ℝ).shape ([2] ++ [3]) := by decide

example := C66_merton (itemRng_draws stdNormal) (itemDraw_draws stdNormal) (itemSample_draws stdNormal)
  exCells exBc (fun c _ => by simp only [Arr.bget]; positivity) (-1) (b := 1 / 2) (by norm_num)
  (fun _ => 10) (fun c => c.1.headD 0) (fun _ => 2) (fun _ => by norm_num) (fun _ => by norm_num) exAlongR

example := C66_kou (itemRng_draws doubleExpDraws) (itemDraw_draws doubleExpDraws)
  (itemSample_draws doubleExpDraws) exCells exBc (fun c _ => by simp only [Arr.bget]; positivity)
  (a := 1 / 2) (b := 1 / 3) (pa := 1 / 4) (by norm_num) (by norm_num) (by norm_num) (by norm_num)
  (fun _ => 10) (fun c => c.1.headD 0) (fun _ => 2) (fun _ => by norm_num) (fun _ => by norm_num) exAlongR

example := C66_merton_source (itemDraw_draws stdNormal) (itemSample_draws stdNormal)
  exCells exBc (fun c _ => by simp only [Arr.bget]; positivity) (a := .func fun t => t - 1)
  (b := .const (1 / 2)) (fun t => .func _ t) (fun t => .const _ t) (fun _ => by norm_num)

example := C66_kou_source (itemDraw_draws doubleExpDraws) (itemSample_draws doubleExpDraws)
  exCells exBc (fun c _ => by simp only [Arr.bget]; positivity) (a := .const (1 / 2))
  (b := .func fun t => t ^ 2 + 1) (pa := .const (1 / 4))
  (fun t => .const _ t) (fun t => .func _ t) (fun t => .const _ t) (fun _ => by norm_num)
  (fun _ => by positivity) (fun _ => by norm_num) (fun _ => by norm_num)

example := C66_jumpdiff (fun _ : Cells ([2] ++ [3]) => 10) (fun _ => 1) (fun _ => 2)
  (fun c => (⟨[2, 1], fun i => 1 + i.headD 0⟩ : Arr ℝ).bget c)
  (fun _ => gaussianReal (-1) ((1 / 2 : ℝ) ^ 2).toNNReal) (fun _ => by norm_num)
  (fun c => by simp only [Arr.bget]; positivity)
  (fun t dt _ => C66_noise (W := ⟨3, [2], .none⟩) rfl (itemRng_draws stdNormal) t dt)
  (fun t dt hdt => C66_source (t := t) (S := ⟨3, [2],
      poissonCall ⟨3, [2], .arr ⟨[2, 1], fun i => 1 + i.headD 0⟩⟩ (itemDraw ℝ),
      fun _ => .ok (rvsOf (frozen 0 1 (-1) (1 / 2) .inf) (itemSample ℝ))⟩)
    (itemDraw_draws stdNormal) rfl exCells hdt (.const _) exBc
    (fun c _ => by simp only [Arr.bget]; positivity) rfl (by
      rw [← stdNormal_affine]
      refine rvsOf_law (by fun_prop) (fun z => ?_) (itemSample_draws stdNormal)
      simp only [frozen]
      rw [if_neg (by norm_num)])) exAlongR

/-- A time-dependent intensity, in a step backwards. -/
example : DrawsLaw (Measure.infinitePi fun _ : ℕ => itemLaw stdNormal)
    (Measure.pi fun c : Cells ([2] ++ [3]) => (compoundPoisson
      ((Arr.scalar (2 : ℝ)).bget c * |(-2 : ℝ)|) (gaussianReal (-1) ((1 / 2 : ℝ) ^ 2).toNNReal)).map
      fun x => (SignType.sign (-2 : ℝ) : ℝ) * x)
    (cpoissonNoise ([2] ++ [3]) ⟨3, [2], poissonCall ⟨3, [2], .fn none fun t => .ok (.scalar t)⟩
      (itemDraw ℝ), fun _ => .ok (rvsOf (frozen 0 1 (-1) (1 / 2) .inf) (itemSample ℝ))⟩ 3 (-2)) := by
  refine C66_source (S := ⟨3, [2], poissonCall ⟨3, [2], .fn none fun t => .ok (.scalar t)⟩
      (itemDraw ℝ), fun _ => .ok (rvsOf (frozen 0 1 (-1) (1 / 2) .inf) (itemSample ℝ))⟩)
    (itemDraw_draws stdNormal) rfl exCells (by norm_num) (.fn (by norm_num)) (by decide)
    (fun c _ => by simp [Arr.bget, Arr.scalar]) rfl ?_
  rw [← stdNormal_affine]
  refine rvsOf_law (by fun_prop) (fun z => ?_) (itemSample_draws stdNormal)
  simp only [frozen]
  rw [if_neg (by norm_num)]

example := C66_noise (W := ⟨3, [2], .none⟩) rfl (itemRng_draws stdNormal) 1 (-2)
example := C66_normal_variates (itemSample_draws stdNormal) 3 (b := 2) (by norm_num)
example := C66_double_exp_variates (itemSample_draws doubleExpDraws) (a := 3) (b := 2) (pa := 1 / 2)
  (by norm_num) (by norm_num) (by norm_num) (by norm_num)

theorem itemLaw_first {Ω : Type} [MeasurableSpace Ω] (law : Measure Ω) [IsProbabilityMeasure law] :
    (itemLaw law).map (fun e => e.1 [] ⟨[], by decide⟩) = gaussianReal 0 1 := by
  have e : (fun e : Item Ω => e.1 [] ⟨[], by decide⟩) =
    (fun x : Cells [] → ℝ => x ⟨[], by decide⟩) ∘ (fun x => x []) ∘ Prod.fst := rfl
  rw [e, ← Measure.map_map (by fun_prop) (by fun_prop), ← Measure.map_map (by fun_prop) (by fun_prop),
    itemLaw, Measure.map_fst_prod, measure_univ, one_smul, Measure.infinitePi_map_eval]
  exact (measurePreserving_eval (fun _ : Cells [] => gaussianReal 0 1) _).map_eq

/-- The hypotheses of `C66_jumpdiff_cell` hold for noise that is the same for all components. -/
example := C66_jumpdiff_cell (μ := Measure.infinitePi fun _ : ℕ => itemLaw stdNormal)
  (ι := Cells ([2] ++ [3]))
  (fun _ => 1) (fun _ => 2) (fun _ => 3) ⟨[1, 2], by decide⟩ (lam := 2)
  (gaussianReal (-1) ((1 / 2 : ℝ) ^ 2).toNNReal) (fun _ => one_pos) zero_le_two
  (dw := fun _ dt s => .ok (fun _ => Real.sqrt |dt| * (s 0).1 [] ⟨[], by decide⟩, fun n => s (n + 1)))
  (dj := cpoissonNoise ([2] ++ [3]) ⟨3, [2], poissonCall ⟨3, [2], .arr (.scalar 2)⟩
      (itemDraw ℝ), fun _ => .ok (rvsOf (frozen 0 1 (-1) (1 / 2) .inf) (itemSample ℝ))⟩)
  (fun t dt _ => ⟨(itemLaw stdNormal).map fun e _ => Real.sqrt |dt| * e.1 [] ⟨[], by decide⟩,
    stream_draws (f := fun (e : Item ℝ) _ => Real.sqrt |dt| * e.1 [] ⟨[], by decide⟩) (by fun_prop) rfl, by
      rw [Measure.map_map (by fun_prop) (by fun_prop)]
      have e : (fun x : Cells ([2] ++ [3]) → ℝ => x ⟨[1, 2], by decide⟩) ∘
          (fun (e : Item ℝ) (_ : Cells ([2] ++ [3])) => Real.sqrt |dt| * e.1 [] ⟨[], by decide⟩) =
        (fun z => Real.sqrt |dt| * z) ∘ fun e => e.1 [] ⟨[], by decide⟩ := rfl
      rw [e, ← Measure.map_map (by fun_prop) (by fun_prop), itemLaw_first, gaussianReal_map_const_mul]
      congr 1
      · simp
      · ext; simp [Real.sq_sqrt (abs_nonneg dt)]⟩)
  (fun t dt hdt => ⟨_, C66_source (ν := gaussianReal (-1) ((1 / 2 : ℝ) ^ 2).toNNReal)
      (S := ⟨3, [2], poissonCall ⟨3, [2], .arr (.scalar 2)⟩
      (itemDraw ℝ), fun _ => .ok (rvsOf (frozen 0 1 (-1) (1 / 2) .inf) (itemSample ℝ))⟩)
      (itemDraw_draws stdNormal) rfl exCells hdt (.const _) (by decide)
      (fun c _ => by simp [Arr.bget, Arr.scalar]) rfl (by
        rw [← stdNormal_affine]
        refine rvsOf_law (by fun_prop) (fun z => ?_) (itemSample_draws stdNormal)
        simp only [frozen]
        rw [if_neg (by norm_num)]), by
      have : ∀ c : Cells ([2] ++ [3]), IsProbabilityMeasure ((compoundPoisson
        ((Arr.scalar (2 : ℝ)).bget c * |dt|) (gaussianReal (-1) ((1 / 2 : ℝ) ^ 2).toNNReal)).map
        fun x => (SignType.sign dt : ℝ) * x) := fun c => Measure.isProbabilityMeasure_map (by fun_prop)
      exact (measurePreserving_eval (fun c : Cells ([2] ++ [3]) => (compoundPoisson
        ((Arr.scalar (2 : ℝ)).bget c * |dt|) (gaussianReal (-1) ((1 / 2 : ℝ) ^ 2).toNNReal)).map
        fun x => (SignType.sign dt : ℝ) * x) _).map_eq⟩)
  exAlongR

end

end Sdepy
