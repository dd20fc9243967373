import Verif.Spec.Strong
import Verif.Lemmas.StepMoments

/-!
# Convergence in mean square of Euler schemes
-/

set_option linter.unusedSectionVars false

open MeasureTheory ProbabilityTheory

namespace Sdepy

open Spec

variable {Ω ι : Type} [MeasurableSpace Ω] [Fintype ι] {P : Measure Ω} [IsProbabilityMeasure P]

/-! ### Mean squares -/

theorem meanSq_nonneg (X : Ω → ι → ℝ) : 0 ≤ meanSq P X :=
  Finset.sum_nonneg fun _ _ => integral_nonneg fun _ => sq_nonneg _

/-- Mean squares as the integral of sums. -/
theorem meanSq_eq {X : Ω → ι → ℝ} (hX : ∀ i, MemLp (fun ω => X ω i) 2 P) :
    meanSq P X = ∫ ω, ∑ i, X ω i ^ 2 ∂P := by
  rw [meanSq, integral_finsetSum _ fun i _ => (hX i).integrable_sq]

theorem integrable_sumSq {X : Ω → ι → ℝ} (hX : ∀ i, MemLp (fun ω => X ω i) 2 P) :
    Integrable (fun ω => ∑ i, X ω i ^ 2) P := integrable_finsetSum _ fun i _ => (hX i).integrable_sq

/-- One step, in mean square: `E (f + g*ζ)² = E f² + E g² * E ζ²` if `ζ` has mean zero and is independent of
`f` and `g`. -/
theorem sq_step {f g ζ : Ω → ℝ} (hi : IndepFun (fun ω => (f ω, g ω)) ζ P) (hf : MemLp f 2 P)
    (hg : MemLp g 2 P) (hζ : MemLp ζ 2 P) (h0 : ∫ ω, ζ ω ∂P = 0) :
    MemLp (fun ω => f ω + g ω * ζ ω) 2 P ∧
    ∫ ω, (f ω + g ω * ζ ω) ^ 2 ∂P = ∫ ω, f ω ^ 2 ∂P + (∫ ω, g ω ^ 2 ∂P) * ∫ ω, ζ ω ^ 2 ∂P := by
  have n := noise_memLp (Y := fun ω => (f ω, g ω)) (Z := ζ) (g := Prod.snd) (ζ := id) hi measurable_snd
    measurable_id hg hζ
  simp only [id] at n
  have hgζ : IndepFun g ζ P := hi.comp measurable_snd measurable_id
  have e1 := (hi.comp (φ := fun c : ℝ × ℝ => c.1 * c.2) (ψ := id) (by fun_prop)
    measurable_id).integral_fun_mul_eq_mul_integral
      (hf.aestronglyMeasurable.mul hg.aestronglyMeasurable) hζ.aestronglyMeasurable
  simp only [Function.comp_def, id] at e1
  rw [h0, mul_zero] at e1
  have e2 := (hgζ.comp (φ := fun c : ℝ => c ^ 2) (ψ := fun c : ℝ => c ^ 2) (by fun_prop)
    (by fun_prop)).integral_fun_mul_eq_mul_integral
      (hg.integrable_sq.aestronglyMeasurable) (hζ.integrable_sq.aestronglyMeasurable)
  simp only [Function.comp_def] at e2
  refine ⟨hf.add n, ?_⟩
  have i1 : Integrable (fun ω => f ω * g ω * ζ ω) P := by
    have := hf.integrable_mul n
    refine this.congr (Filter.Eventually.of_forall fun ω => ?_)
    simp [mul_assoc]
  have i2 : Integrable (fun ω => g ω ^ 2 * ζ ω ^ 2) P := by
    refine n.integrable_sq.congr (Filter.Eventually.of_forall fun ω => ?_)
    simp [mul_pow]
  have e : (fun ω => (f ω + g ω * ζ ω) ^ 2) =
      fun ω => f ω ^ 2 + 2 * (f ω * g ω * ζ ω) + g ω ^ 2 * ζ ω ^ 2 := by
    funext ω; ring
  have a1 := integral_add (hf.integrable_sq.add (i1.const_mul 2)) i2
  have a2 := integral_add hf.integrable_sq (i1.const_mul 2)
  simp only [Pi.add_apply] at a1 a2
  rw [e, a1, a2, integral_const_mul, e1, e2]
  ring

/-- The same for all cells, in the form used here: the value `u`, with drift `a` and volatility `b`. -/
theorem meanSq_step {U A B ζ : Ω → ι → ℝ} {h : ℝ} (h0 : 0 ≤ h)
    (hi : IndepFun (fun ω => (U ω, A ω, B ω)) ζ P)
    (hU : ∀ i, MemLp (fun ω => U ω i) 2 P) (hA : ∀ i, MemLp (fun ω => A ω i) 2 P)
    (hB : ∀ i, MemLp (fun ω => B ω i) 2 P) (hζ : ∀ i, MemLp (fun ω => ζ ω i) 2 P)
    (m : ∀ i, ∫ ω, ζ ω i ∂P = 0) (v : ∀ i, ∫ ω, ζ ω i ^ 2 ∂P = h) :
    (∀ i, MemLp (fun ω => U ω i + A ω i * h + B ω i * ζ ω i) 2 P) ∧
    meanSq P (fun ω i => U ω i + A ω i * h + B ω i * ζ ω i) ≤
      (1 + h) * meanSq P U + h * (1 + h) * meanSq P A + h * meanSq P B := by
  have hi' : ∀ i, IndepFun (fun ω => (U ω i + A ω i * h, B ω i)) (fun ω => ζ ω i) P := fun i =>
    hi.comp (φ := fun c : (ι → ℝ) × (ι → ℝ) × (ι → ℝ) => (c.1 i + c.2.1 i * h, c.2.2 i))
      (ψ := fun z : ι → ℝ => z i) (by fun_prop) (measurable_pi_apply i)
  have hAh : ∀ i, MemLp (fun ω => A ω i * h) 2 P := fun i => by
    simpa [mul_comm] using (hA i).const_mul h
  have key := fun i => sq_step (hi' i) ((hU i).add (hAh i)) (hB i) (hζ i) (m i)
  refine ⟨fun i => (key i).1, ?_⟩
  simp only [meanSq, Finset.mul_sum, ← Finset.sum_add_distrib]
  refine Finset.sum_le_sum fun i _ => ?_
  rw [(key i).2, v i]
  have hle : ∫ ω, (U ω i + A ω i * h) ^ 2 ∂P ≤
      (1 + h) * ∫ ω, U ω i ^ 2 ∂P + h * (1 + h) * ∫ ω, A ω i ^ 2 ∂P := by
    rw [← integral_const_mul, ← integral_const_mul, ← integral_add ((hU i).integrable_sq.const_mul _)
      ((hA i).integrable_sq.const_mul _)]
    refine integral_mono ((hU i).add (hAh i)).integrable_sq
      (((hU i).integrable_sq.const_mul _).add ((hA i).integrable_sq.const_mul _)) fun ω => ?_
    simp only
    nlinarith [mul_nonneg h0 (sq_nonneg (U ω i - A ω i))]
  linarith

/-! ### Values known at a given time -/

variable {D : Set ℝ} {W : ℝ → Ω → ι → ℝ} {t0 : ℝ}

section
variable {C E : Type} [MeasurableSpace C] [MeasurableSpace E]

theorem _root_.Sdepy.Spec.KnownAt.mono {u v : ℝ} {Y : Ω → C} (h : KnownAt D W u Y) (huv : u ≤ v) : KnownAt D W v Y := by
  obtain ⟨g, hg, e⟩ := h
  refine ⟨fun x => g fun p => x (⟨p.1, p.1.2.1, p.1.2.2.trans huv⟩, p.2), ?_, fun ω => by rw [e]⟩
  exact hg.comp (measurable_pi_lambda _ fun p => measurable_pi_apply _)

theorem knownAt_const (u : ℝ) (c : C) : KnownAt D W u fun _ : Ω => c := ⟨fun _ => c, measurable_const, fun _ => rfl⟩

theorem _root_.Sdepy.Spec.KnownAt.comp {u : ℝ} {Y : Ω → C} (h : KnownAt D W u Y) {f : C → E} (hf : Measurable f) :
    KnownAt D W u fun ω => f (Y ω) := by
  obtain ⟨g, hg, e⟩ := h
  exact ⟨fun x => f (g x), hf.comp hg, fun ω => by simp only [e]⟩

theorem _root_.Sdepy.Spec.KnownAt.prodMk {u : ℝ} {Y : Ω → C} {Z : Ω → E} (h : KnownAt D W u Y) (h' : KnownAt D W u Z) :
    KnownAt D W u fun ω => (Y ω, Z ω) := by
  obtain ⟨g, hg, e⟩ := h
  obtain ⟨g', hg', e'⟩ := h'
  exact ⟨fun x => (g x, g' x), hg.prodMk hg', fun ω => by simp only [e, e']⟩

theorem knownAt_self {u v : ℝ} (hv : v ∈ D) (h : v ≤ u) : KnownAt D W u (W v) :=
  ⟨fun x i => x (⟨v, hv, h⟩, i), measurable_pi_lambda _ fun i => measurable_pi_apply _, fun ω => rfl⟩

theorem _root_.Sdepy.Spec.KnownAt.indep (hW : Drives P t0 D W) {s t : ℝ} (hs : s ∈ D) (ht : t ∈ D) (h0 : t0 ≤ s)
    (hst : s ≤ t) {Y : Ω → C} (h : KnownAt D W s Y) : IndepFun Y (fun ω i => W t ω i - W s ω i) P := by
  obtain ⟨g, hg, e⟩ := h
  have : Y = g ∘ fun ω (p : {u : ℝ // u ∈ D ∧ u ≤ s} × ι) => W p.1 ω p.2 := funext e
  rw [this]
  exact (hW.indep s hs t ht h0 hst).comp hg measurable_id

end

theorem _root_.Sdepy.Spec.Drives.mono (h : Drives P t0 D W) {D' : Set ℝ} (hD : D' ⊆ D) :
    Drives P t0 D' W where
  meas u hu := h.meas u (hD hu)
  memLp s hs t ht := h.memLp s (hD hs) t (hD ht)
  mean s hs t ht := h.mean s (hD hs) t (hD ht)
  var s hs t ht := h.var s (hD hs) t (hD ht)
  indep s hs t ht h0 hst :=
    KnownAt.indep h (hD hs) (hD ht) h0 hst
      ⟨fun x p => x (⟨p.1, hD p.1.2.1, p.1.2.2⟩, p.2),
        measurable_pi_lambda _ fun p => measurable_pi_apply _, fun _ => rfl⟩

/-! ### The last point of a grid -/

/-- The last point of the grid not after `v`. -/
noncomputable def lastAt (grid : List ℝ) (v : ℝ) : ℝ := ((grid.filter (· ≤ v)).getLast?).getD v

theorem lastAt_spec {grid : List ℝ} (hg : grid.Pairwise (· < ·)) {t0 v : ℝ} (h0 : t0 ∈ grid)
    (hv : t0 ≤ v) : lastAt grid v ∈ grid ∧ t0 ≤ lastAt grid v ∧ lastAt grid v ≤ v ∧
      ∀ c ∈ grid, c ≤ v → c ≤ lastAt grid v := by
  have hm : t0 ∈ grid.filter (· ≤ v) := by simp [h0, hv]
  have hp := hg.filter (p := fun c => decide (c ≤ v))
  rcases List.eq_nil_or_concat (grid.filter (· ≤ v)) with h | ⟨l, c, h⟩
  · rw [h] at hm; simp at hm
  · rw [List.concat_eq_append] at h
    have e : lastAt grid v = c := by simp [lastAt, h]
    rw [e]
    have hc : c ∈ grid.filter (· ≤ v) := by rw [h]; simp
    simp at hc
    have hmax : ∀ d ∈ grid, d ≤ v → d ≤ c := by
      intro d hd hdv
      have : d ∈ grid.filter (· ≤ v) := by simp [hd, hdv]
      rw [h] at this hp
      rcases List.mem_append.1 this with h1 | h1
      · exact ((List.pairwise_append.1 hp).2.2 d h1 c (by simp)).le
      · simp at h1; exact h1.le
    exact ⟨hc.1, hmax t0 h0 hv, hc.2, hmax⟩

theorem lastAt_self {grid : List ℝ} (hg : grid.Pairwise (· < ·)) {t0 v : ℝ} (h0 : t0 ∈ grid)
    (hv : t0 ≤ v) (hm : v ∈ grid) : lastAt grid v = v := by
  obtain ⟨-, -, h1, h2⟩ := lastAt_spec hg h0 hv
  exact le_antisymm h1 (h2 v hm le_rfl)

/-- If no point of the grid is in `(v, v']`, the last point does not change. -/
theorem lastAt_congr {grid : List ℝ} (hg : grid.Pairwise (· < ·)) {t0 v v' : ℝ} (h0 : t0 ∈ grid)
    (hv : t0 ≤ v) (hvv : v ≤ v') (hn : ∀ c ∈ grid, ¬ (v < c ∧ c ≤ v')) :
    lastAt grid v' = lastAt grid v := by
  obtain ⟨a1, a2, a3, a4⟩ := lastAt_spec hg h0 hv
  obtain ⟨b1, b2, b3, b4⟩ := lastAt_spec hg h0 (hv.trans hvv)
  apply le_antisymm
  · exact a4 _ b1 (by by_contra hc; exact hn _ b1 ⟨not_le.1 hc, b3⟩)
  · exact b4 _ a1 (a3.trans hvv)

/-- Before the end of the grid, the last point is no further than the mesh. -/
theorem lastAt_mesh {grid : List ℝ} (hg : grid.Pairwise (· < ·)) {t0 v w δ : ℝ} (h0 : t0 ∈ grid)
    (hv : t0 ≤ v) (hw : w ∈ grid) (hvw : v ≤ w) (hm : Mesh grid δ) (hδ : 0 ≤ δ) :
    v - lastAt grid v ≤ δ := by
  obtain ⟨a1, a2, a3, a4⟩ := lastAt_spec hg h0 hv
  rcases a3.eq_or_lt with h | h
  · rw [h]; linarith
  · -- the first point after
    have hmem : w ∈ grid.filter (lastAt grid v < ·) := by simp [hw, h.trans_le hvw]
    have hp := hg.filter (p := fun c => decide (lastAt grid v < c))
    cases hl : grid.filter (lastAt grid v < ·) with
    | nil => rw [hl] at hmem; simp at hmem
    | cons b l =>
      have hb : b ∈ grid.filter (lastAt grid v < ·) := by rw [hl]; simp
      simp at hb
      rw [hl, List.pairwise_cons] at hp
      have hno : ∀ c ∈ grid, ¬ (lastAt grid v < c ∧ c < b) := by
        rintro c hc ⟨h1, h2⟩
        have : c ∈ grid.filter (lastAt grid v < ·) := by simp [hc, h1]
        rw [hl] at this
        rcases List.mem_cons.1 this with rfl | h3
        · exact lt_irrefl _ h2
        · exact absurd (hp.1 c h3) (not_lt.2 h2.le)
      have := hm _ a1 b hb.1 hb.2 hno
      have hvb : v ≤ b := by
        by_contra hc
        exact absurd (a4 b hb.1 (not_le.1 hc).le) (not_le.2 hb.2)
      linarith

/-! ### Coefficients -/

section
variable {a b : ℝ → (ι → ℝ) → ι → ℝ} {T L : ℝ}

theorem sumSq_nonneg (x : ι → ℝ) : 0 ≤ ∑ i, x i ^ 2 := Finset.sum_nonneg fun _ _ => sq_nonneg _

/-- The constant may be taken not to be negative. -/
theorem _root_.Sdepy.Spec.LipschitzCoef.abs (h : LipschitzCoef a b t0 T L) : LipschitzCoef a b t0 T |L| :=
  fun t ht u hu x y => (h t ht u hu x y).trans (mul_le_mul_of_nonneg_right (le_abs_self L)
    (add_nonneg (sumSq_nonneg _) (mul_nonneg (add_nonneg zero_le_one (sumSq_nonneg _)) (abs_nonneg _))))

/-- Coefficients grow linearly. -/
theorem _root_.Sdepy.Spec.LipschitzCoef.growth (h : LipschitzCoef a b t0 T L) (hT : 0 ≤ T) (hL : 0 ≤ L) :
    ∃ C ≥ 0, ∀ t ∈ Set.Icc t0 (t0 + T), ∀ x,
      ∑ i, (a t x i ^ 2 + b t x i ^ 2) ≤ C * (1 + ∑ i, x i ^ 2) := by
  set c := ∑ i, (a t0 0 i ^ 2 + b t0 0 i ^ 2) with hc
  have hc0 : 0 ≤ c := Finset.sum_nonneg fun _ _ => by positivity
  refine ⟨2 * c + 2 * L * (1 + T), by positivity, fun t ht x => ?_⟩
  have h1 := h t0 ⟨le_rfl, by linarith⟩ t ht 0 x
  have h2 : ∑ i, (a t x i ^ 2 + b t x i ^ 2) ≤
      2 * c + 2 * ∑ i, ((a t0 0 i - a t x i) ^ 2 + (b t0 0 i - b t x i) ^ 2) := by
    rw [hc, Finset.mul_sum, Finset.mul_sum, ← Finset.sum_add_distrib]
    refine Finset.sum_le_sum fun i _ => ?_
    nlinarith [sq_nonneg (2 * a t0 0 i - a t x i), sq_nonneg (2 * b t0 0 i - b t x i)]
  have h3 : |t0 - t| ≤ T := by
    rw [abs_sub_comm, abs_of_nonneg (by linarith [ht.1])]
    linarith [ht.2]
  have h4 : ∑ i, ((0 : ι → ℝ) i - x i) ^ 2 = ∑ i, x i ^ 2 := Finset.sum_congr rfl fun i _ => by simp
  have h5 : ∑ i, (0 : ι → ℝ) i ^ 2 = 0 := by simp
  rw [h4, h5, add_zero, one_mul] at h1
  have hx := sumSq_nonneg x
  have h6 : L * (∑ i, x i ^ 2 + |t0 - t|) ≤ L * ((1 + T) * (1 + ∑ i, x i ^ 2)) := by
    refine mul_le_mul_of_nonneg_left ?_ hL
    nlinarith [mul_nonneg hT hx]
  nlinarith [mul_nonneg hc0 hx]

theorem continuous_of_sqLip {f : (ι → ℝ) → ℝ} (hf : ∀ x y, (f x - f y) ^ 2 ≤ L * ∑ i, (x i - y i) ^ 2) :
    Continuous f := by
  rw [continuous_iff_continuousAt]
  intro y
  have h1 : Filter.Tendsto (fun x => L * ∑ i, (x i - y i) ^ 2) (nhds y) (nhds 0) := by
    have : Continuous fun x : ι → ℝ => L * ∑ i, (x i - y i) ^ 2 := by fun_prop
    simpa using this.tendsto y
  have h2 : Filter.Tendsto (fun x => (f x - f y) ^ 2) (nhds y) (nhds 0) :=
    squeeze_zero (fun x => sq_nonneg _) (fun x => hf x y) h1
  have h3 : Filter.Tendsto (fun x => f x - f y) (nhds y) (nhds 0) := by
    have := h2.sqrt
    simp only [Real.sqrt_sq_eq_abs, Real.sqrt_zero] at this
    exact (tendsto_zero_iff_abs_tendsto_zero _).2 this
  have := h3.add_const (f y)
  simp only [sub_add_cancel, zero_add] at this
  exact this

theorem _root_.Sdepy.Spec.LipschitzCoef.meas (h : LipschitzCoef a b t0 T L) {t : ℝ}
    (ht : t ∈ Set.Icc t0 (t0 + T)) : Measurable (a t) ∧ Measurable (b t) := by
  have hl : ∀ x y i, (a t x i - a t y i) ^ 2 ≤ L * ∑ i, (x i - y i) ^ 2 ∧
      (b t x i - b t y i) ^ 2 ≤ L * ∑ i, (x i - y i) ^ 2 := by
    intro x y i
    have h1 := h t ht t ht x y
    rw [sub_self, abs_zero, mul_zero, add_zero] at h1
    have h2 := Finset.single_le_sum (f := fun i => (a t x i - a t y i) ^ 2 + (b t x i - b t y i) ^ 2)
      (fun j _ => by positivity) (Finset.mem_univ i)
    constructor
    · nlinarith [sq_nonneg (b t x i - b t y i)]
    · nlinarith [sq_nonneg (a t x i - a t y i)]
  exact ⟨measurable_pi_lambda _ fun i => (continuous_of_sqLip fun x y => (hl x y i).1).measurable,
    measurable_pi_lambda _ fun i => (continuous_of_sqLip fun x y => (hl x y i).2).measurable⟩

/-- Coefficients of square integrable values are square integrable. -/
theorem coef_memLp {C t : ℝ} (hm : Measurable (a t) ∧ Measurable (b t))
    (hC : ∀ x, ∑ i, (a t x i ^ 2 + b t x i ^ 2) ≤ C * (1 + ∑ i, x i ^ 2)) {X : Ω → ι → ℝ}
    (hX : ∀ i, MemLp (fun ω => X ω i) 2 P) :
    (∀ i, MemLp (fun ω => a t (X ω) i) 2 P) ∧ (∀ i, MemLp (fun ω => b t (X ω) i) 2 P) ∧
    meanSq P (fun ω => a t (X ω)) + meanSq P (fun ω => b t (X ω)) ≤ C * (1 + meanSq P X) := by
  have hXm : AEMeasurable X P := aemeasurable_pi_lambda _ fun i => (hX i).aestronglyMeasurable.aemeasurable
  have hint : Integrable (fun ω => C * (1 + ∑ i, X ω i ^ 2)) P :=
    ((integrable_const _).add (integrable_sumSq hX)).const_mul C
  have hle : ∀ ω i, a t (X ω) i ^ 2 ≤ C * (1 + ∑ i, X ω i ^ 2) ∧
      b t (X ω) i ^ 2 ≤ C * (1 + ∑ i, X ω i ^ 2) := by
    intro ω i
    have h1 := hC (X ω)
    have h2 := Finset.single_le_sum (f := fun i => a t (X ω) i ^ 2 + b t (X ω) i ^ 2)
      (fun j _ => by positivity) (Finset.mem_univ i)
    constructor
    · nlinarith [sq_nonneg (b t (X ω) i)]
    · nlinarith [sq_nonneg (a t (X ω) i)]
  have ma : ∀ i, AEMeasurable (fun ω => a t (X ω) i) P := fun i =>
    ((measurable_pi_apply i).comp hm.1).comp_aemeasurable hXm
  have mb : ∀ i, AEMeasurable (fun ω => b t (X ω) i) P := fun i =>
    ((measurable_pi_apply i).comp hm.2).comp_aemeasurable hXm
  have ha : ∀ i, MemLp (fun ω => a t (X ω) i) 2 P := fun i =>
    (memLp_two_iff_integrable_sq (ma i).aestronglyMeasurable).2
      (hint.mono' ((ma i).pow_const 2).aestronglyMeasurable (Filter.Eventually.of_forall fun ω => by
        rw [Real.norm_of_nonneg (sq_nonneg _)]; exact (hle ω i).1))
  have hb : ∀ i, MemLp (fun ω => b t (X ω) i) 2 P := fun i =>
    (memLp_two_iff_integrable_sq (mb i).aestronglyMeasurable).2
      (hint.mono' ((mb i).pow_const 2).aestronglyMeasurable (Filter.Eventually.of_forall fun ω => by
        rw [Real.norm_of_nonneg (sq_nonneg _)]; exact (hle ω i).2))
  refine ⟨ha, hb, ?_⟩
  rw [meanSq_eq ha, meanSq_eq hb, meanSq_eq hX, ← integral_add (integrable_sumSq ha) (integrable_sumSq hb)]
  have e : C * (1 + ∫ ω, ∑ i, X ω i ^ 2 ∂P) = ∫ ω, C * (1 + ∑ i, X ω i ^ 2) ∂P := by
    rw [integral_const_mul, integral_add (integrable_const _) (integrable_sumSq hX)]
    simp
  rw [e]
  refine integral_mono ((integrable_sumSq ha).add (integrable_sumSq hb)) hint fun ω => ?_
  simp only [← Finset.sum_add_distrib]
  exact hC (X ω)

end

/-! ### One scheme -/

section
variable {a b : ℝ → (ι → ℝ) → ι → ℝ} {T C : ℝ} {x0 : ι → ℝ} {grid : List ℝ} {X : ℝ → Ω → ι → ℝ}

/-- Values are known when they are reached, and their mean squares are bounded, whatever the grid. -/
theorem scheme_moments (hT : 0 ≤ T) (hC0 : 0 ≤ C)
    (hm : ∀ t ∈ Set.Icc t0 (t0 + T), Measurable (a t) ∧ Measurable (b t))
    (hC : ∀ t ∈ Set.Icc t0 (t0 + T), ∀ x, ∑ i, (a t x i ^ 2 + b t x i ^ 2) ≤ C * (1 + ∑ i, x i ^ 2))
    (hW : Drives P t0 D W) (hg : grid.Pairwise (· < ·)) (h0 : t0 ∈ grid) (hD : ∀ u ∈ grid, u ∈ D)
    (hX : IsScheme a b t0 x0 grid W X) : ∀ u ∈ grid, t0 ≤ u → u ≤ t0 + T →
      KnownAt D W u (X u) ∧ (∀ i, MemLp (fun ω => X u ω i) 2 P) ∧
      1 + meanSq P (X u) ≤ Real.exp ((1 + (1 + T) * C) * (u - t0)) * (1 + ∑ i, x0 i ^ 2) := by
  refine grid_induction hg h0 (fun _ => ?_) ?_
  · have e : X t0 = fun _ => x0 := funext hX.start
    rw [e]
    refine ⟨knownAt_const _ _, fun i => memLp_const _, ?_⟩
    simp [meanSq]
  · intro s t hst h0s hlt ih htT
    obtain ⟨hk, hl, hb⟩ := ih (hlt.le.trans htT)
    have hsI : s ∈ Set.Icc t0 (t0 + T) := ⟨h0s, hlt.le.trans htT⟩
    have hsD := hD s hst.1
    have htD := hD t hst.2.1
    obtain ⟨la, lb, hab⟩ := coef_memLp (P := P) (hm s hsI) (hC s hsI) hl
    have e : X t = fun ω i => X s ω i + a s (X s ω) i * (t - s) + b s (X s ω) i * (W t ω i - W s ω i) := by
      funext ω i
      exact hX.step s t hst h0s hlt ω i
    have hind : IndepFun (fun ω => (X s ω, a s (X s ω), b s (X s ω))) (fun ω i => W t ω i - W s ω i) P :=
      (hk.comp (measurable_id.prodMk ((hm s hsI).1.prodMk (hm s hsI).2))).indep hW hsD htD h0s hlt.le
    have hh : 0 ≤ t - s := by linarith
    have hhT : t - s ≤ T := by linarith
    obtain ⟨h1, h2⟩ := meanSq_step hh hind hl la lb (hW.memLp s hsD t htD h0s hlt.le)
      (hW.mean s hsD t htD h0s hlt.le) (hW.var s hsD t htD h0s hlt.le)
    have hkt : KnownAt D W t (X t) := by
      rw [e]
      have k1 := ((hk.mono hlt.le).prodMk (knownAt_self (W := W) htD le_rfl)).prodMk
        (knownAt_self (W := W) hsD hlt.le)
      refine k1.comp (f := fun c : ((ι → ℝ) × (ι → ℝ)) × (ι → ℝ) => fun i =>
        c.1.1 i + a s c.1.1 i * (t - s) + b s c.1.1 i * (c.1.2 i - c.2 i)) ?_
      have m1 := (hm s hsI).1
      have m2 := (hm s hsI).2
      fun_prop
    refine ⟨hkt, by rw [e]; exact h1, ?_⟩
    rw [← e] at h2
    have n1 := meanSq_nonneg (P := P) (X s)
    have n2 := meanSq_nonneg (P := P) fun ω => a s (X s ω)
    have n3 := meanSq_nonneg (P := P) fun ω => b s (X s ω)
    set m := meanSq P (X s)
    set A := meanSq P fun ω => a s (X s ω)
    set B := meanSq P fun ω => b s (X s ω)
    set h := t - s with hhdef
    have h3 : 1 + meanSq P (X t) ≤ (1 + (1 + (1 + T) * C) * h) * (1 + m) := by
      have i1 : h * (1 + h) * A + h * B ≤ h * (1 + T) * (A + B) := by
        have : h * (1 + h) * A ≤ h * (1 + T) * A := by gcongr
        nlinarith [mul_nonneg (mul_nonneg hh hT) n3]
      have i2 : h * (1 + T) * (A + B) ≤ h * (1 + T) * (C * (1 + m)) := by gcongr
      nlinarith
    have h4 : 1 + (1 + (1 + T) * C) * h ≤ Real.exp ((1 + (1 + T) * C) * h) := by
      rw [add_comm]; exact Real.add_one_le_exp _
    calc 1 + meanSq P (X t) ≤ (1 + (1 + (1 + T) * C) * h) * (1 + m) := h3
      _ ≤ Real.exp ((1 + (1 + T) * C) * h) *
          (Real.exp ((1 + (1 + T) * C) * (s - t0)) * (1 + ∑ i, x0 i ^ 2)) := by gcongr
      _ = _ := by
        rw [← mul_assoc, ← Real.exp_add]
        congr 2
        rw [hhdef]
        ring

/-- Values between the points of the grid: the scheme with one step from the last point. -/
noncomputable def between (a b : ℝ → (ι → ℝ) → ι → ℝ) (grid : List ℝ) (W X : ℝ → Ω → ι → ℝ) (v : ℝ) :
    Ω → ι → ℝ := fun ω i =>
  X (lastAt grid v) ω i + a (lastAt grid v) (X (lastAt grid v) ω) i * (v - lastAt grid v) +
    b (lastAt grid v) (X (lastAt grid v) ω) i * (W v ω i - W (lastAt grid v) ω i)

theorem between_self (hg : grid.Pairwise (· < ·)) (h0 : t0 ∈ grid) {v : ℝ} (hv : t0 ≤ v)
    (hm : v ∈ grid) : between a b grid W X v = X v := by
  funext ω i
  simp [between, lastAt_self hg h0 hv hm]

/-- These values make the steps of the scheme along any finer grid, with coefficients taken at the last point
of the grid. -/
theorem between_step (hX : IsScheme a b t0 x0 grid W X) (hg : grid.Pairwise (· < ·)) (h0 : t0 ∈ grid)
    {v v' : ℝ} (hv : t0 ≤ v) (hlt : v < v') (hn : ∀ c ∈ grid, ¬ (v < c ∧ c < v')) :
    between a b grid W X v' = fun ω i => between a b grid W X v ω i +
      a (lastAt grid v) (X (lastAt grid v) ω) i * (v' - v) +
      b (lastAt grid v) (X (lastAt grid v) ω) i * (W v' ω i - W v ω i) := by
  obtain ⟨a1, a2, a3, a4⟩ := lastAt_spec hg h0 hv
  by_cases hm : v' ∈ grid
  · rw [between_self hg h0 (hv.trans hlt.le) hm]
    funext ω i
    have hst : StepOf grid t0 (lastAt grid v) v' := by
      refine ⟨a1, hm, .inl ⟨a2, a3.trans_lt hlt, ?_⟩⟩
      rintro c hc ⟨c1, c2⟩
      by_cases hcv : c ≤ v
      · exact absurd (a4 c hc hcv) (not_le.2 c1)
      · exact hn c hc ⟨not_le.1 hcv, c2⟩
    rw [hX.step _ _ hst a2 (a3.trans_lt hlt) ω i]
    simp only [between]
    ring
  · have e : lastAt grid v' = lastAt grid v := lastAt_congr hg h0 hv hlt.le (by
      rintro c hc ⟨c1, c2⟩
      rcases c2.eq_or_lt with rfl | c2
      · exact hm hc
      · exact hn c hc ⟨c1, c2⟩)
    funext ω i
    simp only [between, e]
    ring

/-- They are close to the value at the last point of the grid. -/
theorem between_close (hT : 0 ≤ T) (hC0 : 0 ≤ C)
    (hm : ∀ t ∈ Set.Icc t0 (t0 + T), Measurable (a t) ∧ Measurable (b t))
    (hC : ∀ t ∈ Set.Icc t0 (t0 + T), ∀ x, ∑ i, (a t x i ^ 2 + b t x i ^ 2) ≤ C * (1 + ∑ i, x i ^ 2))
    (hW : Drives P t0 D W) (hg : grid.Pairwise (· < ·)) (h0 : t0 ∈ grid) (hD : ∀ u ∈ grid, u ∈ D)
    (hX : IsScheme a b t0 x0 grid W X) {v : ℝ} (hvD : v ∈ D) (hv : t0 ≤ v) (hvT : v ≤ t0 + T)
    {δ : ℝ} (hδ : v - lastAt grid v ≤ δ) :
    KnownAt D W v (between a b grid W X v) ∧ (∀ i, MemLp (fun ω => between a b grid W X v ω i) 2 P) ∧
    meanSq P (fun ω i => between a b grid W X v ω i - X (lastAt grid v) ω i) ≤
      δ * ((1 + T) * (C * (Real.exp ((1 + (1 + T) * C) * T) * (1 + ∑ i, x0 i ^ 2)))) := by
  obtain ⟨a1, a2, a3, a4⟩ := lastAt_spec hg h0 hv
  set s := lastAt grid v with hs
  have hsI : s ∈ Set.Icc t0 (t0 + T) := ⟨a2, a3.trans hvT⟩
  have hsD := hD s a1
  obtain ⟨hk, hl, hb⟩ := scheme_moments hT hC0 hm hC hW hg h0 hD hX s a1 a2 hsI.2
  obtain ⟨la, lb, hab⟩ := coef_memLp (P := P) (hm s hsI) (hC s hsI) hl
  have hh : 0 ≤ v - s := by linarith
  have hhT : v - s ≤ T := by linarith
  have hδ0 : 0 ≤ δ := hh.trans hδ
  have hz : ∀ i : ι, MemLp (fun ω : Ω => (fun (_ : Ω) (_ : ι) => (0 : ℝ)) ω i) 2 P := fun i => memLp_const 0
  have hind : ∀ U : Ω → ι → ℝ, (U = X s ∨ U = fun _ _ => 0) →
      IndepFun (fun ω => (U ω, a s (X s ω), b s (X s ω))) (fun ω i => W v ω i - W s ω i) P := by
    intro U hU
    rcases hU with rfl | rfl
    · exact (hk.comp (measurable_id.prodMk ((hm s hsI).1.prodMk (hm s hsI).2))).indep hW hsD hvD a2 a3
    · exact (hk.comp (measurable_const.prodMk ((hm s hsI).1.prodMk (hm s hsI).2))).indep hW hsD hvD a2 a3
  obtain ⟨h1, -⟩ := meanSq_step hh (hind _ (.inl rfl)) hl la lb (hW.memLp s hsD v hvD a2 a3)
    (hW.mean s hsD v hvD a2 a3) (hW.var s hsD v hvD a2 a3)
  obtain ⟨-, h2⟩ := meanSq_step hh (hind _ (.inr rfl)) hz la lb (hW.memLp s hsD v hvD a2 a3)
    (hW.mean s hsD v hvD a2 a3) (hW.var s hsD v hvD a2 a3)
  refine ⟨?_, h1, ?_⟩
  · have k1 := ((hk.mono a3).prodMk (knownAt_self (W := W) hvD le_rfl)).prodMk
      (knownAt_self (W := W) hsD a3)
    refine k1.comp (f := fun c : ((ι → ℝ) × (ι → ℝ)) × (ι → ℝ) => fun i =>
      c.1.1 i + a s c.1.1 i * (v - s) + b s c.1.1 i * (c.1.2 i - c.2 i)) ?_
    have m1 := (hm s hsI).1
    have m2 := (hm s hsI).2
    fun_prop
  · have e : (fun ω i => between a b grid W X v ω i - X s ω i) = fun ω i =>
        (0 : ℝ) + a s (X s ω) i * (v - s) + b s (X s ω) i * (W v ω i - W s ω i) := by
      funext ω i
      simp only [between, ← hs]
      ring
    rw [e]
    have e0 : meanSq P (fun (_ : Ω) (_ : ι) => (0 : ℝ)) = 0 := by simp [meanSq]
    rw [e0, mul_zero, zero_add] at h2
    refine h2.trans ?_
    have n2 := meanSq_nonneg (P := P) fun ω => a s (X s ω)
    have n3 := meanSq_nonneg (P := P) fun ω => b s (X s ω)
    set A := meanSq P fun ω => a s (X s ω)
    set B := meanSq P fun ω => b s (X s ω)
    have i0 : C * (1 + meanSq P (X s)) ≤
        C * (Real.exp ((1 + (1 + T) * C) * T) * (1 + ∑ i, x0 i ^ 2)) := by
      refine mul_le_mul_of_nonneg_left (hb.trans ?_) hC0
      have := sumSq_nonneg x0
      gcongr
      linarith [hsI.2]
    have i1 : (v - s) * (1 + (v - s)) * A + (v - s) * B ≤ (v - s) * (1 + T) * (A + B) := by
      have : (v - s) * (1 + (v - s)) * A ≤ (v - s) * (1 + T) * A := by gcongr
      nlinarith [mul_nonneg (mul_nonneg hh hT) n3]
    calc _ ≤ (v - s) * (1 + T) * (A + B) := i1
      _ ≤ δ * (1 + T) * (C * (Real.exp ((1 + (1 + T) * C) * T) * (1 + ∑ i, x0 i ^ 2))) := by
        have := hab.trans i0
        gcongr
      _ = _ := by ring

end

/-! ### Two schemes -/

section
variable {a b : ℝ → (ι → ℝ) → ι → ℝ} {T L : ℝ} {x0 : ι → ℝ}

/-- Differences of coefficients, in mean square. -/
theorem lip_meanSq {s t : ℝ} (h : ∀ x y, ∑ i, ((a s x i - a t y i) ^ 2 + (b s x i - b t y i) ^ 2) ≤
      L * (∑ i, (x i - y i) ^ 2 + (1 + ∑ i, x i ^ 2) * |s - t|)) {X Y : Ω → ι → ℝ}
    (hX : ∀ i, MemLp (fun ω => X ω i) 2 P) (hY : ∀ i, MemLp (fun ω => Y ω i) 2 P)
    (hA : ∀ i, MemLp (fun ω => a s (X ω) i - a t (Y ω) i) 2 P)
    (hB : ∀ i, MemLp (fun ω => b s (X ω) i - b t (Y ω) i) 2 P) :
    meanSq P (fun ω i => a s (X ω) i - a t (Y ω) i) + meanSq P (fun ω i => b s (X ω) i - b t (Y ω) i) ≤
      L * (meanSq P (fun ω i => X ω i - Y ω i) + (1 + meanSq P X) * |s - t|) := by
  have hXY : ∀ i, MemLp (fun ω => X ω i - Y ω i) 2 P := fun i => (hX i).sub (hY i)
  have i1 : Integrable (fun ω => (1 + ∑ i, X ω i ^ 2) * |s - t|) P :=
    ((integrable_const _).add (integrable_sumSq hX)).mul_const _
  have i2 := integrable_sumSq hXY
  rw [meanSq_eq hA, meanSq_eq hB, meanSq_eq hXY, meanSq_eq hX,
    ← integral_add (integrable_sumSq hA) (integrable_sumSq hB)]
  have e : L * (∫ ω, ∑ i, (X ω i - Y ω i) ^ 2 ∂P + (1 + ∫ ω, ∑ i, X ω i ^ 2 ∂P) * |s - t|) =
      ∫ ω, L * (∑ i, (X ω i - Y ω i) ^ 2 + (1 + ∑ i, X ω i ^ 2) * |s - t|) ∂P := by
    rw [integral_const_mul, integral_add i2 i1, integral_mul_const,
      integral_add (integrable_const _) (integrable_sumSq hX)]
    simp
  rw [e]
  refine integral_mono ((integrable_sumSq hA).add (integrable_sumSq hB)) ((i2.add i1).const_mul L)
    fun ω => ?_
  simp only [← Finset.sum_add_distrib]
  exact h (X ω) (Y ω)

theorem meanSq_three {X Y Z : Ω → ι → ℝ} (hX : ∀ i, MemLp (fun ω => X ω i) 2 P)
    (hY : ∀ i, MemLp (fun ω => Y ω i) 2 P) (hZ : ∀ i, MemLp (fun ω => Z ω i) 2 P) :
    meanSq P (fun ω i => X ω i - Y ω i + Z ω i) ≤ 3 * (meanSq P X + meanSq P Y + meanSq P Z) := by
  simp only [meanSq, ← Finset.sum_add_distrib, Finset.mul_sum]
  refine Finset.sum_le_sum fun i _ => ?_
  have e : 3 * (∫ ω, X ω i ^ 2 ∂P + ∫ ω, Y ω i ^ 2 ∂P + ∫ ω, Z ω i ^ 2 ∂P) =
      ∫ ω, 3 * (X ω i ^ 2 + Y ω i ^ 2 + Z ω i ^ 2) ∂P := by
    have a1 := integral_add ((hX i).integrable_sq.add (hY i).integrable_sq) (hZ i).integrable_sq
    have a2 := integral_add (hX i).integrable_sq (hY i).integrable_sq
    simp only [Pi.add_apply] at a1 a2
    rw [integral_const_mul, a1, a2]
  rw [e]
  refine integral_mono (((hX i).sub (hY i)).add (hZ i)).integrable_sq
    ((((hX i).integrable_sq.add (hY i).integrable_sq).add (hZ i).integrable_sq).const_mul 3) fun ω => ?_
  simp only [Pi.add_apply]
  nlinarith [sq_nonneg (X ω i + Y ω i), sq_nonneg (X ω i - Z ω i), sq_nonneg (Y ω i + Z ω i)]

set_option maxHeartbeats 1000000 in
/-- **Schemes driven by the same noise, along different grids, are close in mean square.** -/
theorem schemes_close (hT : 0 ≤ T) (h : LipschitzCoef a b t0 T L) (x0 : ι → ℝ) :
    ∃ K ≥ 0, ∀ {Ω : Type} [MeasurableSpace Ω] {P : Measure Ω} [IsProbabilityMeasure P] {D : Set ℝ}
      {W X1 X2 : ℝ → Ω → ι → ℝ} {grid1 grid2 : List ℝ} {δ : ℝ}, Drives P t0 D W → 0 ≤ δ →
      grid1.Pairwise (· < ·) → t0 ∈ grid1 → (∀ u ∈ grid1, u ∈ D) → Mesh grid1 δ →
      grid2.Pairwise (· < ·) → t0 ∈ grid2 → (∀ u ∈ grid2, u ∈ D) → Mesh grid2 δ →
      IsScheme a b t0 x0 grid1 W X1 → IsScheme a b t0 x0 grid2 W X2 →
      ∀ t ∈ grid1, t ∈ grid2 → t0 ≤ t → t ≤ t0 + T →
        (∀ i, MemLp (fun ω => X1 t ω i) 2 P) ∧ (∀ i, MemLp (fun ω => X2 t ω i) 2 P) ∧
        meanSq P (fun ω i => X1 t ω i - X2 t ω i) ≤ K * δ := by
  have hLip := h.abs
  have hL : 0 ≤ |L| := abs_nonneg L
  set Λ := |L|
  obtain ⟨C, hC0, hC⟩ := hLip.growth hT hL
  have hm := fun t ht => hLip.meas (t := t) ht
  set R := Real.exp ((1 + (1 + T) * C) * T) * (1 + ∑ i, x0 i ^ 2) with hR
  have hR0 : 0 ≤ R := mul_nonneg (Real.exp_pos _).le (add_nonneg zero_le_one (sumSq_nonneg _))
  set G := (1 + T) * (C * R) with hG
  have hG0 : 0 ≤ G := by positivity
  set κ := 1 + 3 * ((1 + T) * Λ) with hκ
  have hκ0 : 0 ≤ κ := by positivity
  set E := (1 + T) * Λ * (6 * G + R) with hE
  have hE0 : 0 ≤ E := by positivity
  refine ⟨Real.exp (κ * T) * (E * T), by positivity, ?_⟩
  intro Ω _ P _ D W X1 X2 grid1 grid2 δ hW hδ hg1 h01 hD1 hm1 hg2 h02 hD2 hm2 hX1 hX2 t ht1 ht2 h0t htT
  refine ⟨(scheme_moments hT hC0 hm hC hW hg1 h01 hD1 hX1 t ht1 h0t htT).2.1,
    (scheme_moments hT hC0 hm hC hW hg2 h02 hD2 hX2 t ht2 h0t htT).2.1, ?_⟩
  let M := (grid1 ++ grid2).toFinset.sort (· ≤ ·)
  have hM : M.Pairwise (· < ·) := (Finset.sortedLT_sort _).pairwise
  have hmem : ∀ u, u ∈ M ↔ u ∈ grid1 ∨ u ∈ grid2 := fun u => by simp [M]
  have h0M : t0 ∈ M := (hmem _).2 (.inl h01)
  have hDM : ∀ u ∈ M, u ∈ D := fun u hu => ((hmem u).1 hu).elim (hD1 u) (hD2 u)
  let Z1 := between a b grid1 W X1
  let Z2 := between a b grid2 W X2
  have key := grid_induction hM h0M (Q := fun v => v ≤ t →
      meanSq P (fun ω i => Z1 v ω i - Z2 v ω i) ≤
        Real.exp (κ * (v - t0)) * (E * δ * (v - t0))) ?_ ?_ t ((hmem t).2 (.inl ht1)) h0t le_rfl
  · rw [show Z1 t = X1 t from between_self hg1 h01 h0t ht1,
      show Z2 t = X2 t from between_self hg2 h02 h0t ht2] at key
    refine key.trans ?_
    have i1 : t - t0 ≤ T := by linarith
    have i2 : 0 ≤ t - t0 := by linarith
    calc _ ≤ Real.exp (κ * T) * (E * δ * T) := by gcongr
      _ = _ := by ring
  · intro _
    rw [show Z1 t0 = X1 t0 from between_self hg1 h01 le_rfl h01,
      show Z2 t0 = X2 t0 from between_self hg2 h02 le_rfl h02]
    simp [meanSq, hX1.start, hX2.start]
  · intro v v' hst h0v hlt ih hv't
    have ih := ih (hlt.le.trans hv't)
    have hvt : v ≤ t := hlt.le.trans hv't
    have hvT : v ≤ t0 + T := hvt.trans htT
    have hvD := hDM v hst.1
    have hv'D := hDM v' hst.2.1
    have hno : ∀ c ∈ M, ¬ (v < c ∧ c < v') := by
      rcases hst.2.2 with ⟨-, -, hno⟩ | ⟨-, hc, -⟩
      · exact hno
      · exact absurd hlt (not_lt.2 hc.le)
    obtain ⟨p1, p2, p3, p4⟩ := lastAt_spec hg1 h01 h0v
    obtain ⟨q1, q2, q3, q4⟩ := lastAt_spec hg2 h02 h0v
    have hd1 := lastAt_mesh hg1 h01 h0v ht1 hvt hm1 hδ
    have hd2 := lastAt_mesh hg2 h02 h0v ht2 hvt hm2 hδ
    obtain ⟨kZ1, lZ1, cZ1⟩ := between_close hT hC0 hm hC hW hg1 h01 hD1 hX1 hvD h0v hvT hd1
    obtain ⟨kZ2, lZ2, cZ2⟩ := between_close hT hC0 hm hC hW hg2 h02 hD2 hX2 hvD h0v hvT hd2
    have s1 := between_step hX1 hg1 h01 h0v hlt fun c hc => hno c ((hmem c).2 (.inl hc))
    have s2 := between_step hX2 hg2 h02 h0v hlt fun c hc => hno c ((hmem c).2 (.inr hc))
    set σ1 := lastAt grid1 v
    set σ2 := lastAt grid2 v
    have hI1 : σ1 ∈ Set.Icc t0 (t0 + T) := ⟨p2, p3.trans hvT⟩
    have hI2 : σ2 ∈ Set.Icc t0 (t0 + T) := ⟨q2, q3.trans hvT⟩
    obtain ⟨k1, l1, b1⟩ := scheme_moments hT hC0 hm hC hW hg1 h01 hD1 hX1 σ1 p1 p2 hI1.2
    obtain ⟨k2, l2, -⟩ := scheme_moments hT hC0 hm hC hW hg2 h02 hD2 hX2 σ2 q1 q2 hI2.2
    obtain ⟨la1, lb1, -⟩ := coef_memLp (P := P) (hm σ1 hI1) (hC σ1 hI1) l1
    obtain ⟨la2, lb2, -⟩ := coef_memLp (P := P) (hm σ2 hI2) (hC σ2 hI2) l2
    have lA : ∀ i, MemLp (fun ω => a σ1 (X1 σ1 ω) i - a σ2 (X2 σ2 ω) i) 2 P := fun i => (la1 i).sub (la2 i)
    have lB : ∀ i, MemLp (fun ω => b σ1 (X1 σ1 ω) i - b σ2 (X2 σ2 ω) i) 2 P := fun i => (lb1 i).sub (lb2 i)
    have lE : ∀ i, MemLp (fun ω => Z1 v ω i - Z2 v ω i) 2 P := fun i => (lZ1 i).sub (lZ2 i)
    have hind : IndepFun (fun ω => ((fun i => Z1 v ω i - Z2 v ω i),
        (fun i => a σ1 (X1 σ1 ω) i - a σ2 (X2 σ2 ω) i), (fun i => b σ1 (X1 σ1 ω) i - b σ2 (X2 σ2 ω) i)))
        (fun ω i => W v' ω i - W v ω i) P := by
      have kk := (kZ1.prodMk kZ2).prodMk ((k1.mono p3).prodMk (k2.mono q3))
      have m1 := (hm σ1 hI1).1
      have m2 := (hm σ1 hI1).2
      have m3 := (hm σ2 hI2).1
      have m4 := (hm σ2 hI2).2
      exact (kk.comp (f := fun c : ((ι → ℝ) × (ι → ℝ)) × ((ι → ℝ) × (ι → ℝ)) =>
        ((fun i => c.1.1 i - c.1.2 i), (fun i => a σ1 c.2.1 i - a σ2 c.2.2 i),
          (fun i => b σ1 c.2.1 i - b σ2 c.2.2 i))) (by fun_prop)).indep hW hvD hv'D h0v hlt.le
    have hh : 0 ≤ v' - v := by linarith
    have hhT : v' - v ≤ T := by linarith
    obtain ⟨-, st⟩ := meanSq_step hh hind lE lA lB (hW.memLp v hvD v' hv'D h0v hlt.le)
      (hW.mean v hvD v' hv'D h0v hlt.le) (hW.var v hvD v' hv'D h0v hlt.le)
    have e : (fun ω i => Z1 v' ω i - Z2 v' ω i) = fun ω i => (Z1 v ω i - Z2 v ω i) +
        (a σ1 (X1 σ1 ω) i - a σ2 (X2 σ2 ω) i) * (v' - v) +
        (b σ1 (X1 σ1 ω) i - b σ2 (X2 σ2 ω) i) * (W v' ω i - W v ω i) := by
      funext ω i
      simp only [Z1, Z2, s1, s2]
      ring
    rw [← e] at st
    have hlip := lip_meanSq (P := P) (hLip σ1 hI1 σ2 hI2) l1 l2 lA lB
    have hdiff : meanSq P (fun ω i => X1 σ1 ω i - X2 σ2 ω i) ≤
        3 * (meanSq P (fun ω i => Z1 v ω i - Z2 v ω i) + δ * G + δ * G) := by
      have := meanSq_three (P := P) (Y := fun ω i => Z1 v ω i - X1 σ1 ω i)
        (Z := fun ω i => Z2 v ω i - X2 σ2 ω i) lE (fun i => (lZ1 i).sub (l1 i)) (fun i => (lZ2 i).sub (l2 i))
      have e : (fun ω i => X1 σ1 ω i - X2 σ2 ω i) = fun ω i => (Z1 v ω i - Z2 v ω i) -
          (Z1 v ω i - X1 σ1 ω i) + (Z2 v ω i - X2 σ2 ω i) := by
        funext ω i; ring
      rw [e]
      refine this.trans ?_
      have c1 : meanSq P (fun ω i => Z1 v ω i - X1 σ1 ω i) ≤ δ * G := cZ1
      have c2 : meanSq P (fun ω i => Z2 v ω i - X2 σ2 ω i) ≤ δ * G := cZ2
      linarith
    have hσ : |σ1 - σ2| ≤ δ := by
      rw [abs_le]
      constructor <;> linarith
    have hX1R : 1 + meanSq P (X1 σ1) ≤ R := by
      refine b1.trans ?_
      have := sumSq_nonneg x0
      rw [hR]
      gcongr
      linarith [hI1.2]
    have n0 := meanSq_nonneg (P := P) fun ω i => Z1 v ω i - Z2 v ω i
    have n2 := meanSq_nonneg (P := P) fun ω i => a σ1 (X1 σ1 ω) i - a σ2 (X2 σ2 ω) i
    have n3 := meanSq_nonneg (P := P) fun ω i => b σ1 (X1 σ1 ω) i - b σ2 (X2 σ2 ω) i
    have nX := meanSq_nonneg (P := P) (X1 σ1)
    set m := meanSq P fun ω i => Z1 v ω i - Z2 v ω i
    set A := meanSq P fun ω i => a σ1 (X1 σ1 ω) i - a σ2 (X2 σ2 ω) i
    set B := meanSq P fun ω i => b σ1 (X1 σ1 ω) i - b σ2 (X2 σ2 ω) i
    set q := v' - v with hq
    have i1 : q * (1 + q) * A + q * B ≤ q * (1 + T) * (A + B) := by
      have : q * (1 + q) * A ≤ q * (1 + T) * A := by gcongr
      nlinarith [mul_nonneg (mul_nonneg hh hT) n3]
    have i2 : A + B ≤ Λ * (3 * (m + δ * G + δ * G) + R * δ) := by
      refine hlip.trans ?_
      gcongr
    have i3 : q * (1 + T) * (A + B) ≤ q * (1 + T) * (Λ * (3 * (m + δ * G + δ * G) + R * δ)) := by gcongr
    have i4 : meanSq P (fun ω i => Z1 v' ω i - Z2 v' ω i) ≤ (1 + κ * q) * m + E * δ * q := by
      have e4 : (1 + κ * q) * m + E * δ * q = (1 + q) * m +
          q * (1 + T) * (Λ * (3 * (m + δ * G + δ * G) + R * δ)) := by rw [hκ, hE]; ring
      rw [e4]
      linarith
    have i5 : 1 + κ * q ≤ Real.exp (κ * q) := by
      rw [add_comm]; exact Real.add_one_le_exp _
    have i6 : 1 ≤ Real.exp (κ * (v' - t0)) := Real.one_le_exp (mul_nonneg hκ0 (by linarith))
    calc _ ≤ (1 + κ * q) * m + E * δ * q := i4
      _ ≤ Real.exp (κ * q) * (Real.exp (κ * (v - t0)) * (E * δ * (v - t0))) +
          Real.exp (κ * (v' - t0)) * (E * δ * q) := by
        refine add_le_add (mul_le_mul i5 ih n0 (Real.exp_pos _).le) ?_
        have : 0 ≤ E * δ * q := by positivity
        nlinarith
      _ = _ := by
        rw [← mul_assoc, ← Real.exp_add]
        have : κ * q + κ * (v - t0) = κ * (v' - t0) := by rw [hq]; ring
        rw [this, hq]
        ring

end

end Sdepy
