import Verif.Spec.StrongN
import Verif.Lemmas.StrongLimit
import Mathlib.Algebra.Order.Chebyshev

/-!
# Equations with more than one source of noise, reduced to equations with one source for each cell
-/

set_option linter.unusedSectionVars false

open MeasureTheory ProbabilityTheory

namespace Sdepy

open Spec

section
variable {Ω ι J : Type} [MeasurableSpace Ω] [Fintype ι] [Fintype J] {P : Measure Ω}
  {a : ℝ → (ι → ℝ) → ι → ℝ} {b : J → ℝ → (ι → ℝ) → ι → ℝ} {t0 T L : ℝ} {x0 : ι → ℝ} {m v : J → ℝ}
  {Z : ℝ → Ω → J × ι → ℝ} {D : Set ℝ}

/-- Sum over sources. -/
def total (x : J × ι → ℝ) (i : ι) : ℝ := ∑ j, x (j, i)

/-- Values, split equally among sources. -/
noncomputable def share (x : ι → ℝ) (c : J × ι) : ℝ := x c.2 / Fintype.card J

/-- Drift and volatility for each source and cell. -/
noncomputable def splitDrift (a : ℝ → (ι → ℝ) → ι → ℝ) (b : J → ℝ → (ι → ℝ) → ι → ℝ) (m : J → ℝ) (t : ℝ)
    (x : J × ι → ℝ) (c : J × ι) : ℝ := a t (total x) c.2 / Fintype.card J + b c.1 t (total x) c.2 * m c.1

noncomputable def splitVol (b : J → ℝ → (ι → ℝ) → ι → ℝ) (v : J → ℝ) (t : ℝ) (x : J × ι → ℝ) (c : J × ι) : ℝ :=
  √(v c.1) * b c.1 t (total x) c.2

/-- Noise, with mean zero and unit variance per unit of time. -/
noncomputable def standardised (m v : J → ℝ) (t0 : ℝ) (Z : ℝ → Ω → J × ι → ℝ) (u : ℝ) (ω : Ω) (c : J × ι) : ℝ :=
  (Z u ω c - m c.1 * (u - t0)) / √(v c.1)

theorem total_share [Nonempty J] (x : ι → ℝ) : total (J := J) (share x) = x := by
  funext i
  simp only [total, share, Finset.sum_const, Finset.card_univ, nsmul_eq_mul]
  have : (Fintype.card J : ℝ) ≠ 0 := by exact_mod_cast Fintype.card_ne_zero
  field_simp

theorem total_sq (x : J × ι → ℝ) : ∑ i, total x i ^ 2 ≤ Fintype.card J * ∑ c, x c ^ 2 := by
  rw [Fintype.sum_prod_type, Finset.sum_comm, Finset.mul_sum]
  refine Finset.sum_le_sum fun i _ => ?_
  have := sq_sum_le_card_mul_sum_sq (s := (Finset.univ : Finset J)) (f := fun j => x (j, i))
  rwa [Finset.card_univ] at this

theorem total_sub (x y : J × ι → ℝ) (i : ι) : total (fun c => x c - y c) i = total x i - total y i := by
  simp only [total, Finset.sum_sub_distrib]

theorem measurable_total : Measurable (total : (J × ι → ℝ) → ι → ℝ) :=
  measurable_pi_lambda _ fun i => Finset.measurable_sum _ fun j _ => measurable_pi_apply _

theorem measurable_share : Measurable (share : (ι → ℝ) → J × ι → ℝ) :=
  measurable_pi_lambda _ fun c => (measurable_pi_apply c.2).div_const _

theorem total_memLp {X : Ω → J × ι → ℝ} (hX : ∀ c, MemLp (fun ω => X ω c) 2 P) (i : ι) :
    MemLp (fun ω => total (X ω) i) 2 P := by
  simp only [total]
  exact memLp_finsetSum _ fun j _ => hX (j, i)

theorem meanSq_total [IsProbabilityMeasure P] {X Y : Ω → J × ι → ℝ} (hX : ∀ c, MemLp (fun ω => X ω c) 2 P)
    (hY : ∀ c, MemLp (fun ω => Y ω c) 2 P) :
    meanSq P (fun ω i => total (X ω) i - total (Y ω) i) ≤
      Fintype.card J * meanSq P fun ω c => X ω c - Y ω c := by
  have h : ∀ c, MemLp (fun ω => X ω c - Y ω c) 2 P := fun c => (hX c).sub (hY c)
  rw [meanSq_eq h, meanSq_eq (X := fun ω i => total (X ω) i - total (Y ω) i)
    (fun i => (total_memLp hX i).sub (total_memLp hY i)), ← integral_const_mul]
  refine integral_mono (integrable_sumSq (X := fun ω i => total (X ω) i - total (Y ω) i)
    fun i => (total_memLp hX i).sub (total_memLp hY i)) ((integrable_sumSq h).const_mul _) fun ω => ?_
  have := total_sq fun c => X ω c - Y ω c
  simp only [total_sub] at this
  exact this

theorem meanSq_share [Nonempty J] (X : Ω → ι → ℝ) (Y : Ω → ι → ℝ) :
    Fintype.card J * meanSq P (fun ω (c : J × ι) => share (X ω) c - share (Y ω) c) =
      meanSq P fun ω i => X ω i - Y ω i := by
  have hq : (Fintype.card J : ℝ) ≠ 0 := by exact_mod_cast Fintype.card_ne_zero
  simp only [meanSq, Fintype.sum_prod_type, share, Finset.sum_const, Finset.card_univ, nsmul_eq_mul]
  have e : ∀ i, ∫ ω, (X ω i / (Fintype.card J : ℝ) - Y ω i / (Fintype.card J : ℝ)) ^ 2 ∂P =
      (∫ ω, (X ω i - Y ω i) ^ 2 ∂P) / (Fintype.card J : ℝ) ^ 2 := by
    intro i
    rw [← integral_div]
    refine integral_congr_ae (.of_forall fun ω => ?_)
    simp only
    field_simp
  simp only [e, ← Finset.sum_div]
  field_simp

theorem split_lipschitz [Nonempty J] (hv : ∀ j, 0 ≤ v j) (h : LipschitzCoefs a b t0 T L) :
    ∃ L', LipschitzCoef (splitDrift a b m) (splitVol b v) t0 T L' := by
  let q : ℝ := Fintype.card J
  have hq : 1 ≤ q := by
    have : 1 ≤ Fintype.card J := Fintype.card_pos
    show (1 : ℝ) ≤ (Fintype.card J : ℝ)
    exact_mod_cast this
  let C : ℝ := 2 + ∑ j, (2 * m j ^ 2 + v j)
  have hC0 : ∀ j, 0 ≤ 2 * m j ^ 2 + v j := fun j => by have := hv j; positivity
  have hCj : ∀ j, 2 * m j ^ 2 + v j ≤ C := by
    intro j
    have := Finset.single_le_sum (f := fun j => 2 * m j ^ 2 + v j) (fun j _ => hC0 j) (Finset.mem_univ j)
    show _ ≤ 2 + _
    linarith
  have hC2 : 2 ≤ C := by
    have := Finset.sum_nonneg fun j (_ : j ∈ Finset.univ) => hC0 j
    show (2 : ℝ) ≤ 2 + _
    linarith
  refine ⟨C * (|L| * q), fun t ht u hu x y => ?_⟩
  have h1 := h t ht u hu (total x) (total y)
  have h2 : ∑ c : J × ι, ((splitDrift a b m t x c - splitDrift a b m u y c) ^ 2 +
      (splitVol b v t x c - splitVol b v u y c) ^ 2) ≤
      C * ∑ i, ((a t (total x) i - a u (total y) i) ^ 2 +
        ∑ j, (b j t (total x) i - b j u (total y) i) ^ 2) := by
    rw [Fintype.sum_prod_type, Finset.sum_comm, Finset.mul_sum]
    refine Finset.sum_le_sum fun i _ => ?_
    have h3 : ∀ j : J, (splitDrift a b m t x (j, i) - splitDrift a b m u y (j, i)) ^ 2 +
        (splitVol b v t x (j, i) - splitVol b v u y (j, i)) ^ 2 ≤
        2 * (a t (total x) i - a u (total y) i) ^ 2 / q + C * (b j t (total x) i - b j u (total y) i) ^ 2 := by
      intro j
      simp only [splitDrift, splitVol]
      generalize a t (total x) i = a1, a u (total y) i = a2, b j t (total x) i = b1, b j u (total y) i = b2
      have hs := Real.sq_sqrt (hv j)
      have e : (√(v j) * b1 - √(v j) * b2) ^ 2 = v j * (b1 - b2) ^ 2 := by rw [← mul_sub, mul_pow, hs]
      rw [e]
      have hq0 : 0 < q := by linarith
      have e2 : (a1 / q + b1 * m j - (a2 / q + b2 * m j)) ^ 2 ≤
          2 * (a1 - a2) ^ 2 / q + 2 * m j ^ 2 * (b1 - b2) ^ 2 := by
        have e3 : (a1 / q + b1 * m j - (a2 / q + b2 * m j)) = (a1 - a2) / q + m j * (b1 - b2) := by ring
        rw [e3]
        have e4 : ((a1 - a2) / q) ^ 2 ≤ (a1 - a2) ^ 2 / q := by
          rw [div_pow]
          exact div_le_div_of_nonneg_left (sq_nonneg _) hq0 (by nlinarith)
        have e5 : 2 * (a1 - a2) ^ 2 / q = 2 * ((a1 - a2) ^ 2 / q) := by ring
        rw [e5]
        nlinarith [sq_nonneg ((a1 - a2) / q - m j * (b1 - b2))]
      have := mul_le_mul_of_nonneg_right (hCj j) (sq_nonneg (b1 - b2))
      have hq' : (Fintype.card J : ℝ) = q := rfl
      rw [hq']
      nlinarith
    refine (Finset.sum_le_sum fun j _ => h3 j).trans ?_
    rw [Finset.sum_add_distrib, Finset.sum_const, Finset.card_univ, nsmul_eq_mul, ← Finset.mul_sum, mul_add]
    have e : (Fintype.card J : ℝ) * (2 * (a t (total x) i - a u (total y) i) ^ 2 / q) =
        2 * (a t (total x) i - a u (total y) i) ^ 2 := by
      have : q ≠ 0 := by linarith
      have hq' : (Fintype.card J : ℝ) = q := rfl
      rw [hq']
      field_simp
    rw [e]
    have := mul_le_mul_of_nonneg_right hC2 (sq_nonneg (a t (total x) i - a u (total y) i))
    linarith
  have h4 : ∑ i, (total x i - total y i) ^ 2 ≤ q * ∑ c, (x c - y c) ^ 2 := by
    have := total_sq fun c => x c - y c
    simpa only [total_sub] using this
  have h5 : ∑ i, total x i ^ 2 ≤ q * ∑ c, x c ^ 2 := total_sq x
  have h6 : L * (∑ i, (total x i - total y i) ^ 2 + (1 + ∑ i, total x i ^ 2) * |t - u|) ≤
      |L| * (∑ i, (total x i - total y i) ^ 2 + (1 + ∑ i, total x i ^ 2) * |t - u|) := by
    refine mul_le_mul_of_nonneg_right (le_abs_self L) ?_
    have := sumSq_nonneg (total x)
    have := sumSq_nonneg fun i => total x i - total y i
    positivity
  have h7 : ∑ i, (total x i - total y i) ^ 2 + (1 + ∑ i, total x i ^ 2) * |t - u| ≤
      q * (∑ c, (x c - y c) ^ 2 + (1 + ∑ c, x c ^ 2) * |t - u|) := by
    have h8 : (1 + ∑ i, total x i ^ 2) * |t - u| ≤ (q * (1 + ∑ c, x c ^ 2)) * |t - u| := by
      refine mul_le_mul_of_nonneg_right ?_ (abs_nonneg _)
      linarith
    have e : q * (∑ c, (x c - y c) ^ 2 + (1 + ∑ c, x c ^ 2) * |t - u|) =
        q * ∑ c, (x c - y c) ^ 2 + (q * (1 + ∑ c, x c ^ 2)) * |t - u| := by ring
    rw [e]
    linarith
  have h9 := mul_le_mul_of_nonneg_left h7 (abs_nonneg L)
  have h10 := mul_le_mul_of_nonneg_left (h1.trans (h6.trans h9)) (by linarith : 0 ≤ C)
  refine (h2.trans h10).trans (le_of_eq ?_)
  ring

/-! ### Noise -/

theorem knownAt_standardised (hv : ∀ j, 0 < v j) {C : Type} [MeasurableSpace C] {u : ℝ} {Y : Ω → C} :
    KnownAt D (standardised m v t0 Z) u Y ↔ KnownAt D Z u Y := by
  constructor
  · rintro ⟨g, hg, e⟩
    refine ⟨fun z => g fun p => (z p - m p.2.1 * (p.1 - t0)) / √(v p.2.1), ?_, e⟩
    exact hg.comp (measurable_pi_lambda _ fun p => ((measurable_pi_apply p).sub_const _).div_const _)
  · rintro ⟨g, hg, e⟩
    refine ⟨fun w => g fun p => w p * √(v p.2.1) + m p.2.1 * (p.1 - t0), ?_, fun ω => ?_⟩
    · exact hg.comp (measurable_pi_lambda _ fun p => ((measurable_pi_apply p).mul_const _).add_const _)
    · rw [e]
      congr 1
      funext p
      have : √(v p.2.1) ≠ 0 := (Real.sqrt_pos.2 (hv _)).ne'
      simp only [standardised]
      field_simp
      ring

theorem standardised_sub (s t : ℝ) (ω : Ω) (c : J × ι) :
    standardised m v t0 Z t ω c - standardised m v t0 Z s ω c =
      (Z t ω c - Z s ω c - m c.1 * (t - s)) / √(v c.1) := by
  simp only [standardised]
  ring

theorem drives_standardised [IsProbabilityMeasure P] (hv : ∀ j, 0 < v j) (h : Noises P t0 D m v Z) :
    Drives P t0 D (standardised m v t0 Z) where
  meas u hu := by
    have := h.meas u hu
    exact aemeasurable_pi_lambda _ fun c => ((aemeasurable_pi_iff.1 this c).sub_const _).div_const _
  memLp s hs t ht h0 hst c := by
    have := ((h.memLp s hs t ht h0 hst c).sub (memLp_const (m c.1 * (t - s)))).mul_const (√(v c.1))⁻¹
    refine this.congr_norm ?_ (.of_forall fun ω => ?_)
    · simp only [standardised_sub, div_eq_mul_inv]
      exact this.aestronglyMeasurable
    · simp only [standardised_sub, div_eq_mul_inv]
      rfl
  mean s hs t ht h0 hst c := by
    simp only [standardised_sub]
    have hi : Integrable (fun ω => Z t ω c - Z s ω c) P :=
      (h.memLp s hs t ht h0 hst c).integrable (by norm_num)
    rw [integral_div, integral_sub hi (integrable_const _), h.mean s hs t ht h0 hst c.1 c.2]
    simp
  var s hs t ht h0 hst c := by
    simp only [standardised_sub, div_pow]
    rw [integral_div, h.var s hs t ht h0 hst c.1 c.2, Real.sq_sqrt (hv c.1).le]
    have := (hv c.1).ne'
    field_simp
  indep s hs t ht h0 hst := by
    have := (h.indep s hs t ht h0 hst).comp
      (φ := fun z p => (z p - m p.2.1 * (p.1 - t0)) / √(v p.2.1))
      (ψ := fun d c => (d c - m c.1 * (t - s)) / √(v c.1))
      (measurable_pi_lambda _ fun p => ((measurable_pi_apply p).sub_const _).div_const _)
      (measurable_pi_lambda _ fun c => ((measurable_pi_apply c).sub_const _).div_const _)
    refine this.congr (.of_forall fun ω => rfl) (.of_forall fun ω => ?_)
    funext c
    simp only [standardised_sub, Function.comp]

/-! ### Sums -/

/-- Sums of an equation are determined by the process at which coefficients are taken. -/
theorem areSums_unique {grid : List ℝ} (hg : grid.Pairwise (· < ·)) (h0 : t0 ∈ grid) {Y Y' R R' : ℝ → Ω → ι → ℝ}
    (h : AreSums a b t0 x0 grid Z Y R) (h' : AreSums a b t0 x0 grid Z Y' R')
    (hY : ∀ u ∈ grid, t0 ≤ u → R u = R' u → Y u = Y' u) : ∀ u ∈ grid, t0 ≤ u → R u = R' u := by
  refine grid_induction hg h0 (funext fun ω => by rw [h.start, h'.start]) ?_
  intro s t hst h0s hlt e
  funext ω i
  rw [h.step s t hst h0s hlt, h'.step s t hst h0s hlt, e, hY s hst.1 h0s e]

theorem split_sums [Nonempty J] (hv : ∀ j, 0 < v j) {grid : List ℝ} {Y R : ℝ → Ω → J × ι → ℝ}
    (h : IsSums (splitDrift a b m) (splitVol b v) t0 (share x0) grid (standardised m v t0 Z) Y R) :
    AreSums a b t0 x0 grid Z (fun u ω => total (Y u ω)) fun u ω => total (R u ω) where
  start ω := by rw [h.start, total_share]
  step s t hst h0 hlt ω i := by
    have e : ∀ j, R t ω (j, i) = R s ω (j, i) + a s (total (Y s ω)) i * (t - s) / Fintype.card J +
        b j s (total (Y s ω)) i * (Z t ω (j, i) - Z s ω (j, i)) := by
      intro j
      have hs : √(v j) ≠ 0 := (Real.sqrt_pos.2 (hv _)).ne'
      rw [h.step s t hst h0 hlt, standardised_sub]
      simp only [splitDrift, splitVol]
      field_simp
      ring
    have hq : (Fintype.card J : ℝ) ≠ 0 := by exact_mod_cast Fintype.card_ne_zero
    simp only [total] at e ⊢
    rw [Finset.sum_congr rfl fun j _ => e j, Finset.sum_add_distrib, Finset.sum_add_distrib, Finset.sum_const,
      Finset.card_univ, nsmul_eq_mul]
    field_simp

/-- Sums for each source, that add up to given ones. -/
theorem exists_split [Nonempty J] (hv : ∀ j, 0 < v j) {grid : List ℝ} (hg : grid.Pairwise (· < ·)) (h0 : t0 ∈ grid)
    {Y : ℝ → Ω → J × ι → ℝ} {R : ℝ → Ω → ι → ℝ} (h : AreSums a b t0 x0 grid Z (fun u ω => total (Y u ω)) R) :
    ∃ R' : ℝ → Ω → J × ι → ℝ,
      IsSums (splitDrift a b m) (splitVol b v) t0 (share x0) grid (standardised m v t0 Z) Y R' ∧
      ∀ u ∈ grid, t0 ≤ u → R u = fun ω => total (R' u ω) := by
  obtain ⟨R', hR'⟩ := exists_isSums hg h0 (splitDrift a b m) (splitVol b v) (share x0) (standardised m v t0 Z) Y
  exact ⟨R', hR', areSums_unique hg h0 h (split_sums hv hR') fun _ _ _ _ => rfl⟩

/-- The Euler scheme for each source, that adds up to a given one. -/
theorem exists_split_scheme [Nonempty J] (hv : ∀ j, 0 < v j) {grid : List ℝ} (hg : grid.Pairwise (· < ·))
    (h0 : t0 ∈ grid) {X : ℝ → Ω → ι → ℝ} (h : AreSums a b t0 x0 grid Z X X) :
    ∃ X' : ℝ → Ω → J × ι → ℝ,
      IsScheme (splitDrift a b m) (splitVol b v) t0 (share x0) grid (standardised m v t0 Z) X' ∧
      ∀ u ∈ grid, t0 ≤ u → X u = fun ω => total (X' u ω) := by
  obtain ⟨X', hX'⟩ := exists_sums hg h0 (splitDrift a b m) (splitVol b v) (share x0) (standardised m v t0 Z)
  exact ⟨X', hX', areSums_unique hg h0 h (split_sums hv (scheme_sums hX')) fun _ _ _ e => e⟩

/-! ### Convergence -/

theorem schemes_close_all [Nonempty J] (hT : 0 ≤ T) (h : LipschitzCoefs a b t0 T L) (x0 : ι → ℝ) (m : J → ℝ)
    (hv : ∀ j, 0 < v j) :
    ∃ K ≥ 0, ∀ {Ω : Type} [MeasurableSpace Ω] {P : Measure Ω} [IsProbabilityMeasure P] {D : Set ℝ}
      {Z : ℝ → Ω → J × ι → ℝ} {X1 X2 : ℝ → Ω → ι → ℝ} {grid1 grid2 : List ℝ} {δ : ℝ}, Noises P t0 D m v Z → 0 ≤ δ →
      grid1.Pairwise (· < ·) → t0 ∈ grid1 → (∀ u ∈ grid1, u ∈ D) → Mesh grid1 δ →
      grid2.Pairwise (· < ·) → t0 ∈ grid2 → (∀ u ∈ grid2, u ∈ D) → Mesh grid2 δ →
      AreSums a b t0 x0 grid1 Z X1 X1 → AreSums a b t0 x0 grid2 Z X2 X2 →
      ∀ t ∈ grid1, t ∈ grid2 → t0 ≤ t → t ≤ t0 + T →
        (∀ i, MemLp (fun ω => X1 t ω i) 2 P) ∧ (∀ i, MemLp (fun ω => X2 t ω i) 2 P) ∧
        meanSq P (fun ω i => X1 t ω i - X2 t ω i) ≤ K * δ := by
  obtain ⟨L', hL'⟩ := split_lipschitz (m := m) (fun j => (hv j).le) h
  obtain ⟨K, hK, hc⟩ := schemes_close hT hL' (share x0)
  refine ⟨Fintype.card J * K, by positivity, ?_⟩
  intro Ω _ P _ D Z X1 X2 grid1 grid2 δ hZ hδ hg1 h01 hD1 hm1 hg2 h02 hD2 hm2 hX1 hX2 t ht1 ht2 h0t htT
  obtain ⟨X1', s1, e1⟩ := exists_split_scheme (m := m) hv hg1 h01 hX1
  obtain ⟨X2', s2, e2⟩ := exists_split_scheme (m := m) hv hg2 h02 hX2
  obtain ⟨k1, k2, k3⟩ := hc (drives_standardised hv hZ) hδ hg1 h01 hD1 hm1 hg2 h02 hD2 hm2 s1 s2 t ht1 ht2 h0t htT
  rw [e1 t ht1 h0t, e2 t ht2 h0t]
  refine ⟨total_memLp k1, total_memLp k2, (meanSq_total k1 k2).trans ?_⟩
  rw [mul_assoc]
  exact mul_le_mul_of_nonneg_left k3 (Nat.cast_nonneg _)

theorem exists_solution_all [Nonempty J] (hT : 0 ≤ T) (h : LipschitzCoefs a b t0 T L) (x0 : ι → ℝ) (m : J → ℝ)
    (hv : ∀ j, 0 < v j) :
    ∃ K ≥ 0, ∀ {Ω : Type} [MeasurableSpace Ω] {P : Measure Ω} [IsProbabilityMeasure P]
      {Z : ℝ → Ω → J × ι → ℝ}, Noises P t0 (Set.Icc t0 (t0 + T)) m v Z →
      ∃ Y : ℝ → Ω → ι → ℝ, Solves P a b t0 T x0 Z Y ∧
        ∀ {X : ℝ → Ω → ι → ℝ} {grid : List ℝ} {δ : ℝ}, 0 ≤ δ →
          grid.Pairwise (· < ·) → t0 ∈ grid → (∀ u ∈ grid, u ∈ Set.Icc t0 (t0 + T)) → Mesh grid δ →
          AreSums a b t0 x0 grid Z X X → ∀ t ∈ grid,
            (∀ i, MemLp (fun ω => X t ω i) 2 P) ∧ meanSq P (fun ω i => X t ω i - Y t ω i) ≤ K * δ := by
  obtain ⟨L', hL'⟩ := split_lipschitz (m := m) (fun j => (hv j).le) h
  obtain ⟨K, hK, hs⟩ := exists_solution hT hL' (share x0)
  obtain ⟨M, hM, hsums⟩ := sums_close hT hL'
  have hq : (0 : ℝ) < Fintype.card J := by exact_mod_cast Fintype.card_pos
  refine ⟨Fintype.card J * K, by positivity, ?_⟩
  intro Ω _ P _ Z hZ
  have hW := drives_standardised hv hZ
  obtain ⟨ξ, hξ, hX⟩ := hs hW
  refine ⟨fun u ω => total (ξ u ω), ⟨fun t ht => ?_, fun t ht => total_memLp (hξ.memLp t ht), fun ε hε => ?_⟩, ?_⟩
  · exact ((knownAt_standardised hv).1 (hξ.known t ht)).comp measurable_total
  · obtain ⟨δ, hδ, hd⟩ := hξ.integral (ε / Fintype.card J) (by positivity)
    refine ⟨δ, hδ, fun grid R hg h0 hgI hm hR t ht => ?_⟩
    obtain ⟨R', hR', e⟩ := exists_split (m := m) hv hg h0 hR
    have hR'm := (hsums hW (ρ := 0) le_rfl hg h0 hgI hR' hR' (fun u hu _ _ =>
      ⟨hξ.known u (hgI u hu), hξ.known u (hgI u hu), hξ.memLp u (hgI u hu), hξ.memLp u (hgI u hu), by
        simp [meanSq]⟩) t ht (hgI t ht).1 (hgI t ht).2).2.2.1
    rw [e t ht (hgI t ht).1]
    refine (meanSq_total (hξ.memLp t (hgI t ht)) hR'm).trans ?_
    have := mul_le_mul_of_nonneg_left (hd grid R' hg h0 hgI hm hR' t ht) hq.le
    rwa [mul_div_cancel₀ _ hq.ne'] at this
  · intro X grid δ hδ hg h0 hgI hm hXs t ht
    obtain ⟨X', s1, e1⟩ := exists_split_scheme (m := m) hv hg h0 hXs
    obtain ⟨k1, k2⟩ := hX hδ hg h0 hgI hm s1 t ht
    rw [e1 t ht (hgI t ht).1]
    refine ⟨total_memLp k1, (meanSq_total k1 (hξ.memLp t (hgI t ht))).trans ?_⟩
    rw [mul_assoc]
    exact mul_le_mul_of_nonneg_left k2 hq.le

theorem share_memLp {X : Ω → ι → ℝ} (hX : ∀ i, MemLp (fun ω => X ω i) 2 P) (c : J × ι) :
    MemLp (fun ω => share (X ω) c) 2 P := by
  have := (hX c.2).mul_const (Fintype.card J : ℝ)⁻¹
  simp only [share, div_eq_mul_inv]
  exact this

theorem exists_areSums [Nonempty J] (hv : ∀ j, 0 < v j) (m : J → ℝ) {grid : List ℝ} (hg : grid.Pairwise (· < ·))
    (h0 : t0 ∈ grid) (Y : ℝ → Ω → ι → ℝ) :
    ∃ R' : ℝ → Ω → J × ι → ℝ,
      IsSums (splitDrift a b m) (splitVol b v) t0 (share x0) grid (standardised m v t0 Z) (fun u ω => share (Y u ω)) R' ∧
      AreSums a b t0 x0 grid Z Y fun u ω => total (R' u ω) := by
  obtain ⟨R', hR'⟩ := exists_isSums hg h0 (splitDrift a b m) (splitVol b v) (share x0) (standardised m v t0 Z)
    fun u ω => share (Y u ω)
  refine ⟨R', hR', ?_⟩
  have := split_sums hv hR'
  simpa only [total_share] using this

theorem solution_unique_all [Nonempty J] [IsProbabilityMeasure P] (hT : 0 ≤ T) (h : LipschitzCoefs a b t0 T L)
    (hv : ∀ j, 0 < v j) (hZ : Noises P t0 (Set.Icc t0 (t0 + T)) m v Z) {Y1 Y2 : ℝ → Ω → ι → ℝ}
    (h1 : Solves P a b t0 T x0 Z Y1) (h2 : Solves P a b t0 T x0 Z Y2) :
    ∀ t ∈ Set.Icc t0 (t0 + T), meanSq P (fun ω i => Y1 t ω i - Y2 t ω i) = 0 := by
  obtain ⟨L', hL'⟩ := split_lipschitz (m := m) (fun j => (hv j).le) h
  obtain ⟨M, hM, hsums⟩ := sums_close hT hL'
  have hW := drives_standardised hv hZ
  intro t ht
  refine le_antisymm (le_of_forall_pos_le_add fun η hη => ?_) (meanSq_nonneg _)
  rw [zero_add]
  have hq : (0 : ℝ) < Fintype.card J := by exact_mod_cast Fintype.card_pos
  set q : ℝ := (Fintype.card J : ℝ) with hqd
  obtain ⟨ε, hε, hle⟩ : ∃ ε > 0, 3 * (M * (6 * ε)) + 6 * ε ≤ η := by
    have hc : 0 < 18 * M + 6 + 1 := by positivity
    refine ⟨η / (18 * M + 6 + 1), by positivity, ?_⟩
    have e : 3 * (M * (6 * (η / (18 * M + 6 + 1)))) + 6 * (η / (18 * M + 6 + 1)) =
        η * ((18 * M + 6) / (18 * M + 6 + 1)) := by ring
    rw [e]
    refine mul_le_of_le_one_right hη.le ?_
    rw [div_le_one hc]
    linarith
  obtain ⟨δ1, d1, e1⟩ := h1.integral ε hε
  obtain ⟨δ2, d2, e2⟩ := h2.integral ε hε
  obtain ⟨grid, g1, g2, g3, g4, g5⟩ := exists_grid (lt_min d1 d2) ht
  obtain ⟨R1, hR1, hS1⟩ := exists_areSums (a := a) (b := b) (x0 := x0) (Z := Z) hv m g1 g2 Y1
  obtain ⟨R2, hR2, hS2⟩ := exists_areSums (a := a) (b := b) (x0 := x0) (Z := Z) hv m g1 g2 Y2
  have f1 := e1 grid _ g1 g2 g4 (g5.mono (min_le_left _ _)) hS1
  have f2 := e2 grid _ g1 g2 g4 (g5.mono (min_le_right _ _)) hS2
  have hkn : ∀ {Y : ℝ → Ω → ι → ℝ}, Solves P a b t0 T x0 Z Y → ∀ u ∈ grid,
      KnownAt (Set.Icc t0 (t0 + T)) (standardised m v t0 Z) u fun ω => share (J := J) (Y u ω) :=
    fun hY u hu => ((knownAt_standardised hv).2 (hY.known u (g4 u hu))).comp measurable_share
  have hml : ∀ {Y : ℝ → Ω → ι → ℝ}, Solves P a b t0 T x0 Z Y → ∀ u ∈ grid, ∀ c,
      MemLp (fun ω => share (J := J) (Y u ω) c) 2 P := fun hY u hu => share_memLp (hY.memLp u (g4 u hu))
  have hR : ∀ {Y : ℝ → Ω → ι → ℝ} {R : ℝ → Ω → J × ι → ℝ}, Solves P a b t0 T x0 Z Y →
      IsSums (splitDrift a b m) (splitVol b v) t0 (share x0) grid (standardised m v t0 Z)
        (fun u ω => share (Y u ω)) R → ∀ u ∈ grid, ∀ c, MemLp (fun ω => R u ω c) 2 P := by
    intro Y R hY hR u hu
    exact (hsums hW (ρ := 0) le_rfl g1 g2 g4 hR hR (fun w hw _ _ => ⟨hkn hY w hw, hkn hY w hw,
      hml hY w hw, hml hY w hw, by simp [meanSq]⟩) u hu (g4 u hu).1 (g4 u hu).2).2.2.1
  have hb : ∀ u ∈ grid, meanSq P (fun ω i => Y1 u ω i - Y2 u ω i) ≤
      3 * (q * meanSq P (fun ω c => R1 u ω c - R2 u ω c)) + 6 * ε := by
    intro u hu
    have n1 := hR h1 hR1 u hu
    have n2 := hR h2 hR2 u hu
    have m1 := total_memLp n1
    have m2 := total_memLp n2
    have := meanSq_three (P := P) (X := fun ω i => total (R1 u ω) i - total (R2 u ω) i)
      (Y := fun ω i => total (R1 u ω) i - Y1 u ω i)
      (Z := fun ω i => total (R2 u ω) i - Y2 u ω i) (fun i => (m1 i).sub (m2 i))
      (fun i => (m1 i).sub (h1.memLp u (g4 u hu) i)) (fun i => (m2 i).sub (h2.memLp u (g4 u hu) i))
    have e : (fun ω i => Y1 u ω i - Y2 u ω i) = fun ω i => (total (R1 u ω) i - total (R2 u ω) i) -
        (total (R1 u ω) i - Y1 u ω i) + (total (R2 u ω) i - Y2 u ω i) := by
      funext ω i; ring
    rw [e]
    refine this.trans ?_
    have k1 := f1 u hu
    have k2 := f2 u hu
    have k3 := meanSq_total n1 n2
    rw [meanSq_comm] at k1 k2
    linarith
  have hb' : ∀ u ∈ grid, meanSq P (fun ω (c : J × ι) => share (Y1 u ω) c - share (Y2 u ω) c) ≤
      3 * meanSq P (fun ω c => R1 u ω c - R2 u ω c) + 6 * ε / q := by
    intro u hu
    have := hb u hu
    rw [← meanSq_share (J := J)] at this
    refine le_of_mul_le_mul_left ?_ hq
    rw [mul_add, mul_div_cancel₀ _ hq.ne']
    linarith
  have hc := (hsums hW (ρ := 6 * ε / q) (by positivity) g1 g2 g4 hR1 hR2 (fun u hu _ _ =>
    ⟨hkn h1 u hu, hkn h2 u hu, hml h1 u hu, hml h2 u hu, hb' u hu⟩) t g3 ht.1 ht.2).2.2.2.2
  have := hb t g3
  have h3 := mul_le_mul_of_nonneg_left hc hq.le
  have e : q * (M * (6 * ε / q)) = M * (6 * ε) := by field_simp
  rw [e] at h3
  linarith

end

end Sdepy
