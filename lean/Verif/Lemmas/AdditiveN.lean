import Verif.Lemmas.Additive

/-!
# Additive noise: many sources, and errors with respect to solutions
-/

set_option linter.unusedSectionVars false

open MeasureTheory ProbabilityTheory

namespace Sdepy

open Spec

section
variable {Ω ι J : Type} [MeasurableSpace Ω] [Fintype ι] [Fintype J] {P : Measure Ω}
  {a : ℝ → (ι → ℝ) → ι → ℝ} {b : J → ℝ → ι → ℝ} {t0 T L : ℝ} {x0 : ι → ℝ} {m v : J → ℝ}
  {Z : ℝ → Ω → J × ι → ℝ} {D : Set ℝ}

/-- The constant may be taken not to be negative. -/
theorem _root_.Sdepy.Spec.AdditiveNoise.abs (h : AdditiveNoise a b t0 T L) : AdditiveNoise a b t0 T |L| where
  drift t ht u hu x y := (h.drift t ht u hu x y).trans (mul_le_mul_of_nonneg_right (le_abs_self L)
    (add_nonneg (sumSq_nonneg _) (mul_nonneg (add_nonneg zero_le_one (sumSq_nonneg _)) (sq_nonneg _))))
  noise t ht u hu := (h.noise t ht u hu).trans (mul_le_mul_of_nonneg_right (le_abs_self L) (sq_nonneg _))
  smooth t ht x := by
    obtain ⟨A, hA⟩ := h.smooth t ht x
    exact ⟨A, fun z => (hA z).trans (mul_le_mul_of_nonneg_right (le_abs_self L) (sq_nonneg _))⟩

theorem _root_.Sdepy.Spec.AdditiveNoise.lipschitz (h : AdditiveNoise a b t0 T L) (hT : 0 ≤ T) :
    LipschitzCoefs a (fun j t _ => b j t) t0 T (2 * |L| * (1 + T)) := by
  intro t ht u hu x y
  have h1 := h.abs.drift t ht u hu x y
  have h2 := h.abs.noise t ht u hu
  have hx := sumSq_nonneg x
  have hd := sumSq_nonneg fun i => x i - y i
  have h3 : |t - u| ≤ T := by
    rw [abs_le]
    constructor <;> linarith [ht.1, ht.2, hu.1, hu.2]
  have h4 : (t - u) ^ 2 ≤ (1 + T) * |t - u| := by
    rw [← sq_abs]
    nlinarith [abs_nonneg (t - u)]
  have hn := abs_nonneg L
  rw [Finset.sum_add_distrib]
  set p := ∑ i, (x i - y i) ^ 2
  set q := ∑ i, x i ^ 2
  have h0 := abs_nonneg (t - u)
  have h5 : |L| * (p + (1 + q) * (t - u) ^ 2) + |L| * (t - u) ^ 2 ≤ |L| * (p + 2 * ((1 + q) * (t - u) ^ 2)) := by
    rw [← mul_add]
    refine mul_le_mul_of_nonneg_left ?_ hn
    nlinarith [mul_nonneg hx (sq_nonneg (t - u))]
  have h6 : p + 2 * ((1 + q) * (t - u) ^ 2) ≤ 2 * (1 + T) * (p + (1 + q) * |t - u|) := by
    have : (1 + q) * (t - u) ^ 2 ≤ (1 + q) * ((1 + T) * |t - u|) := by gcongr
    nlinarith [mul_nonneg hT hd]
  have h7 := mul_le_mul_of_nonneg_left h6 hn
  have e : |L| * (2 * (1 + T) * (p + (1 + q) * |t - u|)) = 2 * |L| * (1 + T) * (p + (1 + q) * |t - u|) := by ring
  linarith

/-- Values of each source, added up, as a linear function. -/
def totalₗ : (J × ι → ℝ) →ₗ[ℝ] (ι → ℝ) where
  toFun := total
  map_add' x y := by funext i; simp [total, Finset.sum_add_distrib]
  map_smul' c x := by funext i; simp [total, Finset.mul_sum]

/-- Values split equally among sources, as a linear function. -/
noncomputable def shareₗ : (ι → ℝ) →ₗ[ℝ] (J × ι → ℝ) where
  toFun := share
  map_add' x y := by funext i; simp [share, add_div]
  map_smul' c x := by funext i; simp [share, mul_div_assoc]

/-- Sums over sources of the square of values split equally. -/
theorem share_sq [Nonempty J] (x : ι → ℝ) : ∑ c : J × ι, share x c ^ 2 ≤ ∑ i, x i ^ 2 := by
  have hq : (1 : ℝ) ≤ Fintype.card J := by exact_mod_cast Fintype.card_pos
  rw [Fintype.sum_prod_type, Finset.sum_comm]
  refine Finset.sum_le_sum fun i _ => ?_
  simp only [share, Finset.sum_const, Finset.card_univ, nsmul_eq_mul]
  rw [div_pow, mul_div_assoc']
  rw [div_le_iff₀ (by positivity)]
  nlinarith [mul_nonneg (sq_nonneg (x i)) (sub_nonneg.2 hq)]

theorem split_additive [Nonempty J] (hv : ∀ j, 0 ≤ v j) (h : AdditiveNoise a b t0 T L) :
    ∃ Λ, AddNoise (splitDrift a (fun j t _ => b j t) m) (fun t (c : J × ι) => √(v c.1) * b c.1 t c.2) t0 T Λ := by
  let q : ℝ := Fintype.card J
  have hq : 1 ≤ q := by
    have : 1 ≤ Fintype.card J := Fintype.card_pos
    show (1 : ℝ) ≤ (Fintype.card J : ℝ)
    exact_mod_cast this
  let C : ℝ := ∑ j, (m j ^ 2 + v j)
  have hC0 : ∀ j, 0 ≤ m j ^ 2 + v j := fun j => by have := hv j; positivity
  have hCj : ∀ j, m j ^ 2 + v j ≤ C := fun j =>
    Finset.single_le_sum (f := fun j => m j ^ 2 + v j) (fun j _ => hC0 j) (Finset.mem_univ j)
  have hC : 0 ≤ C := Finset.sum_nonneg fun j _ => hC0 j
  have hL := abs_nonneg L
  have hnoise : ∀ t ∈ Set.Icc t0 (t0 + T), ∀ u ∈ Set.Icc t0 (t0 + T),
      ∑ c : J × ι, (b c.1 t c.2 - b c.1 u c.2) ^ 2 ≤ |L| * (t - u) ^ 2 := by
    intro t ht u hu
    rw [Fintype.sum_prod_type, Finset.sum_comm]
    exact h.abs.noise t ht u hu
  have hbound : ∀ w : J × ι → ℝ, (∀ c, 0 ≤ w c) → ∀ k : J → ℝ, (∀ j, k j ≤ C) →
      ∑ c, k c.1 * w c ≤ C * ∑ c, w c := by
    intro w hw k hk
    rw [Finset.mul_sum]
    exact Finset.sum_le_sum fun c _ => mul_le_mul_of_nonneg_right (hk c.1) (hw c)
  refine ⟨2 * |L| * q + 2 * (C * |L|) + |L| * q ^ 2, ?_, ?_, ?_, ?_⟩
  · positivity
  · intro t ht u hu x y
    have h1 := h.abs.drift t ht u hu (total x) (total y)
    have h4 : ∑ i, (total x i - total y i) ^ 2 ≤ q * ∑ c, (x c - y c) ^ 2 := by
      have := total_sq fun c => x c - y c
      simpa only [total_sub] using this
    have h5 : ∑ i, total x i ^ 2 ≤ q * ∑ c, x c ^ 2 := total_sq x
    have h6 := share_sq (J := J) fun i => a t (total x) i - a u (total y) i
    have h7 := hnoise t ht u hu
    have h8 := hbound (fun c => (b c.1 t c.2 - b c.1 u c.2) ^ 2) (fun c => sq_nonneg _) (fun j => m j ^ 2)
      fun j => by have := hCj j; have := hv j; linarith
    have h9 : ∑ c : J × ι, (splitDrift a (fun j t _ => b j t) m t x c - splitDrift a (fun j t _ => b j t) m u y c) ^ 2 ≤
        2 * ∑ c : J × ι, share (fun i => a t (total x) i - a u (total y) i) c ^ 2 +
          2 * ∑ c : J × ι, m c.1 ^ 2 * (b c.1 t c.2 - b c.1 u c.2) ^ 2 := by
      rw [Finset.mul_sum, Finset.mul_sum, ← Finset.sum_add_distrib]
      refine Finset.sum_le_sum fun c _ => ?_
      simp only [splitDrift, share]
      generalize a t (total x) c.2 = a1, a u (total y) c.2 = a2, b c.1 t c.2 = b1, b c.1 u c.2 = b2
      have e : a1 / (Fintype.card J : ℝ) + b1 * m c.1 - (a2 / (Fintype.card J : ℝ) + b2 * m c.1) =
          (a1 - a2) / (Fintype.card J : ℝ) + m c.1 * (b1 - b2) := by ring
      rw [e]
      nlinarith [sq_nonneg ((a1 - a2) / (Fintype.card J : ℝ) - m c.1 * (b1 - b2))]
    set p := ∑ c, (x c - y c) ^ 2 with hp
    set r := ∑ c, x c ^ 2 with hr
    have hp0 : 0 ≤ p := sumSq_nonneg fun c => x c - y c
    have hr0 : 0 ≤ r := sumSq_nonneg x
    have hτ := sq_nonneg (t - u)
    have h10 : ∑ i, (total x i - total y i) ^ 2 + (1 + ∑ i, total x i ^ 2) * (t - u) ^ 2 ≤
        q * (p + (1 + r) * (t - u) ^ 2) := by
      have : (1 + ∑ i, total x i ^ 2) * (t - u) ^ 2 ≤ (q * (1 + r)) * (t - u) ^ 2 := by
        refine mul_le_mul_of_nonneg_right ?_ hτ
        linarith
      nlinarith
    have h11 := h1.trans (mul_le_mul_of_nonneg_left h10 hL)
    have h12 := mul_le_mul_of_nonneg_left h7 hC
    have h13 : (t - u) ^ 2 ≤ p + (1 + r) * (t - u) ^ 2 := by nlinarith
    have h14 := mul_le_mul_of_nonneg_left h13 (mul_nonneg hC hL)
    have h15 : 0 ≤ |L| * q ^ 2 * (p + (1 + r) * (t - u) ^ 2) := by positivity
    have e : (2 * |L| * q + 2 * (C * |L|) + |L| * q ^ 2) * (p + (1 + r) * (t - u) ^ 2) =
        2 * (|L| * (q * (p + (1 + r) * (t - u) ^ 2))) + 2 * (C * |L| * (p + (1 + r) * (t - u) ^ 2)) +
          |L| * q ^ 2 * (p + (1 + r) * (t - u) ^ 2) := by ring
    rw [e]
    linarith
  · intro t ht u hu
    have h7 := hnoise t ht u hu
    have h8 := hbound (fun c => (b c.1 t c.2 - b c.1 u c.2) ^ 2) (fun c => sq_nonneg _) v
      fun j => by have := hCj j; nlinarith [sq_nonneg (m j)]
    have e : ∑ c : J × ι, (√(v c.1) * b c.1 t c.2 - √(v c.1) * b c.1 u c.2) ^ 2 =
        ∑ c : J × ι, v c.1 * (b c.1 t c.2 - b c.1 u c.2) ^ 2 :=
      Finset.sum_congr rfl fun c _ => by rw [← mul_sub, mul_pow, Real.sq_sqrt (hv c.1)]
    rw [e]
    have h12 := mul_le_mul_of_nonneg_left h7 hC
    have : 0 ≤ (2 * |L| * q + C * |L| + |L| * q ^ 2) * (t - u) ^ 2 := by positivity
    linarith
  · intro t ht x
    obtain ⟨A, hA⟩ := h.abs.smooth t ht (total x)
    refine ⟨shareₗ ∘ₗ A ∘ₗ totalₗ, fun z => ?_⟩
    have h1 := hA (total z)
    have h2 := share_sq (J := J) fun i => a t (total x + total z) i - a t (total x) i - A (total z) i
    have e : ∀ c : J × ι, splitDrift a (fun j t _ => b j t) m t (x + z) c - splitDrift a (fun j t _ => b j t) m t x c -
        (shareₗ ∘ₗ A ∘ₗ totalₗ) z c =
        share (fun i => a t (total x + total z) i - a t (total x) i - A (total z) i) c := by
      intro c
      have e1 : total (x + z) = total x + total z := (totalₗ (J := J) (ι := ι)).map_add x z
      simp only [splitDrift, share, e1, LinearMap.comp_apply]
      show _ - share (A (total z)) c = _
      simp only [share]
      ring
    simp only [e]
    refine h2.trans (h1.trans ?_)
    have h3 : (∑ i, total z i ^ 2) ^ 2 ≤ (q * ∑ c, z c ^ 2) ^ 2 := by
      have := total_sq z
      have h0 := sumSq_nonneg (total z)
      gcongr
    have h4 := mul_le_mul_of_nonneg_left h3 hL
    have h5 : 0 ≤ (2 * |L| * q + 2 * (C * |L|)) * (∑ c, z c ^ 2) ^ 2 := by positivity
    have e2 : (2 * |L| * q + 2 * (C * |L|) + |L| * q ^ 2) * (∑ c, z c ^ 2) ^ 2 =
        (2 * |L| * q + 2 * (C * |L|)) * (∑ c, z c ^ 2) ^ 2 + |L| * (q * ∑ c, z c ^ 2) ^ 2 := by ring
    rw [e2]
    linarith

/-- **Schemes along a grid and a finer one, with any number of sources.** -/
theorem nested_close_all [Nonempty J] (hT : 0 ≤ T) (h : AdditiveNoise a b t0 T L) (x0 : ι → ℝ) (m : J → ℝ)
    (hv : ∀ j, 0 < v j) :
    ∃ K ≥ 0, ∀ {Ω : Type} [MeasurableSpace Ω] {P : Measure Ω} [IsProbabilityMeasure P] {D : Set ℝ}
      {Z : ℝ → Ω → J × ι → ℝ} {X1 X2 : ℝ → Ω → ι → ℝ} {grid1 grid2 : List ℝ} {δ : ℝ}, Noises P t0 D m v Z → 0 < δ →
      grid1.Pairwise (· < ·) → t0 ∈ grid1 → (∀ u ∈ grid1, u ∈ D) → Mesh grid1 δ →
      grid2.Pairwise (· < ·) → t0 ∈ grid2 → (∀ u ∈ grid2, u ∈ D) → Mesh grid2 δ → (∀ u ∈ grid1, u ∈ grid2) →
      AreSums a (fun j t _ => b j t) t0 x0 grid1 Z X1 X1 → AreSums a (fun j t _ => b j t) t0 x0 grid2 Z X2 X2 →
      ∀ t ∈ grid1, t0 ≤ t → t ≤ t0 + T → meanSq P (fun ω i => X1 t ω i - X2 t ω i) ≤ K * δ ^ 2 := by
  obtain ⟨L', hL'⟩ := split_lipschitz (m := m) (fun j => (hv j).le) (h.lipschitz hT)
  obtain ⟨Λ, hΛ⟩ := split_additive (m := m) (fun j => (hv j).le) h
  obtain ⟨K, hK, hc⟩ := nested_close hT hΛ (share x0)
  obtain ⟨K0, -, hc'⟩ := schemes_close hT hL' (share x0)
  refine ⟨Fintype.card J * K, by positivity, ?_⟩
  intro Ω _ P _ D Z X1 X2 grid1 grid2 δ hZ hδ hg1 h01 hD1 hm1 hg2 h02 hD2 hm2 hsub hX1 hX2 t ht1 h0t htT
  obtain ⟨X1', s1, e1⟩ := exists_split_scheme (m := m) hv hg1 h01 hX1
  obtain ⟨X2', s2, e2⟩ := exists_split_scheme (m := m) hv hg2 h02 hX2
  have hW := drives_standardised hv hZ
  obtain ⟨k1, k2, -⟩ := hc' hW hδ.le hg1 h01 hD1 hm1 hg2 h02 hD2 hm2 s1 s2 t ht1 (hsub t ht1) h0t htT
  have k3 := hc hW hδ hg1 h01 hD1 hm1 hg2 h02 hD2 hm2 hsub s1 s2 t ht1 h0t htT
  rw [e1 t ht1 h0t, e2 t (hsub t ht1) h0t]
  refine (meanSq_total k1 k2).trans ?_
  rw [mul_assoc]
  exact mul_le_mul_of_nonneg_left k3 (Nat.cast_nonneg _)

/-! ### Finer grids -/

/-- There are grids finer than a given one, with steps as short as needed. -/
theorem exists_finer {grid : List ℝ} (h0 : t0 ∈ grid) (hI : ∀ u ∈ grid, u ∈ Set.Icc t0 (t0 + T)) {η : ℝ}
    (hη : 0 < η) : ∃ grid' : List ℝ, grid'.Pairwise (· < ·) ∧ t0 ∈ grid' ∧ (∀ u ∈ grid, u ∈ grid') ∧
      (∀ u ∈ grid', u ∈ Set.Icc t0 (t0 + T)) ∧ Mesh grid' η := by
  have hT : 0 ≤ T := by have := (hI t0 h0).2; linarith
  obtain ⟨g, g1, g2, g3, g4, g5⟩ := exists_grid hη (t := t0 + T) (t0 := t0) (T := T) ⟨by linarith, le_rfl⟩
  let M := (grid ++ g).toFinset.sort (· ≤ ·)
  have hmem : ∀ u, u ∈ M ↔ u ∈ grid ∨ u ∈ g := fun u => by simp [M]
  have hMI : ∀ u ∈ M, u ∈ Set.Icc t0 (t0 + T) := fun u hu => ((hmem u).1 hu).elim (hI u) (g4 u)
  refine ⟨M, (Finset.sortedLT_sort _).pairwise, (hmem _).2 (.inl h0), fun u hu => (hmem u).2 (.inl hu), hMI, ?_⟩
  intro p hp r hr hpr hno
  by_contra hc
  have hc := not_le.1 hc
  have hw1 : p < (p + η + r) / 2 := by linarith
  have hw2 : (p + η + r) / 2 < r := by linarith
  have h0w : t0 ≤ (p + η + r) / 2 := (hMI p hp).1.trans hw1.le
  obtain ⟨q1, q2, q3, q4⟩ := lastAt_spec g1 g2 h0w
  have hle : lastAt g ((p + η + r) / 2) ≤ p := by
    by_contra hcc
    exact hno _ ((hmem _).2 (.inr q1)) ⟨not_le.1 hcc, q3.trans_lt hw2⟩
  have := lastAt_mesh g1 g2 h0w g3 (hw2.le.trans (hMI r hr).2) g5 hη.le
  linarith

/-- **With additive noise, errors with respect to solutions are of order one.** -/
theorem order_one [Nonempty J] (hT : 0 ≤ T) (h : AdditiveNoise a b t0 T L) (x0 : ι → ℝ) (m : J → ℝ)
    (hv : ∀ j, 0 < v j) :
    ∃ K ≥ 0, ∀ {Ω : Type} [MeasurableSpace Ω] {P : Measure Ω} [IsProbabilityMeasure P]
      {Z : ℝ → Ω → J × ι → ℝ}, Noises P t0 (Set.Icc t0 (t0 + T)) m v Z →
      ∀ {Y : ℝ → Ω → ι → ℝ}, Solves P a (fun j t _ => b j t) t0 T x0 Z Y →
        ∀ {X : ℝ → Ω → ι → ℝ} {grid : List ℝ} {δ : ℝ}, 0 < δ →
          grid.Pairwise (· < ·) → t0 ∈ grid → (∀ u ∈ grid, u ∈ Set.Icc t0 (t0 + T)) → Mesh grid δ →
          AreSums a (fun j t _ => b j t) t0 x0 grid Z X X → ∀ t ∈ grid,
            meanSq P (fun ω i => X t ω i - Y t ω i) ≤ K * δ ^ 2 := by
  obtain ⟨K, hK, hc⟩ := nested_close_all hT h x0 m hv
  obtain ⟨K', hK', hs⟩ := exists_solution_all hT (h.lipschitz hT) x0 m hv
  refine ⟨2 * K, by positivity, ?_⟩
  intro Ω _ P _ Z hZ Y hY X grid δ hδ hg h0 hI hm hX t ht
  obtain ⟨Y', hY', hlim⟩ := hs hZ
  have huniq := solution_unique_all hT (h.lipschitz hT) hv hZ hY' hY t (hI t ht)
  obtain ⟨lX, -⟩ := hlim hδ.le hg h0 hI hm hX t ht
  refine le_of_forall_pos_le_add fun ε hε => ?_
  obtain ⟨η, hη, hηδ, hle⟩ : ∃ η > 0, η ≤ δ ∧ 4 * (K' * η) ≤ ε := by
    refine ⟨min δ (ε / (4 * K' + 1)), lt_min hδ (by positivity), min_le_left _ _, ?_⟩
    have h1 : min δ (ε / (4 * K' + 1)) ≤ ε / (4 * K' + 1) := min_le_right _ _
    have h2 : 4 * (K' * (ε / (4 * K' + 1))) = ε * ((4 * K') / (4 * K' + 1)) := by ring
    have h3 : (4 * K') / (4 * K' + 1) ≤ 1 := by
      rw [div_le_one (by positivity)]
      linarith
    calc 4 * (K' * min δ (ε / (4 * K' + 1))) ≤ 4 * (K' * (ε / (4 * K' + 1))) := by gcongr
      _ ≤ ε := by rw [h2]; exact mul_le_of_le_one_right hε.le h3
  obtain ⟨g, g1, g2, g3, g4, g5⟩ := exists_finer h0 hI hη
  obtain ⟨X2, hX2⟩ : ∃ X2 : ℝ → Ω → ι → ℝ, AreSums a (fun j t _ => b j t) t0 x0 g Z X2 X2 := by
    obtain ⟨X', hX'⟩ := exists_sums g1 g2 (splitDrift a (fun j t _ => b j t) m) (splitVol (fun j t _ => b j t) v)
      (share x0) (standardised m v t0 Z)
    exact ⟨_, split_sums hv (scheme_sums hX')⟩
  obtain ⟨l2, k2⟩ := hlim hη.le g1 g2 g4 g5 hX2 t (g3 t ht)
  have k1 := hc hZ hδ hg h0 hI hm g1 g2 g4 (g5.mono hηδ) g3 hX hX2 t ht (hI t ht).1 (hI t ht).2
  have lY := hY.memLp t (hI t ht)
  have lY' := hY'.memLp t (hI t ht)
  have j1 := meanSq_two (P := P) lX l2 lY
  have j2 := meanSq_two (P := P) l2 lY' lY
  rw [huniq, add_zero] at j2
  linarith

end

end Sdepy
