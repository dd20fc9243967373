import Verif.Props.McLaw
import Verif.Props.McPdf

/-!
# C107: skewness, kurtosis, densities and distribution functions estimated by `montecarlo`
-/

set_option linter.unusedSectionVars false

namespace Sdepy

open Spec MeasureTheory ProbabilityTheory Filter Topology

variable {Ω : Type} [MeasurableSpace Ω] {P : Measure Ω} [IsProbabilityMeasure P]
  {auto : String → Option (ℝ × ℝ) → List ℝ → Py (List ℝ)} {bins : Bins ℝ}
  {range : Option (ℝ × ℝ)} {use : String} {vs c : List ℕ}

theorem cmom_three_range {N : ℕ} (hN : 0 < N) (f : ℕ → ℝ) :
    cmom 3 ((List.range N).map f) = (∑ k ∈ Finset.range N, f k ^ 3) / N -
      3 * ((∑ k ∈ Finset.range N, f k) / N) * ((∑ k ∈ Finset.range N, f k ^ 2) / N) +
      2 * ((∑ k ∈ Finset.range N, f k) / N) ^ 3 := by
  have hN' : (N : ℝ) ≠ 0 := by positivity
  unfold cmom
  rw [List.map_map, avg_range, avg_range]
  simp only [Function.comp_apply]
  set m := (∑ k ∈ Finset.range N, f k) / N with hm
  have hs : ∑ k ∈ Finset.range N, f k = N * m := by rw [hm]; field_simp
  have : ∀ k, (f k - m) ^ 3 = f k ^ 3 - 3 * m * f k ^ 2 + 3 * m ^ 2 * f k - m ^ 3 := fun k => by ring
  simp only [this]
  rw [Finset.sum_sub_distrib, Finset.sum_add_distrib, Finset.sum_sub_distrib, ← Finset.mul_sum, ← Finset.mul_sum, hs,
    Finset.sum_const, Finset.card_range, nsmul_eq_mul]
  field_simp
  ring

theorem cmom_four_range {N : ℕ} (hN : 0 < N) (f : ℕ → ℝ) :
    cmom 4 ((List.range N).map f) = (∑ k ∈ Finset.range N, f k ^ 4) / N -
      4 * ((∑ k ∈ Finset.range N, f k) / N) * ((∑ k ∈ Finset.range N, f k ^ 3) / N) +
      6 * ((∑ k ∈ Finset.range N, f k) / N) ^ 2 * ((∑ k ∈ Finset.range N, f k ^ 2) / N) -
      3 * ((∑ k ∈ Finset.range N, f k) / N) ^ 4 := by
  have hN' : (N : ℝ) ≠ 0 := by positivity
  unfold cmom
  rw [List.map_map, avg_range, avg_range]
  simp only [Function.comp_apply]
  set m := (∑ k ∈ Finset.range N, f k) / N with hm
  have hs : ∑ k ∈ Finset.range N, f k = N * m := by rw [hm]; field_simp
  have : ∀ k, (f k - m) ^ 4 = f k ^ 4 - 4 * m * f k ^ 3 + 6 * m ^ 2 * f k ^ 2 - 4 * m ^ 3 * f k + m ^ 4 :=
    fun k => by ring
  simp only [this]
  rw [Finset.sum_add_distrib, Finset.sum_sub_distrib, Finset.sum_add_distrib, Finset.sum_sub_distrib, ← Finset.mul_sum,
    ← Finset.mul_sum, ← Finset.mul_sum, hs, Finset.sum_const, Finset.card_range, nsmul_eq_mul]
  field_simp
  ring

/-- Powers up to the fourth. -/
theorem integrable_powers {X : Ω → ℝ} (hX : MemLp X 4 P) {q : ℕ} (hq : q ≤ 4) : Integrable (fun ω => X ω ^ q) P := by
  have h : MemLp X ((q : ℕ) : ENNReal) P := hX.mono_exponent (by exact_mod_cast hq)
  refine h.integrable_norm_pow'.mono' (hX.1.pow q) (ae_of_all _ fun ω => ?_)
  rw [Real.norm_eq_abs, abs_pow, Real.norm_eq_abs]

/-- Central moments. -/
theorem central_moments {X : Ω → ℝ} (hX : MemLp X 4 P) :
    (∫ ω, (X ω - ∫ ω, X ω ∂P) ^ 3 ∂P = ∫ ω, X ω ^ 3 ∂P - 3 * (∫ ω, X ω ∂P) * (∫ ω, X ω ^ 2 ∂P) +
      2 * (∫ ω, X ω ∂P) ^ 3) ∧
    ∫ ω, (X ω - ∫ ω, X ω ∂P) ^ 4 ∂P = ∫ ω, X ω ^ 4 ∂P - 4 * (∫ ω, X ω ∂P) * (∫ ω, X ω ^ 3 ∂P) +
      6 * (∫ ω, X ω ∂P) ^ 2 * (∫ ω, X ω ^ 2 ∂P) - 3 * (∫ ω, X ω ∂P) ^ 4 := by
  have i1 : Integrable X P := hX.integrable (by norm_num)
  have i2 : Integrable (fun ω => X ω ^ 2) P := (hX.mono_exponent (by norm_num)).integrable_sq
  have i3 := integrable_powers hX (q := 3) (by norm_num)
  have i4 := integrable_powers hX (q := 4) (by norm_num)
  generalize hm : ∫ ω, X ω ∂P = m
  constructor
  · have : ∀ ω, (X ω - m) ^ 3 = X ω ^ 3 - 3 * m * X ω ^ 2 + 3 * m ^ 2 * X ω - m ^ 3 := fun ω => by ring
    simp only [this]
    have j1 : Integrable (fun ω => X ω ^ 3 - 3 * m * X ω ^ 2) P := i3.sub (i2.const_mul _)
    have j2 : Integrable (fun ω => X ω ^ 3 - 3 * m * X ω ^ 2 + 3 * m ^ 2 * X ω) P := j1.add (i1.const_mul _)
    rw [integral_sub j2 (integrable_const _), integral_add j1 (i1.const_mul _), integral_sub i3 (i2.const_mul _), integral_const_mul,
      integral_const_mul, hm]
    simp
    ring
  · have : ∀ ω, (X ω - m) ^ 4 = X ω ^ 4 - 4 * m * X ω ^ 3 + 6 * m ^ 2 * X ω ^ 2 - 4 * m ^ 3 * X ω + m ^ 4 :=
      fun ω => by ring
    simp only [this]
    have j1 : Integrable (fun ω => X ω ^ 4 - 4 * m * X ω ^ 3) P := i4.sub (i3.const_mul _)
    have j2 : Integrable (fun ω => X ω ^ 4 - 4 * m * X ω ^ 3 + 6 * m ^ 2 * X ω ^ 2) P := j1.add (i2.const_mul _)
    have j3 : Integrable (fun ω => X ω ^ 4 - 4 * m * X ω ^ 3 + 6 * m ^ 2 * X ω ^ 2 - 4 * m ^ 3 * X ω) P :=
      j2.sub (i1.const_mul _)
    rw [integral_add j3 (integrable_const _), integral_sub j2 (i1.const_mul _), integral_add j1 (i2.const_mul _),
      integral_sub i4 (i3.const_mul _), integral_const_mul,
      integral_const_mul, integral_const_mul, hm]
    simp
    ring

/-- **C107** (skewness and kurtosis). Let `montecarlo` instances cumulate more and more values that are pairwise
independent and of the same law, with a fourth moment and a variance that is not zero. Almost surely, from some number of
values on `skew` and `kurtosis` report numbers, and these converge to the third and fourth moments of the
standardised law (3 is not subtracted from the latter). -/
theorem C107_moments (ha : AutoOk auto) {mc : ℕ → Ω → MC ℝ} {N : ℕ → ℕ} {X : ℕ → Ω → ℝ}
    (h : ∀ n, Cumulates auto bins range use vs c (mc n) (N n) X) (hN : Tendsto N atTop atTop)
    (hX : MemLp (X 0) 4 P) (hv : Var[X 0; P] ≠ 0) (hi : Pairwise fun i j => IndepFun (X i) (X j) P)
    (hd : ∀ i, IdentDistrib (X i) (X 0) P P) :
    ∀ᵐ ω ∂P, ∃ S K : ℕ → ℝ,
      (∀ᶠ n in atTop, (∃ a, (mc n ω).skew = .ok a ∧ a.get c = some (S n)) ∧
        ∃ a, (mc n ω).kurtosis = .ok a ∧ a.get c = some (K n)) ∧
      Tendsto S atTop (𝓝 (∫ ω, ((X 0 ω - ∫ ω, X 0 ω ∂P) / √Var[X 0; P]) ^ 3 ∂P)) ∧
      Tendsto K atTop (𝓝 (∫ ω, ((X 0 ω - ∫ ω, X 0 ω ∂P) / √Var[X 0; P]) ^ 4 ∂P)) := by
  have hX2 : MemLp (X 0) 2 P := hX.mono_exponent (by norm_num)
  have i1 : Integrable (X 0) P := hX.integrable (by norm_num)
  have i3 := integrable_powers hX (q := 3) (by norm_num)
  have i4 := integrable_powers hX (q := 4) (by norm_num)
  have law := fun (q : ℕ) (hq : Integrable (fun ω => X 0 ω ^ q) P) =>
    strong_law_ae_real (fun k ω => X k ω ^ q) hq
      (fun i j hij => (hi hij).comp (measurable_id.pow_const q) (measurable_id.pow_const q))
      (fun i => (hd i).comp (measurable_id.pow_const q))
  have hvar := variance_eq_sub hX2
  have hvp : 0 < Var[X 0; P] := lt_of_le_of_ne (variance_nonneg _ _) hv.symm
  obtain ⟨c3, c4⟩ := central_moments hX
  filter_upwards [strong_law_ae_real X i1 hi hd, law 2 hX2.integrable_sq, law 3 i3, law 4 i4] with ω e1 e2 e3 e4
  replace e1 := e1.comp hN
  replace e2 := e2.comp hN
  replace e3 := e3.comp hN
  replace e4 := e4.comp hN
  have hpos : ∀ᶠ n in atTop, 2 ≤ N n := hN.eventually_ge_atTop 2
  have t2 : Tendsto (fun n => cmom 2 ((List.range (N n)).map fun k => X k ω)) atTop (𝓝 Var[X 0; P]) := by
    rw [hvar]
    refine (e2.sub (e1.pow 2)).congr' (hpos.mono fun n hn => ?_)
    exact (cmom_two_range (N := N n) (by omega) fun k => X k ω).symm
  have t3 : Tendsto (fun n => cmom 3 ((List.range (N n)).map fun k => X k ω)) atTop
      (𝓝 (∫ ω, (X 0 ω - ∫ ω, X 0 ω ∂P) ^ 3 ∂P)) := by
    rw [c3]
    refine ((e3.sub ((e1.const_mul 3).mul e2)).add ((e1.pow 3).const_mul 2)).congr' (hpos.mono fun n hn => ?_)
    exact (cmom_three_range (N := N n) (by omega) fun k => X k ω).symm
  have t4 : Tendsto (fun n => cmom 4 ((List.range (N n)).map fun k => X k ω)) atTop
      (𝓝 (∫ ω, (X 0 ω - ∫ ω, X 0 ω ∂P) ^ 4 ∂P)) := by
    rw [c4]
    refine (((e4.sub ((e1.const_mul 4).mul e3)).add (((e1.pow 2).const_mul 6).mul e2)).sub
      ((e1.pow 4).const_mul 3)).congr' (hpos.mono fun n hn => ?_)
    exact (cmom_four_range (N := N n) (by omega) fun k => X k ω).symm
  refine ⟨fun n => cmom 3 ((List.range (N n)).map fun k => X k ω) / √(cmom 2 ((List.range (N n)).map fun k => X k ω)) ^ 3,
    fun n => cmom 4 ((List.range (N n)).map fun k => X k ω) / cmom 2 ((List.range (N n)).map fun k => X k ω) ^ 2, ?_, ?_, ?_⟩
  · filter_upwards [hpos, t2.eventually_ne hv] with n hn h2
    obtain ⟨b, l, h1, h2', h3, h4⟩ := (h n).history ω
    obtain ⟨a, q1, -, q3⟩ := C35_skew ha h1 h2' h3
    obtain ⟨a', r1, -, r3⟩ := C35_kurtosis ha h1 h2' h3
    have q4 := q3 c (h n).cell
    have r4 := r3 c (h n).cell
    rw [h4] at q4 r4
    simp only [List.length_map, List.length_range, if_neg (not_lt.2 hn), if_neg h2] at q4 r4
    exact ⟨⟨a, q1, q4⟩, a', r1, r4⟩
  · have := t3.div (t2.sqrt.pow 3) (pow_ne_zero 3 (Real.sqrt_pos.2 hvp).ne')
    simp only [div_pow, integral_div]
    exact this
  · have := t4.div (t2.pow 2) (pow_ne_zero 2 hv)
    have e : √Var[X 0; P] ^ 4 = Var[X 0; P] ^ 2 := by
      rw [show 4 = 2 * 2 from rfl, pow_mul, Real.sq_sqrt hvp.le]
    simp only [div_pow, integral_div, e]
    exact this

/-! ### Histograms -/

theorem take_sum_getD : ∀ (l : List ℤ) (k : ℕ), ((l.take k).sum : ℝ) = ∑ j ∈ Finset.range k, (l.getD j 0 : ℝ)
  | [], k => by simp
  | a :: l, 0 => by simp
  | a :: l, k + 1 => by
    rw [List.take_succ_cons, List.sum_cons, Finset.sum_range_succ', add_comm, Int.cast_add, take_sum_getD l k]
    simp

/-- Probability of the first bins. -/
theorem bins_prob (μ : Measure ℝ) [IsFiniteMeasure μ] {e : List ℝ} (he : e.Pairwise (· < ·)) :
    ∀ k a, e[k]? = some a → k + 1 < e.length →
      ∑ j ∈ Finset.range k, μ.real {v | inBin e j v} = μ.real (Set.Ico (e.headD 0) a)
  | 0, a, ha, hk => by
    cases e with
    | nil => simp at ha
    | cons x e => simp at ha; simp [ha]
  | k + 1, b, hb, hk => by
    obtain ⟨a, ha⟩ : ∃ a, e[k]? = some a := ⟨_, List.getElem?_eq_getElem (by omega)⟩
    have hab : a < b := by
      have h1 := List.pairwise_iff_getElem.1 he k (k + 1) (by omega) (by omega) (by omega)
      rw [List.getElem?_eq_getElem (by omega), Option.some.injEq] at ha hb
      rwa [ha, hb] at h1
    have h0a : e.headD 0 ≤ a := by
      cases k with
      | zero => cases e <;> simp_all
      | succ k =>
        have h1 := List.pairwise_iff_getElem.1 he 0 (k + 1) (by omega) (by omega) (by omega)
        rw [List.getElem?_eq_getElem (by omega), Option.some.injEq] at ha
        cases e with
        | nil => simp at hk
        | cons x e => simp at h1 ha; simp [ha] at h1; exact h1.le
    rw [Finset.sum_range_succ, bins_prob μ he k a ha (by omega)]
    have hs : {v | inBin e k v} = Set.Ico a b := by
      ext v
      have hne : k + 2 ≠ e.length := by omega
      simp [inBin, ha, hb, hne]
    rw [hs, ← measureReal_union _ measurableSet_Ico, Set.Ico_union_Ico_eq_Ico h0a hab.le]
    exact Set.Ico_disjoint_Ico_same

/-- Probability of all bins. -/
theorem bins_prob_all (μ : Measure ℝ) [IsFiniteMeasure μ] {e : List ℝ} (he : e.Pairwise (· < ·)) (h2 : 2 ≤ e.length) :
    ∑ j ∈ Finset.range (e.length - 1), μ.real {v | inBin e j v} = μ.real (Set.Icc (e.headD 0) (e.getLastD 0)) := by
  obtain ⟨k, hk⟩ : ∃ k, e.length = k + 2 := ⟨e.length - 2, by omega⟩
  obtain ⟨a, ha⟩ : ∃ a, e[k]? = some a := ⟨_, List.getElem?_eq_getElem (by omega)⟩
  obtain ⟨b, hb⟩ : ∃ b, e[k + 1]? = some b := ⟨_, List.getElem?_eq_getElem (by omega)⟩
  have hl : e.getLastD 0 = b := by
    rw [List.getLastD_eq_getLast?, List.getLast?_eq_getElem?, hk]
    simp [hb]
  have hab : a < b := by
    have h1 := List.pairwise_iff_getElem.1 he k (k + 1) (by omega) (by omega) (by omega)
    rw [List.getElem?_eq_getElem (by omega), Option.some.injEq] at ha hb
    rwa [ha, hb] at h1
  have h0a : e.headD 0 ≤ a := by
    cases k with
    | zero => cases e <;> simp_all
    | succ k =>
      have h1 := List.pairwise_iff_getElem.1 he 0 (k + 1) (by omega) (by omega) (by omega)
      rw [List.getElem?_eq_getElem (by omega), Option.some.injEq] at ha
      cases e with
      | nil => simp at hk
      | cons x e => simp at h1 ha; simp [ha] at h1; exact h1.le
  rw [show e.length - 1 = k + 1 by omega, Finset.sum_range_succ, bins_prob μ he k a ha (by omega), hl]
  have hs : {v | inBin e k v} = Set.Icc a b := by
    ext v
    simp only [inBin, ha, hb, hk, and_true, decide_eq_true_eq, Set.mem_setOf_eq, Set.mem_Icc, le_iff_lt_or_eq (a := v)]
  rw [hs, ← measureReal_union _ measurableSet_Icc, Set.Ico_union_Icc_eq_Icc h0a hab.le]
  rw [Set.disjoint_left]
  exact fun v h1 h2 => absurd h1.2 (not_lt.2 h2.1)

theorem measurableSet_inBin (e : List ℝ) (j : ℕ) : MeasurableSet {v : ℝ | inBin e j v} := by
  unfold inBin
  split
  · next x y _ _ =>
    have : {v : ℝ | decide (x ≤ v ∧ (v < y ∨ v = y ∧ j + 2 = e.length)) = true} =
        Set.Ici x ∩ (Set.Iio y ∪ ({y} ∩ {v | j + 2 = e.length})) := by
      ext v; simp
    rw [this]
    exact measurableSet_Ici.inter (measurableSet_Iio.union
      ((measurableSet_singleton y).inter (MeasurableSet.const _)))
  · simp

/-- Histograms of more and more values: eventually some are in the bins, and their fractions converge. -/
theorem histogram_limits (ha : AutoOk auto) {a : Arr ℝ} {mc : ℕ → Ω → MC ℝ} {N : ℕ → ℕ} {X : ℕ → Ω → ℝ} {e : List ℝ}
    (h : ∀ n, Cumulates auto (.array a) range use vs c (mc n) (N n) X) (hvs : ndindex vs = [c]) (hN : Tendsto N atTop atTop)
    (he : e = (List.range (a.shape.getLastD 0)).map fun k => a.get (c ++ [k])) (hs : e.Pairwise (· < ·)) (h2 : 2 ≤ e.length)
    (hX : AEMeasurable (X 0) P) (hi : Pairwise fun i j => IndepFun (X i) (X j) P)
    (hd : ∀ i, IdentDistrib (X i) (X 0) P P)
    (hp : 0 < P.real {ω | e.headD 0 ≤ X 0 ω ∧ X 0 ω ≤ e.getLastD 0}) :
    ∀ᵐ ω ∂P, ∃ C : ℕ → List ℤ, (∀ n, (mc n ω).histogram = .ok (C n, e)) ∧
      (∀ᶠ n in atTop, GoodHist (C n) e) ∧ (∀ n, (C n).length = e.length - 1) ∧
      (∀ k a, e[k]? = some a → k + 1 < e.length → Tendsto (fun n => (cumFreq (C n) k : ℝ)) atTop
        (𝓝 (P.real {ω | e.headD 0 ≤ X 0 ω ∧ X 0 ω < a} / P.real {ω | e.headD 0 ≤ X 0 ω ∧ X 0 ω ≤ e.getLastD 0}))) ∧
      ∀ k, k + 1 < e.length → Tendsto (fun n => ((C n).getD k 0 : ℝ) / ((C n).sum : ℤ)) atTop
        (𝓝 (P.real {ω | inBin e k (X 0 ω)} / P.real {ω | e.headD 0 ≤ X 0 ω ∧ X 0 ω ≤ e.getLastD 0})) := by
  obtain ⟨e', he', hlen, hlim⟩ := C68_histogram ha h hN hX hi hd
  rw [← he] at he'
  subst he'
  have : IsProbabilityMeasure (P.map (X 0)) := Measure.isProbabilityMeasure_map hX
  have hin := measurableSet_inBin e'
  have hq : ∀ j, P.real {ω | inBin e' j (X 0 ω)} = (P.map (X 0)).real {v | inBin e' j v} := fun j => by
    rw [measureReal_def, measureReal_def, Measure.map_apply_of_aemeasurable hX (hin j)]
    rfl
  have hall : P.real {ω | e'.headD 0 ≤ X 0 ω ∧ X 0 ω ≤ e'.getLastD 0} =
      (P.map (X 0)).real (Set.Icc (e'.headD 0) (e'.getLastD 0)) := by
    rw [measureReal_def, measureReal_def, Measure.map_apply_of_aemeasurable hX measurableSet_Icc]
    rfl
  have hsome : ∀ a, P.real {ω | e'.headD 0 ≤ X 0 ω ∧ X 0 ω < a} = (P.map (X 0)).real (Set.Ico (e'.headD 0) a) :=
    fun a => by
      rw [measureReal_def, measureReal_def, Measure.map_apply_of_aemeasurable hX measurableSet_Ico]
      rfl
  have hpaths : ∀ n ω, (mc n ω).paths = N n ∧ 0 < N n := fun n ω =>
    ⟨(cumulates_values ha (h n) ω).2.1, (cumulates_values ha (h n) ω).1⟩
  filter_upwards [hlim] with ω hω
  have hhist : ∀ n, (mc n ω).histogram = .ok ((mc n ω).counts c, e') := by
    intro n
    obtain ⟨b, l, h1, h2, h3, h4⟩ := (h n).history ω
    obtain ⟨E, g, h1', hE⟩ := C36_histogram ha (by simp) h1 h2
    obtain ⟨q1, q2, q3, -⟩ := hE c (h n).cell
    have hEe : E c = e' := (show E c = _ from q2).trans he.symm
    simp only [MC.histogram, h1', if_neg ((hpaths n ω).1 ▸ (hpaths n ω).2.ne'), hvs, q1, Option.getD_some, hEe]
  set C : ℕ → List ℤ := fun n => (mc n ω).counts c with hC
  have hlC : ∀ n, (C n).length = e'.length - 1 := fun n => hlen n ω
  have tsum : ∀ k, k < e'.length → Tendsto (fun n => (((C n).take k).sum : ℝ) / (mc n ω).paths) atTop
      (𝓝 (∑ j ∈ Finset.range k, (P.map (X 0)).real {v | inBin e' j v})) := by
    intro k hk
    have := tendsto_finsetSum (Finset.range k) fun j hj => by
      have := hω j (by have := Finset.mem_range.1 hj; omega)
      rw [hq] at this
      exact this
    refine this.congr fun n => ?_
    rw [take_sum_getD, Finset.sum_div]
  have tall : Tendsto (fun n => ((C n).sum : ℝ) / (mc n ω).paths) atTop
      (𝓝 (P.real {ω | e'.headD 0 ≤ X 0 ω ∧ X 0 ω ≤ e'.getLastD 0})) := by
    rw [hall, ← bins_prob_all _ hs h2]
    refine (tsum (e'.length - 1) (by omega)).congr fun n => ?_
    rw [List.take_of_length_le (hlC n).le]
  have hev : ∀ᶠ n in atTop, 0 < (C n).sum := by
    filter_upwards [tall.eventually_const_lt hp] with n hn
    have hpn : (0 : ℝ) < (mc n ω).paths := by rw [(hpaths n ω).1]; exact_mod_cast (hpaths n ω).2
    have := (div_pos_iff_of_pos_right hpn).1 hn
    exact_mod_cast this
  have hcancel : ∀ n (x : ℝ), x / (mc n ω).paths / (((C n).sum : ℝ) / (mc n ω).paths) = x / (C n).sum := fun n x => by
    have hpn : ((mc n ω).paths : ℝ) ≠ 0 := by rw [(hpaths n ω).1]; exact_mod_cast (hpaths n ω).2.ne'
    rw [div_div_div_cancel_right₀ hpn]
  refine ⟨C, hhist, hev.mono fun n hn => ⟨hs, by rw [hlC]; omega, ?_, hn⟩, hlC, fun k a hk hk1 => ?_, fun k hk => ?_⟩
  · intro x hx
    obtain ⟨b, l, h1, h2, h3, h4⟩ := (h n).history ω
    obtain ⟨E, g, h1', hE⟩ := C36_histogram ha (by simp) h1 h2
    obtain ⟨q1, q2, q3, -⟩ := hE c (h n).cell
    rw [hC] at hx
    simp only [q3] at hx
    exact hist_nonneg _ _ x hx
  · have := (tsum k (by omega)).div tall hp.ne'
    rw [bins_prob _ hs k a hk hk1, ← hsome] at this
    refine this.congr fun n => ?_
    rw [Pi.div_apply, hcancel]
    rfl
  · have := (hω k hk).div tall hp.ne'
    exact this.congr fun n => hcancel n _

/-- **C107** (distribution function). Let `montecarlo` instances with strictly increasing edges of bins cumulate more and
more values that are pairwise independent and of the same law, with some probability to be in the bins. Almost
surely, from some number of values on the 'interp' cdf is defined. At edges it converges to the probability that a value
is below, given that it is in the bins; elsewhere its distance from such probability, in the limit, is at most
the probability of the bin, uniformly in `x`. -/
theorem C107_cdf (ha : AutoOk auto) {a : Arr ℝ} {mc : ℕ → Ω → MC ℝ} {N : ℕ → ℕ} {X : ℕ → Ω → ℝ} {e : List ℝ}
    (h : ∀ n, Cumulates auto (.array a) range use vs c (mc n) (N n) X) (hvs : ndindex vs = [c]) (hN : Tendsto N atTop atTop)
    (he : e = (List.range (a.shape.getLastD 0)).map fun k => a.get (c ++ [k])) (hs : e.Pairwise (· < ·)) (h2 : 2 ≤ e.length)
    (hX : AEMeasurable (X 0) P) (hi : Pairwise fun i j => IndepFun (X i) (X j) P)
    (hd : ∀ i, IdentDistrib (X i) (X 0) P P) {p : ℝ}
    (hp : p = P.real {ω | e.headD 0 ≤ X 0 ω ∧ X 0 ω ≤ e.getLastD 0}) (hp0 : 0 < p) (bw : ℝ) :
    ∀ᵐ ω ∂P, ∃ F : ℕ → ℝ → ℝ,
      (∀ᶠ n in atTop, ∀ x, (mc n ω).pdfOrCdf x "interp" bw true = .ok ⟨x.shape, fun i => some (F n (x.get i))⟩) ∧
      (∀ k a, e[k]? = some a → k + 1 < e.length →
        Tendsto (fun n => F n a) atTop (𝓝 (P.real {ω | e.headD 0 ≤ X 0 ω ∧ X 0 ω < a} / p))) ∧
      ∀ k a b, e[k]? = some a → e[k + 1]? = some b → ∀ ε > 0, ∀ᶠ n in atTop, ∀ x ∈ Set.Icc a b,
        |F n x - P.real {ω | e.headD 0 ≤ X 0 ω ∧ X 0 ω ≤ x} / p| ≤ P.real {ω | a ≤ X 0 ω ∧ X 0 ω ≤ b} / p + ε := by
  filter_upwards [histogram_limits ha h hvs hN he hs h2 hX hi hd (hp ▸ hp0)] with ω hω
  obtain ⟨C, c1, c2, c3, c4, c5⟩ := hω
  have : ∀ n, ∃ F : ℝ → ℝ, GoodHist (C n) e → ((∀ x, (mc n ω).pdfOrCdf x "interp" bw true =
      .ok ⟨x.shape, fun i => some (F (x.get i))⟩) ∧ Monotone F ∧ (∀ x, e.getLastD 0 ≤ x → F x = 1) ∧
      ∀ k a, e[k]? = some a → F a = cumFreq (C n) k) := by
    intro n
    by_cases hg : GoodHist (C n) e
    · obtain ⟨F, f1, f2, f3, f4, f5, f6⟩ := C39_interp_cdf (c1 n) hg bw
      exact ⟨F, fun _ => ⟨f1, f2, f4, f5⟩⟩
    · exact ⟨0, fun h => absurd h hg⟩
  choose F hF using this
  have hedge : ∀ k a, e[k]? = some a → k + 1 < e.length →
      Tendsto (fun n => F n a) atTop (𝓝 (P.real {ω | e.headD 0 ≤ X 0 ω ∧ X 0 ω < a} / p)) := by
    intro k a hk hk1
    rw [hp]
    exact (c4 k a hk hk1).congr' (c2.mono fun n hn => ((hF n hn).2.2.2 k a hk).symm)
  have hmu : ∀ s t : ℝ, NullMeasurableSet {ω | s ≤ X 0 ω ∧ X 0 ω ≤ t} P := fun s t =>
    hX.nullMeasurableSet_preimage measurableSet_Icc
  have hmu' : ∀ s t : ℝ, NullMeasurableSet {ω | s ≤ X 0 ω ∧ X 0 ω < t} P := fun s t =>
    hX.nullMeasurableSet_preimage measurableSet_Ico
  refine ⟨F, c2.mono fun n hn => (hF n hn).1, hedge, fun k a b hk hk1 ε hε => ?_⟩
  have hkl : k + 1 < e.length := (List.getElem?_eq_some_iff.1 hk1).1
  have hab : a < b := by
    have h1 := List.pairwise_iff_getElem.1 hs k (k + 1) (by omega) (by omega) (by omega)
    rw [List.getElem?_eq_getElem (by omega), Option.some.injEq] at hk hk1
    rwa [hk, hk1] at h1
  have h0a : e.headD 0 ≤ a := by
    rw [List.getElem?_eq_getElem (by omega), Option.some.injEq] at hk
    have h00 : e.headD 0 = e[0] := by rw [List.headD_eq_head?_getD, List.head?_eq_getElem?, List.getElem?_eq_getElem (by omega)]; rfl
    rw [h00, ← hk]
    rcases Nat.eq_zero_or_pos k with rfl | hk0
    · exact le_rfl
    · exact (List.pairwise_iff_getElem.1 hs 0 k (by omega) (by omega) hk0).le
  set A := P.real {ω | e.headD 0 ≤ X 0 ω ∧ X 0 ω < a} with hA
  set B := P.real {ω | e.headD 0 ≤ X 0 ω ∧ X 0 ω ≤ b} with hB
  have hAB : B = A + P.real {ω | a ≤ X 0 ω ∧ X 0 ω ≤ b} := by
    rw [hB, hA, ← measureReal_union₀ (hmu a b)]
    · congr 1
      ext ω
      simp only [Set.mem_setOf_eq, Set.mem_union]
      constructor
      · rintro ⟨h1, h2⟩
        rcases lt_or_ge (X 0 ω) a with h3 | h3
        · exact .inl ⟨h1, h3⟩
        · exact .inr ⟨h3, h2⟩
      · rintro (⟨h1, h2⟩ | ⟨h1, h2⟩)
        · exact ⟨h1, h2.le.trans hab.le⟩
        · exact ⟨h0a.trans h1, h2⟩
    · refine Disjoint.aedisjoint ?_
      rw [Set.disjoint_left]
      exact fun ω h1 h2 => absurd h1.2 (not_lt.2 h2.1)
  -- the upper edge
  have hup : ∀ᶠ n in atTop, F n b ≤ B / p + ε := by
    by_cases hl : k + 2 < e.length
    · have h1 := (hedge (k + 1) b hk1 (by omega)).eventually_lt_const
        (u := B / p + ε) (by
          have : P.real {ω | e.headD 0 ≤ X 0 ω ∧ X 0 ω < b} ≤ B :=
            measureReal_mono fun ω h => ⟨h.1, h.2.le⟩
          have := (div_le_div_iff_of_pos_right hp0).2 this
          linarith)
      exact h1.mono fun n hn => hn.le
    · have hlast : e.getLastD 0 = b := by
        rw [List.getLastD_eq_getLast?, List.getLast?_eq_getElem?, show e.length - 1 = k + 1 by omega, hk1]
        rfl
      filter_upwards [c2] with n hn
      rw [(hF n hn).2.2.1 b hlast.le, hB, ← hlast, ← hp, div_self hp0.ne']
      linarith
  have hlo : ∀ᶠ n in atTop, A / p - ε ≤ F n a :=
    ((hedge k a hk (by omega)).eventually_const_lt (by linarith)).mono fun n hn => hn.le
  filter_upwards [c2, hup, hlo] with n hn hu hl x hx
  have m1 := (hF n hn).2.1 hx.1
  have m2 := (hF n hn).2.1 hx.2
  have m3 : A / p ≤ P.real {ω | e.headD 0 ≤ X 0 ω ∧ X 0 ω ≤ x} / p :=
    (div_le_div_iff_of_pos_right hp0).2 (measureReal_mono fun ω h => ⟨h.1, h.2.le.trans hx.1⟩)
  have m4 : P.real {ω | e.headD 0 ≤ X 0 ω ∧ X 0 ω ≤ x} / p ≤ B / p :=
    (div_le_div_iff_of_pos_right hp0).2 (measureReal_mono fun ω h => ⟨h.1, h.2.trans hx.2⟩)
  rw [hAB, add_div] at hu m4
  rw [abs_le]
  constructor <;> linarith

/-- **C107** (densities). In the same circumstances, almost surely the values of `density_histogram` converge to the
probabilities of the bins, given that values are in the bins, divided by their widths, and so does the 'interp' pdf at
midpoints; the 'gaussian_kde' pdf converges to the mixture of the normal densities centered at midpoints, weighed by
these probabilities. -/
theorem C107_density (ha : AutoOk auto) {a : Arr ℝ} {mc : ℕ → Ω → MC ℝ} {N : ℕ → ℕ} {X : ℕ → Ω → ℝ} {e : List ℝ}
    (h : ∀ n, Cumulates auto (.array a) range use vs c (mc n) (N n) X) (hvs : ndindex vs = [c]) (hN : Tendsto N atTop atTop)
    (he : e = (List.range (a.shape.getLastD 0)).map fun k => a.get (c ++ [k])) (hs : e.Pairwise (· < ·)) (h2 : 2 ≤ e.length)
    (hX : AEMeasurable (X 0) P) (hi : Pairwise fun i j => IndepFun (X i) (X j) P)
    (hd : ∀ i, IdentDistrib (X i) (X 0) P P) {p : ℝ}
    (hp : p = P.real {ω | e.headD 0 ≤ X 0 ω ∧ X 0 ω ≤ e.getLastD 0}) (hp0 : 0 < p) {bw : ℝ} (hb : 0 < bw) :
    ∀ᵐ ω ∂P, ∃ (d : ℕ → List ℝ) (f g : ℕ → ℝ → ℝ),
      (∀ᶠ n in atTop, (mc n ω).densityHistogram = .ok (some (d n), e) ∧ (d n).length = e.length - 1 ∧
        (∀ x, (mc n ω).pdfOrCdf x "interp" bw false = .ok ⟨x.shape, fun i => some (f n (x.get i))⟩) ∧
        ∀ x, (mc n ω).pdfOrCdf x "gaussian_kde" bw false = .ok ⟨x.shape, fun i => some (g n (x.get i))⟩) ∧
      (∀ k a b, e[k]? = some a → e[k + 1]? = some b →
        Tendsto (fun n => (d n).getD k 0) atTop (𝓝 (P.real {ω | inBin e k (X 0 ω)} / p / (b - a))) ∧
        Tendsto (fun n => f n ((a + b) / 2)) atTop (𝓝 (P.real {ω | inBin e k (X 0 ω)} / p / (b - a)))) ∧
      ∀ x, Tendsto (fun n => g n x) atTop (𝓝 (∑ k ∈ Finset.range (e.length - 1),
        P.real {ω | inBin e k (X 0 ω)} / p * gauss (binMid e k) (bw * binWidth e k) x)) := by
  filter_upwards [histogram_limits ha h hvs hN he hs h2 hX hi hd (hp ▸ hp0)] with ω hω
  obtain ⟨C, c1, c2, c3, c4, c5⟩ := hω
  rw [← hp] at c5
  have : ∀ n, ∃ (d : List ℝ) (f g : ℝ → ℝ), GoodHist (C n) e →
      ((mc n ω).densityHistogram = .ok (some d, e) ∧ d.length = e.length - 1 ∧
        (∀ x, (mc n ω).pdfOrCdf x "interp" bw false = .ok ⟨x.shape, fun i => some (f (x.get i))⟩) ∧
        ∀ x, (mc n ω).pdfOrCdf x "gaussian_kde" bw false = .ok ⟨x.shape, fun i => some (g (x.get i))⟩) ∧
      (∀ k a b, e[k]? = some a → e[k + 1]? = some b →
        d.getD k 0 = ((C n).getD k 0 : ℝ) / ((C n).sum : ℤ) / (b - a) ∧
        f ((a + b) / 2) = ((C n).getD k 0 : ℝ) / ((C n).sum : ℤ) / (b - a)) ∧
      ∀ x, g x = ∑ k ∈ Finset.range (e.length - 1), ((C n).getD k 0 : ℝ) / ((C n).sum : ℤ) *
        gauss (binMid e k) (bw * binWidth e k) x := by
    intro n
    by_cases hg : GoodHist (C n) e
    · obtain ⟨g, -, g1, -, g2, -⟩ := C39_gaussian_kde (c1 n) hg hb
      obtain ⟨f, f1, -, -, -, f2, -⟩ := C39_interp_pdf (c1 n) hg bw
      refine ⟨List.zipWith (fun (c : ℤ) d => (c : ℝ) / ((C n).sum : ℤ) / d) (C n) (diffs e), f, g, fun _ =>
        ⟨⟨?_, ?_, f1, g1⟩, fun k a b hk hk1 => ?_, fun x => ?_⟩⟩
      · rw [MC.densityHistogram, c1 n]
        simp only [densities_good hg]
      · simp [diffs_length, c3 n]
      · have hk2 : k + 1 < e.length := (List.getElem?_eq_some_iff.1 hk1).1
        have hk3 : k < (C n).length := by rw [c3]; omega
        have hc : (C n)[k]? = some ((C n).getD k 0) := by
          rw [List.getD_eq_getElem?_getD, List.getElem?_eq_getElem hk3]
          rfl
        refine ⟨?_, f2 k a b _ hk hk1 hc⟩
        rw [List.getD_eq_getElem?_getD, List.getElem?_zipWith, hc, diffs, List.getElem?_zipWith, hk, List.getElem?_tail, hk1]
        rfl
      · rw [g2 x, c3 n]
        rfl
    · exact ⟨[], 0, 0, fun h => absurd h hg⟩
  choose d f g hd using this
  refine ⟨d, f, g, c2.mono fun n hn => (hd n hn).1, fun k a b hk hk1 => ?_, fun x => ?_⟩
  · have hl := (c5 k (List.getElem?_eq_some_iff.1 hk1).1).div_const (b - a)
    exact ⟨hl.congr' (c2.mono fun n hn => ((hd n hn).2.1 k a b hk hk1).1.symm),
      hl.congr' (c2.mono fun n hn => ((hd n hn).2.1 k a b hk hk1).2.symm)⟩
  · have := tendsto_finsetSum (Finset.range (e.length - 1)) fun k hk =>
      (c5 k (by have := Finset.mem_range.1 hk; omega)).mul_const (gauss (binMid e k) (bw * binWidth e k) x)
    exact this.congr' (c2.mono fun n hn => ((hd n hn).2.2 x).symm)

theorem normals_law (i : ℕ) : Measure.map (fun ω : ℕ → ℝ => ω i) (Measure.infinitePi fun _ : ℕ => gaussianReal 0 1) =
    gaussianReal 0 1 := Measure.infinitePi_map_eval _ i

theorem normals_indep : Pairwise fun i j => IndepFun (fun ω : ℕ → ℝ => ω i) (fun ω => ω j)
    (Measure.infinitePi fun _ : ℕ => gaussianReal 0 1) :=
  fun _ _ hij => (iIndepFun_infinitePi (fun _ => measurable_id)).indepFun hij

theorem normals_ident (i : ℕ) : IdentDistrib (fun ω : ℕ → ℝ => ω i) (fun ω => ω 0)
    (Measure.infinitePi fun _ : ℕ => gaussianReal 0 1) (Measure.infinitePi fun _ : ℕ => gaussianReal 0 1) :=
  ⟨(measurable_pi_apply i).aemeasurable, (measurable_pi_apply 0).aemeasurable, by rw [normals_law, normals_law]⟩

theorem normals_Icc : (Measure.infinitePi fun _ : ℕ => gaussianReal 0 1).real {ω | 0 ≤ ω 0 ∧ ω 0 ≤ 2} =
    (gaussianReal 0 1).real (Set.Icc 0 2) := by
  conv_rhs => rw [← normals_law 0, measureReal_def, Measure.map_apply (measurable_pi_apply 0) measurableSet_Icc]
  rfl

theorem normals_pos : 0 < (gaussianReal 0 1).real (Set.Icc (0 : ℝ) 2) := by
  rw [measureReal_def, ENNReal.toReal_pos_iff]
  refine ⟨pos_iff_ne_zero.2 fun h => ?_, measure_lt_top _ _⟩
  have := gaussianReal_absolutelyContinuous' 0 (v := 1) one_ne_zero h
  rw [Real.volume_Icc] at this
  norm_num at this

/-- Skewness and kurtosis of independent standard normal variates. -/
example : ∃ mc : ℕ → (ℕ → ℝ) → MC ℝ, ∀ᵐ ω ∂(Measure.infinitePi fun _ : ℕ => gaussianReal 0 1), ∃ S K : ℕ → ℝ,
    (∀ᶠ n in atTop, (∃ a, (mc n ω).skew = .ok a ∧ a.get [] = some (S n)) ∧
      ∃ a, (mc n ω).kurtosis = .ok a ∧ a.get [] = some (K n)) ∧
    Tendsto S atTop (𝓝 (∫ x, x ^ 3 ∂(gaussianReal 0 1))) ∧ Tendsto K atTop (𝓝 (∫ x, x ^ 4 ∂(gaussianReal 0 1))) := by
  choose mc hmc using fun n => exists_cumulates noAutoR_ok (Nat.succ_pos n) (fun (k : ℕ) (ω : ℕ → ℝ) => ω k)
  have hl : HasLaw (fun ω : ℕ → ℝ => ω 0) (gaussianReal 0 1) (Measure.infinitePi fun _ : ℕ => gaussianReal 0 1) :=
    ⟨(measurable_pi_apply 0).aemeasurable, normals_law 0⟩
  have e1 : ∫ ω : ℕ → ℝ, ω 0 ∂(Measure.infinitePi fun _ : ℕ => gaussianReal 0 1) = 0 := by
    rw [hl.integral_eq]; exact integral_id_gaussianReal
  have e2 : Var[fun ω : ℕ → ℝ => ω 0; Measure.infinitePi fun _ : ℕ => gaussianReal 0 1] = 1 := by
    rw [hl.variance_eq, variance_id_gaussianReal]; rfl
  refine ⟨mc, ?_⟩
  have := C107_moments (P := Measure.infinitePi fun _ : ℕ => gaussianReal 0 1) noAutoR_ok hmc (tendsto_add_atTop_nat 1) (by
      have := memLp_id_gaussianReal (μ := 0) (v := 1) 4
      exact (memLp_map_measure_iff (by rw [normals_law]; exact this.1) (measurable_pi_apply 0).aemeasurable).1
        (by rw [normals_law]; exact this)) (by rw [e2]; norm_num) normals_indep normals_ident
  have e3 : ∀ q : ℕ, ∫ ω : ℕ → ℝ, ω 0 ^ q ∂(Measure.infinitePi fun _ : ℕ => gaussianReal 0 1) =
      ∫ x, x ^ q ∂(gaussianReal 0 1) := fun q =>
    hl.integral_comp (f := fun x => x ^ q) (measurable_id.pow_const q).aestronglyMeasurable
  simpa [e1, e2, e3] using this

/-- Their distribution, given that they are in [0, 2], from a histogram with edges 0, 1, 2. -/
example : ∃ mc : ℕ → (ℕ → ℝ) → MC ℝ, ∀ᵐ ω ∂(Measure.infinitePi fun _ : ℕ => gaussianReal 0 1), ∃ F : ℕ → ℝ → ℝ,
    (∀ᶠ n in atTop, ∀ x, (mc n ω).pdfOrCdf x "interp" 1 true = .ok ⟨x.shape, fun i => some (F n (x.get i))⟩) ∧
    Tendsto (fun n => F n 1) atTop (𝓝 ((Measure.infinitePi fun _ : ℕ => gaussianReal 0 1).real {ω | 0 ≤ ω 0 ∧ ω 0 < 1} /
      (gaussianReal 0 1).real (Set.Icc 0 2))) := by
  choose mc hmc using fun n => exists_cumulates_edges noAutoR_ok (Nat.succ_pos n) (fun (k : ℕ) (ω : ℕ → ℝ) => ω k)
  refine ⟨mc, (C107_cdf (P := Measure.infinitePi fun _ : ℕ => gaussianReal 0 1) (e := [0, 1, 2]) noAutoR_ok hmc rfl
    (tendsto_add_atTop_nat 1) (by simp [List.range_succ, edges012]) (by simp) (by simp)
    (measurable_pi_apply 0).aemeasurable normals_indep normals_ident (p := (gaussianReal 0 1).real (Set.Icc 0 2))
    (by simpa using normals_Icc.symm) normals_pos 1).mono fun ω hω => ?_⟩
  obtain ⟨F, h1, h2, -⟩ := hω
  exact ⟨F, h1, by simpa using h2 1 1 rfl (by simp)⟩

/-- Their density, given that they are in [0, 2]. -/
example : ∃ mc : ℕ → (ℕ → ℝ) → MC ℝ, ∀ᵐ ω ∂(Measure.infinitePi fun _ : ℕ => gaussianReal 0 1), ∃ f : ℕ → ℝ → ℝ,
    (∀ᶠ n in atTop, ∀ x, (mc n ω).pdfOrCdf x "interp" 1 false = .ok ⟨x.shape, fun i => some (f n (x.get i))⟩) ∧
    Tendsto (fun n => f n (1 / 2)) atTop (𝓝 ((Measure.infinitePi fun _ : ℕ => gaussianReal 0 1).real
      {ω | inBin [0, 1, 2] 0 (ω 0)} / (gaussianReal 0 1).real (Set.Icc 0 2))) := by
  choose mc hmc using fun n => exists_cumulates_edges noAutoR_ok (Nat.succ_pos n) (fun (k : ℕ) (ω : ℕ → ℝ) => ω k)
  refine ⟨mc, (C107_density (P := Measure.infinitePi fun _ : ℕ => gaussianReal 0 1) (e := [0, 1, 2]) noAutoR_ok hmc rfl
    (tendsto_add_atTop_nat 1) (by simp [List.range_succ, edges012]) (by simp) (by simp)
    (measurable_pi_apply 0).aemeasurable normals_indep normals_ident (p := (gaussianReal 0 1).real (Set.Icc 0 2))
    (by simpa using normals_Icc.symm) normals_pos one_pos).mono fun ω hω => ?_⟩
  obtain ⟨d, f, g, h1, h2, -⟩ := hω
  refine ⟨f, h1.mono fun n hn => hn.2.2.1, ?_⟩
  have := (h2 0 0 1 rfl rfl).2
  norm_num at this ⊢
  exact this

end Sdepy
