import Verif.Lemmas.AdditiveN
import Verif.Props.Back
import Mathlib.Analysis.SpecialFunctions.Trigonometric.Bounds

/-!
# Property C93: convergence of order one for equations with additive noise
-/

set_option linter.unusedSectionVars false

open MeasureTheory ProbabilityTheory

namespace Sdepy

open Spec

section
variable {Ω ι σ O : Type} [Fintype ι] {S : SDE ℝ (ι → ℝ) O ℕ σ} {a : ℝ → (ι → ℝ) → ι → ℝ} {b : ℕ → ℝ → ι → ℝ}
  {t0 : ℝ} {x0 : ι → ℝ}

/-- Coefficients of an equation with additive noise, by source: that of time depends on values, others do not. -/
theorem additive_coefs (hcoef : ∀ t x, (equation S).coef t x = .ok fun id => if id = idT then a t x else b id t) :
    (fun t x => if idT = idT then a t x else b idT t) = a ∧
    (fun (j : (equation S).Stochastic idT) t (x : ι → ℝ) => if j.1 = idT then a t x else b j.1 t) =
      fun j t _ => b j.1 t := by
  refine ⟨by simp, ?_⟩
  funext j t x
  rw [if_neg (Finset.ne_of_mem_erase j.2)]

/-- **C93** (order one). If coefficients of noise do not depend on the values of the process, and the drift is smooth, the
equation has one and only one solution; any simulation that realises the noise at the points of its grid, yields values
such that the mean square of their difference from the solution is at most a constant times the square of the longest
step. The constant only depends on the equation, on mean and variance of the noise, on the initial values and on `T`.
This holds for any noise with independent increments, with mean and variance proportional to the time elapsed, jumps
included. -/
theorem C93_order_one (hS : SDEOk S) (hdt : S.sources.lookup idT = some dtSource)
    (hcoef : ∀ t x, (equation S).coef t x = .ok fun id => if id = idT then a t x else b id t)
    (hinit : S.init t0 = .ok x0) [Nonempty ((equation S).Stochastic idT)] {T L : ℝ} (hT : 0 ≤ T)
    (hL : AdditiveNoise a (fun j : (equation S).Stochastic idT => b j.1) t0 T L)
    (m : (equation S).Stochastic idT → ℝ) {v : (equation S).Stochastic idT → ℝ} (hv : ∀ j, 0 < v j) :
    ∃ K ≥ 0, ∀ {Ω : Type} [MeasurableSpace Ω] {P : Measure Ω} [IsProbabilityMeasure P]
      {Z : ℝ → Ω → (equation S).Stochastic idT × ι → ℝ}, Noises P t0 (Set.Icc t0 (t0 + T)) m v Z →
      ∃ Y : ℝ → Ω → ι → ℝ, Solves P a (fun (j : (equation S).Stochastic idT) t _ => b j.1 t) t0 T
          (if S.log then S.logX x0 else x0) Z Y ∧
        (∀ Y', Solves P a (fun (j : (equation S).Stochastic idT) t _ => b j.1 t) t0 T
          (if S.log then S.logX x0 else x0) Z Y' → ∀ t ∈ Set.Icc t0 (t0 + T), Y' t =ᵐ[P] Y t) ∧
        ∀ {fuel : ℕ} {steps : Steps ℝ} {i0 : ℤ} {tl : TArr ℝ} {grid : List ℝ} {δ : ℝ} {s s' : Ω → σ}, 0 < δ →
          Along fuel steps i0 tl grid t0 → Mesh grid δ → RealisesAll (equation S) idT t0 grid Z s s' →
          ∃ X : ℝ → Ω → ι → ℝ,
            (∀ ω, S.call fuel steps i0 tl (s ω) = .ok (tl.data.map fun t => some
              (if S.log then S.expO (S.letX t (X t ω)) else S.letX t (X t ω)), s' ω)) ∧
            ∀ t ∈ tl.data, t0 ≤ t → t ≤ t0 + T →
              (∀ i, MemLp (fun ω => X t ω i) 2 P) ∧ meanSq P (fun ω i => X t ω i - Y t ω i) ≤ K * δ ^ 2 := by
  obtain ⟨ca, cb⟩ := additive_coefs hcoef
  obtain ⟨K, hK, h⟩ := order_one hT hL (if S.log then S.logX x0 else x0) m hv
  obtain ⟨K', -, h'⟩ := C86_solution (c := fun id t x => if id = idT then a t x else b id t) hS hdt hcoef hinit hT
    (by rw [ca, cb]; exact hL.lipschitz hT) m hv
  rw [ca, cb] at h'
  refine ⟨K, hK, ?_⟩
  intro Ω _ P _ Z hZ
  obtain ⟨Y, hY, hu, hX⟩ := h' hZ
  refine ⟨Y, hY, hu, ?_⟩
  intro fuel steps i0 tl grid δ s s' hδ ha hm hc
  obtain ⟨X, e, f⟩ := C86_scheme (c := fun id t x => if id = idT then a t x else b id t) hS hdt hcoef hinit ha hc
  rw [ca, cb] at f
  refine ⟨X, e, fun t ht h0t htT => ?_⟩
  obtain ⟨g, g1, g2, g3, g4, g5⟩ := restrict_grid_all hT ha.isGrid.1 (along_mem ha).2.1 hm f
  have htg : t ∈ g := (g3 t).2 ⟨(along_mem ha).2.2 t ht, h0t, htT⟩
  obtain ⟨K2, -, hs⟩ := exists_solution_all hT (hL.lipschitz hT) (if S.log then S.logX x0 else x0) m hv
  obtain ⟨Y2, -, hs⟩ := hs hZ
  exact ⟨(hs hδ.le g1 g2 (fun u hu => ((g3 u).1 hu).2) g4 g5 t htg).1,
    h hZ hY hδ g1 g2 (fun u hu => ((g3 u).1 hu).2) g4 g5 t htg⟩

theorem additive_reflect {J : Type} [Fintype J] {b : J → ℝ → ι → ℝ} {T L : ℝ} (h : AdditiveNoise a b (t0 - T) T L) :
    AdditiveNoise (reflectDrift t0 a) (fun j t => b j (2 * t0 - t)) t0 T L := by
  have hI : ∀ t ∈ Set.Icc t0 (t0 + T), 2 * t0 - t ∈ Set.Icc (t0 - T) (t0 - T + T) := by
    rintro t ⟨h1, h2⟩
    constructor <;> linarith
  refine ⟨fun t ht u hu x y => ?_, fun t ht u hu => ?_, fun t ht x => ?_⟩
  · have := h.drift _ (hI t ht) _ (hI u hu) x y
    rw [show (2 * t0 - t - (2 * t0 - u)) ^ 2 = (t - u) ^ 2 by ring] at this
    refine le_of_eq_of_le (Finset.sum_congr rfl fun i _ => ?_) this
    unfold reflectDrift
    ring
  · have := h.noise _ (hI t ht) _ (hI u hu)
    rwa [show (2 * t0 - t - (2 * t0 - u)) ^ 2 = (t - u) ^ 2 by ring] at this
  · obtain ⟨A, hA⟩ := h.smooth _ (hI t ht) x
    refine ⟨-A, fun z => le_of_eq_of_le (Finset.sum_congr rfl fun i _ => ?_) (hA z)⟩
    simp only [reflectDrift, LinearMap.neg_apply, Pi.neg_apply]
    ring

/-- **C93** (order one, backwards). The same, for times from `t0` back to `t0 - T`. -/
theorem C93_order_one_back (hS : SDEOk S) (hdt : S.sources.lookup idT = some dtSource)
    (hcoef : ∀ t x, (equation S).coef t x = .ok fun id => if id = idT then a t x else b id t)
    (hinit : S.init t0 = .ok x0) [Nonempty ((equation S).Stochastic idT)] {T L : ℝ} (hT : 0 ≤ T)
    (hL : AdditiveNoise a (fun j : (equation S).Stochastic idT => b j.1) (t0 - T) T L)
    (m : (equation S).Stochastic idT → ℝ) {v : (equation S).Stochastic idT → ℝ} (hv : ∀ j, 0 < v j) :
    ∃ K ≥ 0, ∀ {Ω : Type} [MeasurableSpace Ω] {P : Measure Ω} [IsProbabilityMeasure P]
      {Z : ℝ → Ω → (equation S).Stochastic idT × ι → ℝ}, NoisesBack P t0 (Set.Icc (t0 - T) t0) m v Z →
      ∃ Y : ℝ → Ω → ι → ℝ, SolvesBack P a (fun (j : (equation S).Stochastic idT) t _ => b j.1 t) t0 T
          (if S.log then S.logX x0 else x0) Z Y ∧
        (∀ Y', SolvesBack P a (fun (j : (equation S).Stochastic idT) t _ => b j.1 t) t0 T
          (if S.log then S.logX x0 else x0) Z Y' → ∀ t ∈ Set.Icc (t0 - T) t0, Y' t =ᵐ[P] Y t) ∧
        ∀ {fuel : ℕ} {steps : Steps ℝ} {i0 : ℤ} {tl : TArr ℝ} {grid : List ℝ} {δ : ℝ} {s s' : Ω → σ}, 0 < δ →
          Along fuel steps i0 tl grid t0 → Mesh grid δ → RealisesAll (equation S) idT t0 grid Z s s' →
          ∃ X : ℝ → Ω → ι → ℝ,
            (∀ ω, S.call fuel steps i0 tl (s ω) = .ok (tl.data.map fun t => some
              (if S.log then S.expO (S.letX t (X t ω)) else S.letX t (X t ω)), s' ω)) ∧
            ∀ t ∈ tl.data, t0 - T ≤ t → t ≤ t0 →
              (∀ i, MemLp (fun ω => X t ω i) 2 P) ∧ meanSq P (fun ω i => X t ω i - Y t ω i) ≤ K * δ ^ 2 := by
  obtain ⟨ca, cb⟩ := additive_coefs hcoef
  have hR := additive_reflect hL
  obtain ⟨K, hK, h⟩ := order_one hT hR (if S.log then S.logX x0 else x0) m hv
  obtain ⟨K2, -, hs⟩ := exists_solution_all hT (hR.lipschitz hT) (if S.log then S.logX x0 else x0) m hv
  obtain ⟨K', -, h'⟩ := C91_solution (c := fun id t x => if id = idT then a t x else b id t) hS hdt hcoef hinit hT
    (by rw [ca, cb]; exact hL.lipschitz hT) m hv
  rw [ca, cb] at h'
  refine ⟨K, hK, ?_⟩
  intro Ω _ P _ Z hZ
  obtain ⟨Y, hY, hu, hX⟩ := h' hZ
  have hZ' := noises_reflect hZ
  rw [reflect_Icc] at hZ'
  obtain ⟨Y2, -, hs⟩ := hs hZ'
  refine ⟨Y, hY, hu, ?_⟩
  intro fuel steps i0 tl grid δ s s' hδ ha hm hc
  obtain ⟨X, e, f⟩ := C91_scheme (c := fun id t x => if id = idT then a t x else b id t) hS hdt hcoef hinit ha hc
  rw [ca, cb] at f
  refine ⟨X, e, fun t ht h0t htT => ?_⟩
  obtain ⟨g, g1, g2, g3, g4, g5⟩ := restrict_grid_back hT ha.isGrid.1 (along_mem ha).2.1 hm f
  have htg : 2 * t0 - t ∈ reflectGrid t0 g :=
    mem_reflectGrid.2 (by rw [sub_sub_cancel]; exact (g3 t).2 ⟨(along_mem ha).2.2 t ht, h0t, htT⟩)
  have hIg : ∀ u ∈ reflectGrid t0 g, u ∈ Set.Icc t0 (t0 + T) := fun u hu => by
    have := ((g3 _).1 (mem_reflectGrid.1 hu)).2
    exact ⟨by linarith [this.2], by linarith [this.1]⟩
  have h1 := (hs hδ.le (reflectGrid_pairwise g1) (reflectGrid_start g2) hIg (reflectGrid_mesh g4) (sums_reflect g5) _
    htg).1
  have h2 := h hZ' (solves_reflect hY) hδ (reflectGrid_pairwise g1) (reflectGrid_start g2) hIg (reflectGrid_mesh g4)
    (sums_reflect g5) _ htg
  simp only [sub_sub_cancel] at h1 h2
  exact ⟨h1, h2⟩

/-- **C93** (by cell). Equations `dx = f(x)*dt + sum over j of β(j, t)*dz(j)` are among those covered, where the drift of each
cell is a function of the value of that cell, with bounded first derivative `f'` and with error of the linear
approximation at most `k*z²`, and where coefficients of noise are Lipschitz functions of time. -/
theorem C93_cells {J : Type} [Fintype J] {f f' : ℝ → ℝ} {β : J → ℝ → ℝ} {l k : ℝ} {B : J → ℝ} (t0 T : ℝ)
    (hf : ∀ x y, |f x - f y| ≤ l * |x - y|) (hf' : ∀ x z, |f (x + z) - f x - f' x * z| ≤ k * z ^ 2)
    (hβ : ∀ j, ∀ t ∈ Set.Icc t0 (t0 + T), ∀ u ∈ Set.Icc t0 (t0 + T), |β j t - β j u| ≤ B j * |t - u|) :
    AdditiveNoise (fun _ x (i : ι) => f (x i)) (fun j t _ => β j t) t0 T
      (l ^ 2 + k ^ 2 + Fintype.card ι * ∑ j, B j ^ 2) := by
  have hB : 0 ≤ (Fintype.card ι : ℝ) * ∑ j, B j ^ 2 := by positivity
  refine ⟨fun t ht u hu x y => ?_, fun t ht u hu => ?_, fun t ht x => ?_⟩
  · have h1 : ∑ i, (f (x i) - f (y i)) ^ 2 ≤ l ^ 2 * ∑ i, (x i - y i) ^ 2 := by
      rw [Finset.mul_sum]
      refine Finset.sum_le_sum fun i _ => ?_
      have := pow_le_pow_left₀ (abs_nonneg _) (hf (x i) (y i)) 2
      rwa [sq_abs, mul_pow, sq_abs] at this
    have h2 : 0 ≤ ∑ i, (x i - y i) ^ 2 := Finset.sum_nonneg fun i _ => sq_nonneg _
    have h3 : 0 ≤ (1 + ∑ i, x i ^ 2) * (t - u) ^ 2 :=
      mul_nonneg (add_nonneg zero_le_one (Finset.sum_nonneg fun i _ => sq_nonneg _)) (sq_nonneg _)
    nlinarith [sq_nonneg k, sq_nonneg l, mul_nonneg (sq_nonneg k) h2, mul_nonneg hB h2, mul_nonneg (sq_nonneg l) h3,
      mul_nonneg (sq_nonneg k) h3, mul_nonneg hB h3]
  · have h1 : ∑ _i : ι, ∑ j, (β j t - β j u) ^ 2 ≤ Fintype.card ι * (∑ j, B j ^ 2) * (t - u) ^ 2 := by
      rw [Finset.sum_const, Finset.card_univ, nsmul_eq_mul, mul_assoc, Finset.sum_mul]
      refine mul_le_mul_of_nonneg_left (Finset.sum_le_sum fun j _ => ?_) (by positivity)
      have := pow_le_pow_left₀ (abs_nonneg _) (hβ j t ht u hu) 2
      rwa [sq_abs, mul_pow, sq_abs] at this
    nlinarith [mul_nonneg (sq_nonneg l) (sq_nonneg (t - u)), mul_nonneg (sq_nonneg k) (sq_nonneg (t - u))]
  · refine ⟨LinearMap.pi fun i => f' (x i) • LinearMap.proj i, fun z => ?_⟩
    have h1 : ∑ i, (f (x i + z i) - f (x i) - f' (x i) * z i) ^ 2 ≤ k ^ 2 * ∑ i, (z i ^ 2) ^ 2 := by
      rw [Finset.mul_sum]
      refine Finset.sum_le_sum fun i _ => ?_
      have := pow_le_pow_left₀ (abs_nonneg _) (hf' (x i) (z i)) 2
      rwa [sq_abs, mul_pow] at this
    have h2 : ∑ i, (z i ^ 2) ^ 2 ≤ (∑ i, z i ^ 2) ^ 2 := Finset.sum_sq_le_sq_sum_of_nonneg fun i _ => sq_nonneg _
    have h3 := mul_le_mul_of_nonneg_left h2 (sq_nonneg k)
    have h4 := mul_nonneg (sq_nonneg l) (sq_nonneg (∑ i, z i ^ 2))
    have h5 := mul_nonneg hB (sq_nonneg (∑ i, z i ^ 2))
    simp only [Pi.add_apply, LinearMap.pi_apply, LinearMap.smul_apply, LinearMap.proj_apply, smul_eq_mul]
    linarith

end

/-! ### Examples: the equation `dx = sin(x)*dt + t*dw + 2*dj` -/

theorem sin_smooth (x z : ℝ) : |Real.sin (x + z) - Real.sin x - Real.cos x * z| ≤ 5 / 2 * z ^ 2 := by
  have h1 : |Real.sin z - z| ≤ 2 * z ^ 2 := by
    by_cases hz : |z| ≤ 1
    · have h := Real.sin_bound hz
      have hp : |z ^ 3 / 6| ≤ z ^ 2 / 6 := by
        rw [abs_div, abs_pow, abs_of_pos (by norm_num : (0 : ℝ) < 6), ← sq_abs z]
        have : |z| ^ 3 ≤ |z| ^ 2 := pow_le_pow_of_le_one (abs_nonneg z) hz (by norm_num)
        linarith
      have hq : |z| ^ 5 ≤ z ^ 2 := by
        rw [← sq_abs z]
        exact pow_le_pow_of_le_one (abs_nonneg z) hz (by norm_num)
      have := abs_sub_abs_le_abs_sub (Real.sin z - z) (-(z ^ 3 / 6))
      rw [abs_neg, show Real.sin z - z - -(z ^ 3 / 6) = Real.sin z - (z - z ^ 3 / 6) by ring] at this
      linarith [sq_nonneg z]
    · push Not at hz
      have h2 : |Real.sin z| ≤ |z| := by simpa using Real.abs_sin_sub_sin_le z 0
      have h3 := abs_sub (Real.sin z) z
      have : |z| ≤ z ^ 2 := by
        rw [← sq_abs z]
        nlinarith
      linarith
  have h2 : |Real.cos z - 1| ≤ z ^ 2 / 2 := by
    rw [abs_le]
    constructor
    · linarith [Real.one_sub_sq_div_two_le_cos (x := z)]
    · linarith [Real.cos_le_one z, sq_nonneg z]
  have e : Real.sin (x + z) - Real.sin x - Real.cos x * z =
      Real.sin x * (Real.cos z - 1) + Real.cos x * (Real.sin z - z) := by
    rw [Real.sin_add]
    ring
  rw [e]
  refine (abs_add_le _ _).trans ?_
  rw [abs_mul, abs_mul]
  have h3 := mul_le_mul (Real.abs_sin_le_one x) h2 (abs_nonneg _) zero_le_one
  have h4 := mul_le_mul (Real.abs_cos_le_one x) h1 (abs_nonneg _) zero_le_one
  linarith

noncomputable def exAdd {ι σ : Type} (dw dj : Src ℝ ι σ) : SDE ℝ (ι → ℝ) (ι → ℝ) ℕ σ where
  sources := [(idT, dtSource), (idW, dw), (idJ, dj)]
  sde t x := .ok (some [(idT, fun i => Real.sin (x i)), (idW, fun _ => t), (idJ, fun _ => 2)])
  init _ := .ok fun _ => 10
  letX _ x := x
  log := false
  logX := id
  expO := id

/-- Coefficients of noise of the example. -/
noncomputable def exBeta (id : ℕ) (t : ℝ) : ℝ := if id = idW then t else if id = idJ then 2 else 0

section
variable {ι σ : Type} (dw dj : Src ℝ ι σ)

theorem exAdd_ok : SDEOk (exAdd dw dj) where
  sources := by simp [DictOk, exAdd, idT, idW, idJ]
  sde := by
    intro t x A h
    simp only [exAdd, Except.ok.injEq, Option.some.injEq] at h
    subst h
    simp [DictOk, idT, idW, idJ]

theorem exAdd_coef (t : ℝ) (x : ι → ℝ) :
    (equation (exAdd dw dj)).coef t x = .ok fun id => if id = idT then fun i => Real.sin (x i) else fun _ => exBeta id t := by
  have h : ∀ id, entry [(idT, fun i => Real.sin (x i)), (idW, fun _ => t), (idJ, fun _ => 2)] id =
      if id = idT then fun i => Real.sin (x i) else fun _ => exBeta id t := by
    intro id
    unfold exBeta
    by_cases h1 : id = idT
    · subst h1; simp [entry, List.lookup]
    · by_cases h2 : id = idW
      · subst h2; simp [entry, List.lookup, idT, idW]
      · by_cases h3 : id = idJ
        · subst h3; simp [entry, List.lookup, idT, idW, idJ]
        · rw [if_neg h1, if_neg h2, if_neg h3]
          have e1 : (id == idT) = false := by simpa using h1
          have e2 : (id == idW) = false := by simpa using h2
          have e3 : (id == idJ) = false := by simpa using h3
          simp only [entry, List.lookup, e1, e2, e3]
          funext i
          simp
  simp only [equation, exAdd, bind, Except.bind, pure, Except.pure, List.map_cons, List.map_nil]
  rw [if_neg (by rintro ⟨k, h1, h2⟩; exact h2 h1)]
  simp only [Except.ok.injEq]
  funext id
  exact h id

theorem exAdd_ids : (equation (exAdd dw dj)).ids = {idT, idW, idJ} := by
  simp [equation, exAdd]

instance : Nonempty ((equation (exAdd dw dj)).Stochastic idT) :=
  ⟨⟨idW, by rw [exAdd_ids]; simp [idT, idW, idJ]⟩⟩

end

theorem exAdd_realises {Ω ι : Type} (Z : ℝ → Ω → exIds → ι → ℝ) {t0 : ℝ} {grid : List ℝ}
    (hg : grid.Pairwise (· < ·)) (hm : t0 ∈ grid) :
    RealisesAll (equation (exAdd (pathNoise fun u ω => Z u ω exW) (pathNoise fun u ω => Z u ω exJ))) idT t0 grid
      (fun u ω (c : exIds × ι) => Z u ω c.1 c.2) id id := by
  refine realises_paths ?_ (fun _ _ _ => rfl) ?_ hg hm
  · rintro ⟨j, hj⟩ t dt ω
    have h : j = idW ∨ j = idJ := by
      rw [exAdd_ids] at hj
      simp only [Finset.mem_erase, Finset.mem_insert, Finset.mem_singleton] at hj
      tauto
    rcases h with rfl | rfl <;> rfl
  · intro id h t dt ω
    rw [exAdd_ids] at h
    simp only [Finset.mem_insert, Finset.mem_singleton, not_or] at h
    have e1 : (id == idT) = false := by simpa using h.1
    have e2 : (id == idW) = false := by simpa using h.2.1
    have e3 : (id == idJ) = false := by simpa using h.2.2
    simp only [equation, exAdd, List.lookup, e1, e2, e3]

theorem exAdd_smooth {ι J : Type} [Fintype ι] [Fintype J] (n : J → ℕ) (t0 T : ℝ) :
    AdditiveNoise (fun _ x (i : ι) => Real.sin (x i)) (fun j t _ => exBeta (n j) t) t0 T
      (1 ^ 2 + (5 / 2) ^ 2 + Fintype.card ι * ∑ _j : J, (1 : ℝ) ^ 2) := by
  refine C93_cells t0 T (f' := Real.cos) (fun x y => by rw [one_mul]; exact Real.abs_sin_sub_sin_le x y) sin_smooth
    fun j t _ u _ => ?_
  rw [one_mul]
  unfold exBeta
  split_ifs <;> simp

/-- The solution of `dx = sin(x)*dt + t*dw + 2*dj`, from the value 10 at time 1, driven by a Wiener process and by a
Poisson process, compared with a simulation with two steps. -/
example : ∃ (Ω : Type) (_ : MeasurableSpace Ω) (P : Measure Ω) (Z : ℝ → Ω → exIds → Fin 3 → ℝ) (K : ℝ)
    (X : ℝ → Ω → Fin 3 → ℝ) (Y : ℝ → Ω → Fin 3 → ℝ),
    HasLaw (fun ω => Z 2 ω - Z 1 ω) (Measure.pi fun j : exIds => Measure.pi fun _ : Fin 3 =>
      if j.1 = idJ then compoundPoisson 3 (Measure.dirac 1) else gaussianReal 0 1) P ∧
    Solves P (fun _ x i => Real.sin (x i)) (fun (j : exIds) t _ _ => exBeta j.1 t) 1 1 (fun _ => 10)
      (fun u ω c => Z u ω c.1 c.2) Y ∧
    (∀ ω, (exAdd (pathNoise fun u ω => Z u ω exW) (pathNoise fun u ω => Z u ω exJ)).call 10 .none 0
      ⟨[3], [1, 3 / 2, 2]⟩ ω = .ok ([some (X 1 ω), some (X (3 / 2) ω), some (X 2 ω)], ω)) ∧
    meanSq P (fun ω c => X 2 ω c - Y 2 ω c) ≤ K * (1 / 4) := by
  obtain ⟨Ω, mΩ, P, Z, hP, hI, hN⟩ := exists_noises (ι := Fin 3) exIds
  obtain ⟨K, hK, h⟩ := C93_order_one (S := exAdd (pathNoise fun u ω => Z u ω exW) (pathNoise fun u ω => Z u ω exJ))
    (b := fun id t _ => exBeta id t) (t0 := 1) (T := 1) (exAdd_ok _ _) rfl (exAdd_coef _ _) rfl zero_le_one
    (exAdd_smooth (fun j : exIds => j.1) 1 1)
    (fun j : exIds => if j.1 = idJ then 3 else 0) (v := fun j : exIds => if j.1 = idJ then 3 else 1)
    (fun j => by split_ifs <;> norm_num)
  obtain ⟨Y, hY, -, hX⟩ := h hN
  obtain ⟨X, e1, e2⟩ := hX (δ := 1 / 2) (by norm_num) exAlongS exMesh (exAdd_realises Z (by norm_num) (by simp))
  refine ⟨Ω, mΩ, P, Z, K, X, Y, ?_, hY, e1, ?_⟩
  · have := hI.law 1 (by norm_num) 2 (by norm_num) le_rfl (by norm_num)
    norm_num at this
    exact this
  · have := (e2 2 (by simp) (by norm_num) (by norm_num)).2
    norm_num at this
    norm_num
    exact this

/-- The same equation, for times before that of the initial value. -/
example : ∃ (Ω : Type) (_ : MeasurableSpace Ω) (P : Measure Ω) (Z : ℝ → Ω → exIds → Fin 3 → ℝ) (K : ℝ)
    (X : ℝ → Ω → Fin 3 → ℝ) (Y : ℝ → Ω → Fin 3 → ℝ),
    SolvesBack P (fun _ x i => Real.sin (x i)) (fun (j : exIds) t _ _ => exBeta j.1 t) 1 1 (fun _ => 10)
      (fun u ω c => Z u ω c.1 c.2) Y ∧
    (∀ ω, (exAdd (pathNoise fun u ω => Z u ω exW) (pathNoise fun u ω => Z u ω exJ)).call 10 .none (-1)
      ⟨[3], [0, 1 / 2, 1]⟩ ω = .ok ([some (X 0 ω), some (X (1 / 2) ω), some (X 1 ω)], ω)) ∧
    meanSq P (fun ω c => X 0 ω c - Y 0 ω c) ≤ K * (1 / 4) := by
  obtain ⟨Ω, mΩ, P, Z', hP, hI, hN⟩ := exists_noises (ι := Fin 3) exIds
  obtain ⟨Z, hZ⟩ : ∃ Z : ℝ → Ω → exIds → Fin 3 → ℝ, Z = fun u => Z' (2 * 1 - u) := ⟨_, rfl⟩
  have hN' := noises_back hN
  have hD : {u : ℝ | 2 * 1 - u ∈ Set.Icc (1 : ℝ) (1 + 1)} = Set.Icc (1 - 1) 1 := by
    ext u
    simp only [Set.mem_setOf_eq, Set.mem_Icc]
    constructor <;> rintro ⟨h1, h2⟩ <;> constructor <;> linarith
  rw [hD] at hN'
  obtain ⟨K, hK, h⟩ := C93_order_one_back (S := exAdd (pathNoise fun u ω => Z u ω exW) (pathNoise fun u ω => Z u ω exJ))
    (b := fun id t _ => exBeta id t) (t0 := 1) (T := 1) (exAdd_ok _ _) rfl (exAdd_coef _ _) rfl zero_le_one
    (exAdd_smooth (fun j : exIds => j.1) (1 - 1) 1)
    (fun j : exIds => if j.1 = idJ then 3 else 0) (v := fun j : exIds => if j.1 = idJ then 3 else 1)
    (fun j => by split_ifs <;> norm_num)
  obtain ⟨Y, hY, -, hX⟩ := h (Z := fun u ω (c : exIds × Fin 3) => Z u ω c.1 c.2) (by rw [hZ]; exact hN')
  obtain ⟨X, e1, e2⟩ := hX (δ := 1 / 2) (by norm_num) exAlongB exMeshB (exAdd_realises Z (by norm_num) (by simp))
  refine ⟨Ω, mΩ, P, Z, K, X, Y, hY, e1, ?_⟩
  have := (e2 0 (by simp) (by norm_num) (by norm_num)).2
  norm_num at this
  norm_num
  exact this

end Sdepy
