import Verif.Spec.Ode
import Verif.Spec.OuLaw
import Verif.Lemmas.Chain
import Mathlib.Analysis.ODE.ExistUnique
import Mathlib.Analysis.Calculus.MeanValue

/-!
# The Euler method for ordinary differential equations
-/

namespace Sdepy

open Spec Set

section
variable {ι : Type} [Fintype ι] {a : ℝ → (ι → ℝ) → ι → ℝ} {t0 T L : ℝ} {x0 : ι → ℝ} {y : ℝ → ι → ℝ}

theorem Spec.LipschitzField.nonneg (h : LipschitzField a t0 T L) (hT : 0 < T) : 0 ≤ L := by
  have h0 := h (t0 + T) ⟨by linarith, le_rfl⟩ t0 ⟨by linarith, by linarith⟩ 0 0
  simp only [sub_self, norm_zero, add_zero, one_mul, zero_add] at h0
  rw [show t0 + T - t0 = T by ring, abs_of_pos hT] at h0
  by_contra hn
  push Not at hn
  have := (norm_nonneg _).trans h0
  nlinarith

/-! ### Reflection of time -/

theorem Spec.LipschitzField.reflect (h : LipschitzField a t0 T L) :
    LipschitzField (fun t x => -a (2 * t0 - t) x) t0 T L := by
  intro t ht u hu x z
  have := h (2 * t0 - t) ⟨by linarith [ht.2], by linarith [ht.1]⟩ (2 * t0 - u) ⟨by linarith [hu.2], by linarith [hu.1]⟩ x z
  rw [show 2 * t0 - t - (2 * t0 - u) = -(t - u) by ring, abs_neg] at this
  rwa [neg_sub_neg, norm_sub_rev]

theorem Spec.SolvesOde.reflect (h : SolvesOde a t0 T x0 y) :
    SolvesOde (fun t x => -a (2 * t0 - t) x) t0 T x0 (fun t => y (2 * t0 - t)) := by
  refine ⟨by simp only [show 2 * t0 - t0 = t0 by ring]; exact h.start, fun t ht => ?_⟩
  have hm : 2 * t0 - t ∈ Icc (t0 - T) (t0 + T) := ⟨by linarith [ht.2], by linarith [ht.1]⟩
  have hr : HasDerivWithinAt (fun t => 2 * t0 - t) (-1) (Icc (t0 - T) (t0 + T)) t :=
    ((hasDerivAt_id t).const_sub (2 * t0)).hasDerivWithinAt
  have := HasDerivWithinAt.scomp t (h.deriv _ hm) hr fun u hu => ⟨by linarith [hu.2], by linarith [hu.1]⟩
  rw [neg_one_smul] at this
  exact this

/-! ### Existence and uniqueness -/

theorem Spec.LipschitzField.growth (h : LipschitzField a t0 T L) (hT : 0 < T) :
    ∃ C > 0, ∀ t ∈ Icc (t0 - T) (t0 + T), ∀ x, ‖a t x‖ ≤ C * ‖x‖ + C := by
  have hL := h.nonneg hT
  refine ⟨L * (1 + T) + ‖a t0 0‖ + 1, by positivity, fun t ht x => ?_⟩
  have h1 := h t0 ⟨by linarith, by linarith⟩ t ht 0 x
  have h2 : |t0 - t| ≤ T := abs_le.2 ⟨by linarith [ht.2], by linarith [ht.1]⟩
  have h3 : ‖a t x‖ ≤ ‖a t0 0‖ + ‖a t0 0 - a t x‖ := by
    have := norm_sub_le (a t0 0) (a t0 0 - a t x)
    rwa [sub_sub_cancel] at this
  simp only [zero_sub, norm_neg, norm_zero, add_zero, one_mul] at h1
  have h4 : L * (‖x‖ + |t0 - t|) ≤ L * (‖x‖ + T) := mul_le_mul_of_nonneg_left (by linarith) hL
  nlinarith [norm_nonneg x, norm_nonneg (a t0 0), mul_nonneg hL hT.le, mul_nonneg (mul_nonneg hL hT.le) (norm_nonneg x),
    mul_nonneg (norm_nonneg (a t0 0)) (norm_nonneg x)]

theorem bound_forward {C : ℝ} (hC : 0 ≤ C) (hT : 0 < T) (h : SolvesOde a t0 T x0 y)
    (ha : ∀ t ∈ Icc (t0 - T) (t0 + T), ‖a t (y t)‖ ≤ C * ‖y t‖ + C) :
    ∀ t ∈ Icc t0 (t0 + T), ‖y t‖ ≤ gronwallBound ‖x0‖ C C T := by
  intro t ht
  have hsub : Icc t0 (t0 + T) ⊆ Icc (t0 - T) (t0 + T) := Icc_subset_Icc (by linarith) le_rfl
  have := norm_le_gronwallBound_of_norm_deriv_right_le (f := y) (f' := fun t => a t (y t)) (δ := ‖x0‖) (K := C) (ε := C)
    (a := t0) (b := t0 + T) (fun u hu => (h.deriv u (hsub hu)).continuousWithinAt.mono hsub)
    (fun u hu => by
      refine (h.deriv u (hsub ⟨hu.1, hu.2.le⟩)).mono_of_mem_nhdsWithin ?_
      exact Filter.mem_of_superset (Ico_mem_nhdsGE hu.2) fun v hv => ⟨by linarith [hu.1, hv.1], by linarith [hv.2]⟩)
    (by rw [h.start]) (fun u hu => ha u (hsub ⟨hu.1, hu.2.le⟩)) t ht
  exact this.trans (gronwallBound_mono (norm_nonneg _) hC hC (by linarith [ht.2]))

theorem bound_both {C : ℝ} (hC : 0 ≤ C) (hT : 0 < T) (h : SolvesOde a t0 T x0 y)
    (ha : ∀ t ∈ Icc (t0 - T) (t0 + T), ‖a t (y t)‖ ≤ C * ‖y t‖ + C) :
    ∀ t ∈ Icc (t0 - T) (t0 + T), ‖y t‖ ≤ gronwallBound ‖x0‖ C C T := by
  intro t ht
  rcases le_total t0 t with h0 | h0
  · exact bound_forward hC hT h ha t ⟨h0, ht.2⟩
  · have := bound_forward hC hT h.reflect (fun u hu => by
      rw [norm_neg]
      exact ha _ ⟨by linarith [hu.2], by linarith [hu.1]⟩) (2 * t0 - t) ⟨by linarith, by linarith [ht.1]⟩
    simpa using this

/-- Components limited to the interval from `-R` to `R`. -/
noncomputable def clamp (R : ℝ) (x : ι → ℝ) : ι → ℝ := fun i => max (-R) (min R (x i))

theorem clamp_sub (R : ℝ) (x z : ι → ℝ) : ‖clamp R x - clamp R z‖ ≤ ‖x - z‖ := by
  refine (pi_norm_le_iff_of_nonneg (norm_nonneg _)).2 fun i => ?_
  refine le_trans ?_ (norm_le_pi_norm (x - z) i)
  simp only [clamp, Pi.sub_apply, Real.norm_eq_abs]
  refine (abs_max_sub_max_le_max _ _ _ _).trans ?_
  refine max_le (by simp) ((abs_min_sub_min_le_max _ _ _ _).trans (max_le (by simp) le_rfl))

theorem clamp_norm {R : ℝ} (hR : 0 ≤ R) (x : ι → ℝ) : ‖clamp R x‖ ≤ R := by
  refine (pi_norm_le_iff_of_nonneg hR).2 fun i => ?_
  rw [Real.norm_eq_abs, abs_le]
  exact ⟨le_max_left _ _, max_le (by linarith) (min_le_left _ _)⟩

theorem clamp_of_le {R : ℝ} {x : ι → ℝ} (hx : ‖x‖ ≤ R) : clamp R x = x := by
  funext i
  have := abs_le.1 ((Real.norm_eq_abs _ ▸ norm_le_pi_norm x i).trans hx)
  simp only [clamp]
  rw [min_eq_right this.2, max_eq_right this.1]

theorem clamp_le {R : ℝ} (hR : 0 ≤ R) (x : ι → ℝ) : ‖clamp R x‖ ≤ ‖x‖ := by
  have h0 : clamp R (0 : ι → ℝ) = 0 := clamp_of_le (by simpa using hR)
  simpa [h0] using clamp_sub R x 0

theorem exists_ode (h : LipschitzField a t0 T L) (hT : 0 < T) (x0 : ι → ℝ) : ∃ y, SolvesOde a t0 T x0 y := by
  have hL := h.nonneg hT
  obtain ⟨C, hC, hg⟩ := h.growth hT
  set R := gronwallBound ‖x0‖ C C T with hR
  have hR0 : 0 ≤ R := by
    have := gronwallBound_mono (norm_nonneg x0) hC.le hC.le hT.le
    rw [gronwallBound_x0] at this
    exact (norm_nonneg _).trans this
  have ht0 : t0 ∈ Icc (t0 - T) (t0 + T) := ⟨by linarith, by linarith⟩
  have hb : 0 ≤ C * R + C := by positivity
  have hPL : IsPicardLindelof (fun t x => a t (clamp R x)) (tmin := t0 - T) (tmax := t0 + T) ⟨t0, ht0⟩ x0
      ⟨(C * R + C) * T, by positivity⟩ 0 ⟨C * R + C, hb⟩ ⟨L, hL⟩ := by
    constructor
    · intro t ht
      refine LipschitzWith.lipschitzOnWith (LipschitzWith.of_dist_le_mul fun x z => ?_)
      rw [dist_eq_norm, dist_eq_norm]
      have := h t ht t ht (clamp R x) (clamp R z)
      rw [sub_self, abs_zero, mul_zero, add_zero] at this
      exact this.trans (mul_le_mul_of_nonneg_left (clamp_sub R x z) hL)
    · intro x _
      refine LipschitzOnWith.continuousOn (K := ⟨L * (1 + ‖clamp R x‖), by positivity⟩)
        (LipschitzOnWith.of_dist_le_mul fun t ht u hu => ?_)
      rw [dist_eq_norm, Real.dist_eq]
      have := h t ht u hu (clamp R x) (clamp R x)
      rw [sub_self, norm_zero, zero_add, ← mul_assoc] at this
      exact this
    · intro t ht x _
      refine (hg t ht _).trans ?_
      have := clamp_norm hR0 x
      show C * ‖clamp R x‖ + C ≤ C * R + C
      nlinarith
    · show (C * R + C) * max (t0 + T - t0) (t0 - (t0 - T)) ≤ (C * R + C) * T - 0
      rw [show t0 + T - t0 = T by ring, show t0 - (t0 - T) = T by ring, max_self, sub_zero]
  obtain ⟨y, hy0, hy⟩ := hPL.exists_eq_forall_mem_Icc_hasDerivWithinAt₀
  have hs : SolvesOde (fun t x => a t (clamp R x)) t0 T x0 y := ⟨hy0, hy⟩
  have hyb := bound_both hC.le hT hs fun t ht => (hg t ht _).trans (by
    have := clamp_le hR0 (y t)
    nlinarith)
  refine ⟨y, hy0, fun t ht => ?_⟩
  have := hy t ht
  rwa [clamp_of_le (hyb t ht)] at this

theorem ode_unique (h : LipschitzField a t0 T L) (hT : 0 < T) {y z : ℝ → ι → ℝ} (hy : SolvesOde a t0 T x0 y)
    (hz : SolvesOde a t0 T x0 z) : EqOn y z (Icc (t0 - T) (t0 + T)) := by
  have hL := h.nonneg hT
  refine ODE_solution_unique_of_mem_Icc (v := a) (s := fun _ => univ) (K := ⟨L, hL⟩) (t₀ := t0) (fun t ht => ?_)
    ⟨by linarith, by linarith⟩ (fun t ht => (hy.deriv t ht).continuousWithinAt)
    (fun t ht => (hy.deriv t (Ioo_subset_Icc_self ht)).hasDerivAt (Icc_mem_nhds ht.1 ht.2)) (fun _ _ => mem_univ _)
    (fun t ht => (hz.deriv t ht).continuousWithinAt)
    (fun t ht => (hz.deriv t (Ioo_subset_Icc_self ht)).hasDerivAt (Icc_mem_nhds ht.1 ht.2)) (fun _ _ => mem_univ _)
    (hy.start.trans hz.start.symm)
  refine LipschitzWith.lipschitzOnWith (LipschitzWith.of_dist_le_mul fun x z => ?_)
  have := h t (Ioo_subset_Icc_self ht) t (Ioo_subset_Icc_self ht) x z
  rw [sub_self, abs_zero, mul_zero, add_zero] at this
  rw [dist_eq_norm, dist_eq_norm]
  exact this

/-! ### Errors -/

/-- Error of one step. -/
theorem ode_local (h : LipschitzField a t0 T L) (hT : 0 < T) (hy : SolvesOde a t0 T x0 y) :
    ∃ Q ≥ 0, ∀ s ∈ Icc (t0 - T) (t0 + T), ∀ t ∈ Icc (t0 - T) (t0 + T),
      ‖y t - y s - (t - s) • a s (y s)‖ ≤ Q * (t - s) ^ 2 := by
  have hL := h.nonneg hT
  obtain ⟨C, hC, hg⟩ := h.growth hT
  have hyb := bound_both hC.le hT hy fun t ht => hg t ht _
  set R := gronwallBound ‖x0‖ C C T with hR
  have hR0 : 0 ≤ R := (norm_nonneg _).trans (hyb t0 ⟨by linarith, by linarith⟩)
  have hlip : ∀ s ∈ Icc (t0 - T) (t0 + T), ∀ t ∈ Icc (t0 - T) (t0 + T), ‖y t - y s‖ ≤ (C * R + C) * |t - s| := by
    intro s hs t ht
    refine Convex.norm_image_sub_le_of_norm_hasDerivWithin_le hy.deriv (fun u hu => (hg u hu _).trans ?_)
      (convex_Icc _ _) hs ht
    have := hyb u hu
    nlinarith
  refine ⟨L * ((C * R + C) + (1 + R)), by positivity, fun s hs t ht => ?_⟩
  have hsub : uIcc s t ⊆ Icc (t0 - T) (t0 + T) := uIcc_subset_Icc hs ht
  have hd : ∀ u ∈ uIcc s t, HasDerivWithinAt (fun u => y u - (u - s) • a s (y s)) (a u (y u) - a s (y s)) (uIcc s t) u := by
    intro u hu
    have h2 : HasDerivWithinAt (fun u : ℝ => (u - s) • a s (y s)) ((1 : ℝ) • a s (y s)) (uIcc s t) u :=
      (((hasDerivAt_id u).sub_const s).smul_const (a s (y s))).hasDerivWithinAt
    rw [one_smul] at h2
    exact ((hy.deriv u (hsub hu)).mono hsub).sub h2
  have hbd : ∀ u ∈ uIcc s t, ‖a u (y u) - a s (y s)‖ ≤ L * ((C * R + C) + (1 + R)) * |t - s| := by
    intro u hu
    have h1 := h u (hsub hu) s hs (y u) (y s)
    have h2 := hlip s hs u (hsub hu)
    have h3 := hyb u (hsub hu)
    have h4 : |u - s| ≤ |t - s| := abs_sub_left_of_mem_uIcc hu
    refine h1.trans ?_
    rw [mul_assoc]
    refine mul_le_mul_of_nonneg_left ?_ hL
    have h5 : (1 + ‖y u‖) * |u - s| ≤ (1 + R) * |t - s| :=
      mul_le_mul (by linarith) h4 (abs_nonneg _) (by linarith)
    have h6 : (C * R + C) * |u - s| ≤ (C * R + C) * |t - s| := mul_le_mul_of_nonneg_left h4 (by positivity)
    nlinarith
  have := Convex.norm_image_sub_le_of_norm_hasDerivWithin_le hd hbd (convex_uIcc s t) left_mem_uIcc right_mem_uIcc
  simp only [sub_self, zero_smul, sub_zero] at this
  rw [show y t - y s - (t - s) • a s (y s) = y t - (t - s) • a s (y s) - y s by abel]
  refine this.trans_eq ?_
  rw [Real.norm_eq_abs, mul_assoc, ← sq, sq_abs]

theorem error_forward {Q : ℝ} (hQ : 0 ≤ Q) (h : LipschitzField a t0 T L) (hT : 0 < T) (hy : y t0 = x0)
    (hloc : ∀ s ∈ Icc (t0 - T) (t0 + T), ∀ t ∈ Icc (t0 - T) (t0 + T),
      ‖y t - y s - (t - s) • a s (y s)‖ ≤ Q * (t - s) ^ 2) {grid : List ℝ} (hg : grid.Pairwise (· < ·)) (h0 : t0 ∈ grid)
    {δ : ℝ} (hδ : 0 ≤ δ) (hm : Mesh grid δ) {X : ℝ → ι → ℝ} (hX : EulerOde a t0 x0 grid X) :
    ∀ t ∈ grid, t0 ≤ t → t ≤ t0 + T → ‖X t - y t‖ ≤ Q * T * Real.exp (L * T) * δ := by
  have hL := h.nonneg hT
  have key : ∀ u ∈ grid, t0 ≤ u → u ≤ t0 + T → ‖X u - y u‖ ≤ Q * (u - t0) * Real.exp (L * (u - t0)) * δ := by
    refine grid_induction hg h0 (fun _ => by rw [hX.1, hy]; simp) ?_
    intro s t hst hs hlt ih ht
    have hsI : s ∈ Icc (t0 - T) (t0 + T) := ⟨by linarith, by linarith⟩
    have htI : t ∈ Icc (t0 - T) (t0 + T) := ⟨by linarith, by linarith⟩
    have e := ih (by linarith)
    have hstep : t - s ≤ δ := by
      refine hm s hst.1 t hst.2.1 hlt ?_
      rcases hst.2.2 with ⟨-, -, h⟩ | ⟨-, h, -⟩
      · exact h
      · linarith
    have e1 : X t - y t = (X s - y s) + (t - s) • (a s (X s) - a s (y s)) - (y t - y s - (t - s) • a s (y s)) := by
      rw [hX.2 s t hst, smul_sub]
      abel
    have e2 : ‖a s (X s) - a s (y s)‖ ≤ L * ‖X s - y s‖ := by
      have := h s hsI s hsI (X s) (y s)
      rwa [sub_self, abs_zero, mul_zero, add_zero] at this
    have e3 := hloc s hsI t htI
    have e4 : ‖X t - y t‖ ≤ ‖X s - y s‖ + (t - s) * (L * ‖X s - y s‖) + Q * (t - s) ^ 2 := by
      rw [e1]
      refine (norm_sub_le _ _).trans (add_le_add ((norm_add_le _ _).trans (add_le_add le_rfl ?_)) e3)
      rw [norm_smul, Real.norm_eq_abs, abs_of_pos (by linarith)]
      exact mul_le_mul_of_nonneg_left e2 (by linarith)
    have hE : Real.exp (L * (t - t0)) = Real.exp (L * (s - t0)) * Real.exp (L * (t - s)) := by
      rw [← Real.exp_add]; congr 1; ring
    have h1 : 1 + L * (t - s) ≤ Real.exp (L * (t - s)) := by linarith [Real.add_one_le_exp (L * (t - s))]
    have h2 : 1 ≤ Real.exp (L * (t - t0)) := Real.one_le_exp (mul_nonneg hL (by linarith))
    have h3 : (1 + L * (t - s)) * ‖X s - y s‖ ≤
        Real.exp (L * (t - s)) * (Q * (s - t0) * Real.exp (L * (s - t0)) * δ) :=
      mul_le_mul h1 e (norm_nonneg _) (Real.exp_pos _).le
    have h4 : Q * (t - s) ^ 2 ≤ Q * (t - s) * Real.exp (L * (t - t0)) * δ := by
      have : Q * (t - s) ^ 2 ≤ Q * (t - s) * δ := by
        rw [sq, ← mul_assoc]
        exact mul_le_mul_of_nonneg_left hstep (mul_nonneg hQ (by linarith))
      refine this.trans ?_
      have : Q * (t - s) * 1 ≤ Q * (t - s) * Real.exp (L * (t - t0)) :=
        mul_le_mul_of_nonneg_left h2 (mul_nonneg hQ (by linarith))
      nlinarith
    have h5 : Real.exp (L * (t - s)) * (Q * (s - t0) * Real.exp (L * (s - t0)) * δ) =
        Q * (s - t0) * Real.exp (L * (t - t0)) * δ := by rw [hE]; ring
    rw [h5] at h3
    calc ‖X t - y t‖ ≤ (1 + L * (t - s)) * ‖X s - y s‖ + Q * (t - s) ^ 2 := by linarith
      _ ≤ Q * (s - t0) * Real.exp (L * (t - t0)) * δ + Q * (t - s) * Real.exp (L * (t - t0)) * δ := add_le_add h3 h4
      _ = Q * (t - t0) * Real.exp (L * (t - t0)) * δ := by ring
  intro t ht h1 h2
  refine (key t ht h1 h2).trans (mul_le_mul_of_nonneg_right ?_ hδ)
  exact mul_le_mul (mul_le_mul_of_nonneg_left (by linarith) hQ)
    (Real.exp_le_exp.2 (mul_le_mul_of_nonneg_left (by linarith) hL)) (Real.exp_pos _).le (mul_nonneg hQ hT.le)

theorem reflect_mem {grid : List ℝ} {t0 u : ℝ} :
    u ∈ (grid.map fun v => 2 * t0 - v).reverse ↔ 2 * t0 - u ∈ grid := by
  rw [List.mem_reverse, List.mem_map]
  constructor
  · rintro ⟨v, hv, rfl⟩
    rwa [sub_sub_cancel]
  · intro h
    exact ⟨_, h, by ring⟩

theorem reflect_between {grid : List ℝ} {t0 p q : ℝ}
    (h : ∀ c ∈ (grid.map fun v => 2 * t0 - v).reverse, ¬ (p < c ∧ c < q)) :
    ∀ c ∈ grid, ¬ (2 * t0 - q < c ∧ c < 2 * t0 - p) := fun c hc hcc =>
  h (2 * t0 - c) (reflect_mem.2 (by rwa [sub_sub_cancel])) ⟨by linarith [hcc.2], by linarith [hcc.1]⟩

/-- Induction along the points of a grid, from `t0` forwards and backwards. -/
theorem grid_induction_both {grid : List ℝ} (hg : grid.Pairwise (· < ·)) {t0 : ℝ} (h0 : t0 ∈ grid) {Q : ℝ → Prop}
    (hQ0 : Q t0) (hQ : ∀ p q, StepOf grid t0 p q → Q p → Q q) : ∀ u ∈ grid, Q u := by
  intro u hu
  rcases le_total t0 u with h | h
  · exact grid_induction hg h0 hQ0 (fun p q hpq _ _ => hQ p q hpq) u hu h
  · have := grid_induction (grid := (grid.map fun v => 2 * t0 - v).reverse) (t0 := t0)
      (Q := fun v => Q (2 * t0 - v))
      (by
        rw [List.pairwise_reverse, List.pairwise_map]
        exact hg.imp fun h => by linarith)
      (reflect_mem.2 (by rwa [show 2 * t0 - t0 = t0 by ring])) (by rwa [show 2 * t0 - t0 = t0 by ring])
      (fun p q hpq _ _ => hQ _ _ ⟨reflect_mem.1 hpq.1, reflect_mem.1 hpq.2.1, by
          rcases hpq.2.2 with ⟨k1, k2, k3⟩ | ⟨k1, k2, k3⟩
          · exact .inr ⟨by linarith, by linarith, reflect_between k3⟩
          · exact .inl ⟨by linarith, by linarith, reflect_between k3⟩⟩)
      (2 * t0 - u) (reflect_mem.2 (by rwa [sub_sub_cancel])) (by linarith)
    rwa [sub_sub_cancel] at this

theorem ode_error (h : LipschitzField a t0 T L) (hT : 0 < T) (hy : SolvesOde a t0 T x0 y) :
    ∃ K ≥ 0, ∀ {grid : List ℝ} {δ : ℝ} {X : ℝ → ι → ℝ}, grid.Pairwise (· < ·) → t0 ∈ grid → 0 ≤ δ → Mesh grid δ →
      EulerOde a t0 x0 grid X → ∀ t ∈ grid, t ∈ Icc (t0 - T) (t0 + T) → ‖X t - y t‖ ≤ K * δ := by
  obtain ⟨Q, hQ, hloc⟩ := ode_local h hT hy
  refine ⟨Q * T * Real.exp (L * T), by positivity, ?_⟩
  intro grid δ X hg h0 hδ hm hX t ht hI
  rcases le_total t0 t with h1 | h1
  · exact error_forward hQ h hT hy.start hloc hg h0 hδ hm hX t ht h1 hI.2
  · have := error_forward (a := fun s x => -a (2 * t0 - s) x) (y := fun s => y (2 * t0 - s)) (x0 := x0) hQ h.reflect hT
      (by simp only [show 2 * t0 - t0 = t0 by ring]; exact hy.start) (fun s hs u hu => by
        have := hloc (2 * t0 - s) ⟨by linarith [hs.2], by linarith [hs.1]⟩ (2 * t0 - u)
          ⟨by linarith [hu.2], by linarith [hu.1]⟩
        rw [show 2 * t0 - u - (2 * t0 - s) = -(u - s) by ring, neg_smul, neg_sq] at this
        rwa [smul_neg]) (grid := (grid.map fun v => 2 * t0 - v).reverse)
      (by
        rw [List.pairwise_reverse, List.pairwise_map]
        exact hg.imp fun h => by linarith)
      (reflect_mem.2 (by rwa [show 2 * t0 - t0 = t0 by ring])) hδ
      (by
        intro p hp q hq hpq hn
        have := hm (2 * t0 - q) (reflect_mem.1 hq) (2 * t0 - p) (reflect_mem.1 hp) (by linarith) (reflect_between hn)
        linarith)
      (X := fun s => X (2 * t0 - s)) ⟨by simp only [show 2 * t0 - t0 = t0 by ring]; exact hX.1, fun s u hsu => by
        have := hX.2 (2 * t0 - s) (2 * t0 - u) ⟨reflect_mem.1 hsu.1, reflect_mem.1 hsu.2.1, by
          rcases hsu.2.2 with ⟨k1, k2, k3⟩ | ⟨k1, k2, k3⟩
          · exact .inr ⟨by linarith, by linarith, reflect_between k3⟩
          · exact .inl ⟨by linarith, by linarith, reflect_between k3⟩⟩
        rw [show 2 * t0 - u - (2 * t0 - s) = -(u - s) by ring, neg_smul, ← smul_neg] at this
        exact this⟩
      (2 * t0 - t) (reflect_mem.2 (by rwa [sub_sub_cancel])) (by linarith) (by linarith [hI.1])
    simpa using this

end

end Sdepy
