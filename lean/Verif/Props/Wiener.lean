import Verif.Lemmas.WienerLaw
import Mathlib.Probability.HasLawExists
import Mathlib.Probability.Distributions.Gaussian.Real
import Mathlib.Analysis.Matrix.Order
import Mathlib.Analysis.CStarAlgebra.Matrix

/-!
# Property C30: covariance of the Wiener source with memory
-/

set_option linter.unusedSectionVars false
set_option linter.unusedSimpArgs false

open MeasureTheory ProbabilityTheory Matrix

namespace Sdepy

open Spec

variable {Ω ι κ : Type} [MeasurableSpace Ω] [Fintype κ] [DecidableEq κ] [DecidableEq ι]
  {P : Measure Ω} [IsProbabilityMeasure P]

theorem wiener_getList {t0 rtol : ℝ} {corr : Corr κ} {D : Set ℝ} {F : ℝ → Matrix κ κ ℝ}
    (hC : CorrOk corr D F) {G : ℕ → Matrix κ κ ℝ → ℝ → ℝ → Ω → ι → κ → ℝ} (hG : Draws P G)
    (hr : 0 ≤ rtol) {z0 : ι → κ → ℝ} (ss : List ℝ) : ∀ {n : ℕ} {ts : List ℝ}
    {X : ℝ → Ω → ι → κ → ℝ}, Good P G (wienerCov F t0) z0 n ts X → ts.Pairwise (· < ·) →
    t0 ∈ ts → (∀ u ∈ ts, u ∈ D) → (∀ s ∈ ss, s ∈ D) →
    ∃ (us ts' : List ℝ) (X' : ℝ → Ω → ι → κ → ℝ) (n' : ℕ),
      (∀ ω, (trueWiener t0 rtol corr (seeded G)).getList ss (memAt ts X n ω) =
        .ok (us.map (fun u => X' u ω), memAt ts' X' n' ω)) ∧
      Good P G (wienerCov F t0) z0 n' ts' X' ∧ (∀ u ∈ us, u ∈ ts') ∧
      (∀ v ∈ ts, v ∈ ts' ∧ X' v = X v) ∧ List.Forall₂ (fun s u => |s - u| ≤ rtol * |u|) ss us := by
  induction ss with
  | nil =>
    intro n ts X hg _ _ _ _
    exact ⟨[], ts, X, n, fun _ => rfl, hg, by simp, fun v hv => ⟨hv, rfl⟩, .nil⟩
  | cons s ss ih =>
    intro n ts X hg hsort h0 hts hss
    obtain ⟨u, ts1, X1, n1, e1, g1, s1, d1, u1, k1, c1⟩ :=
      wiener_get1 hC hG hr hg hsort h0 hts (hss s (by simp))
    obtain ⟨us, ts2, X2, n2, e2, g2, u2, k2, c2⟩ :=
      ih g1 s1 (k1 t0 h0).1 d1 (fun s hs => hss s (by simp [hs]))
    refine ⟨u :: us, ts2, X2, n2, ?_, g2, ?_, ?_, .cons c1 c2⟩
    · intro ω
      simp only [TrueSrc.getList]
      rw [e1]
      simp only
      rw [e2]
      simp only [List.map_cons]
      rw [(k2 u u1).2]
    · intro v hv
      rcases List.mem_cons.1 hv with rfl | hv
      · exact (k2 _ u1).1
      · exact u2 v hv
    · intro v hv
      obtain ⟨h1, h2⟩ := k1 v hv
      obtain ⟨h3, h4⟩ := k2 v h1
      exact ⟨h3, h4.trans h2⟩

/-- **C30** (covariance of all values). Evaluate a Wiener source with memory at any sequence of
times, in any order, with correlations that the midpoint rule integrates exactly (those constant
in time, or linear in time): the values returned are those of a process `W`, at the times asked for
up to the tolerance, with mean `z0` and covariance that of a Wiener process starting at `t0`, the
same whatever the order of evaluation. Values of different paths, or along other axes, are not
correlated. No evaluation fails. -/
theorem C30_covariance {t0 rtol : ℝ} {corr : Corr κ} {D : Set ℝ} {F : ℝ → Matrix κ κ ℝ}
    (hC : CorrOk corr D F) {G : ℕ → Matrix κ κ ℝ → ℝ → ℝ → Ω → ι → κ → ℝ} (hG : Draws P G)
    (hr : 0 ≤ rtol) (h0 : t0 ∈ D) (z0 : ι → κ → ℝ) (ss : List ℝ) (hss : ∀ s ∈ ss, s ∈ D) :
    ∃ (us : List ℝ) (W : ℝ → Ω → ι → κ → ℝ) (m : Ω → Mem ℝ (ι → κ → ℝ) (Ω × ℕ)),
      (∀ ω, (trueWiener t0 rtol corr (seeded G)).call ss none (Mem.new t0 z0 (ω, 0)) =
        .ok (us.map (fun u => W u ω), m ω)) ∧
      List.Forall₂ (fun s u => |s - u| ≤ rtol * |u|) ss us ∧
      (∀ ω, W t0 ω = z0) ∧
      (∀ u ∈ t0 :: us, ∀ i, L2 P (fun ω => W u ω i) ∧ meanV P (fun ω => W u ω i) = z0 i) ∧
      ∀ u ∈ t0 :: us, ∀ v ∈ t0 :: us, ∀ i j,
        covM P (fun ω => W u ω i) (fun ω => W v ω j) = if i = j then wienerCov F t0 u v else 0 := by
  have hg := good_start (P := P) G F t0 z0 0
  obtain ⟨us, ts', W, n', h1, h2, h3, h4, h5⟩ := wiener_getList hC hG hr ss hg (by simp) (by simp)
    (by simpa using h0) hss
  have h4' := h4 t0 (by simp)
  have hmem : ∀ u ∈ t0 :: us, u ∈ ts' := by
    intro u hu
    rcases List.mem_cons.1 hu with rfl | hu
    · exact h4'.1
    · exact h3 u hu
  refine ⟨us, W, fun ω => memAt ts' W n' ω, h1, h5, fun ω => by rw [h4'.2],
    fun u hu i => ⟨h2.l2 u (hmem u hu) i, h2.mean u (hmem u hu) i⟩,
    fun u hu v hv i j => h2.cov u (hmem u hu) v (hmem v hv) i j⟩

/-- **C30** (increments). With `rtol = 0`, increments between any two of the times evaluated have
the covariance matrix `F b - F a`, and increments over intervals that do not overlap are not
correlated: in whatever order the times were evaluated, before or after `t0`. -/
theorem C30_increments {t0 : ℝ} {corr : Corr κ} {D : Set ℝ} {F : ℝ → Matrix κ κ ℝ}
    (hC : CorrOk corr D F) {G : ℕ → Matrix κ κ ℝ → ℝ → ℝ → Ω → ι → κ → ℝ} (hG : Draws P G)
    (h0 : t0 ∈ D) (z0 : ι → κ → ℝ) (ss : List ℝ) (hss : ∀ s ∈ ss, s ∈ D) :
    ∃ (W : ℝ → Ω → ι → κ → ℝ) (m : Ω → Mem ℝ (ι → κ → ℝ) (Ω × ℕ)),
      (∀ ω, (trueWiener t0 0 corr (seeded G)).call ss none (Mem.new t0 z0 (ω, 0)) =
        .ok (ss.map (fun u => W u ω), m ω)) ∧
      (∀ a ∈ ss, ∀ b ∈ ss, a ≤ b → ∀ i, covM P (fun ω => W b ω i - W a ω i)
        (fun ω => W b ω i - W a ω i) = F b - F a) ∧
      ∀ a ∈ ss, ∀ b ∈ ss, ∀ c ∈ ss, ∀ d ∈ ss, a ≤ b → b ≤ c → c ≤ d → ∀ i j,
        covM P (fun ω => W b ω i - W a ω i) (fun ω => W d ω j - W c ω j) = 0 := by
  obtain ⟨us, W, m, h1, h2, h3, h4, h5⟩ := C30_covariance hC hG le_rfl h0 z0 ss hss
  have hus : us = ss := by
    clear h1 h4 h5 hss
    induction h2 with
    | nil => rfl
    | cons h _ ih =>
      rw [zero_mul] at h
      rw [ih, sub_eq_zero.1 (abs_nonpos_iff.1 h)]
  subst hus
  have hl2 : ∀ u ∈ us, ∀ i, L2 P (fun ω => W u ω i) := fun u hu i => (h4 u (by simp [hu]) i).1
  have hcov : ∀ u ∈ us, ∀ v ∈ us, ∀ i j, covM P (fun ω => W u ω i) (fun ω => W v ω j) =
      if i = j then wienerCov F t0 u v else 0 :=
    fun u hu v hv i j => h5 u (by simp [hu]) v (by simp [hv]) i j
  have hneg : ∀ {X : Ω → κ → ℝ}, (fun ω => -X ω) = fun ω => (-1 : Matrix κ κ ℝ) *ᵥ X ω := by
    intro X; funext ω; rw [Matrix.neg_mulVec, Matrix.one_mulVec]
  have hlneg : ∀ {X : Ω → κ → ℝ}, L2 P X → L2 P (fun ω => -X ω) := by
    intro X hX; rw [hneg]; exact l2_mulVec _ hX
  have hsub : ∀ {X Y X' Y' : Ω → κ → ℝ}, L2 P X → L2 P Y → L2 P X' → L2 P Y' →
      covM P (fun ω => X ω - Y ω) (fun ω => X' ω - Y' ω) =
      covM P X X' - covM P X Y' - covM P Y X' + covM P Y Y' := by
    intro X Y X' Y' hX hY hX' hY'
    simp only [sub_eq_add_neg]
    rw [covM_add_left hX (hlneg hY) (l2_add hX' (hlneg hY')), covM_add_right hX' (hlneg hY') hX,
      covM_add_right hX' (hlneg hY') (hlneg hY), hneg, hneg, covM_mulVec_right _ hY' hX,
      covM_mulVec_left _ hY hX', covM_mulVec_right _ hY' (l2_mulVec _ hY),
      covM_mulVec_left _ hY hY']
    simp
    abel
  refine ⟨W, m, h1, ?_, ?_⟩
  · intro a ha b hb hab i
    rw [hsub (hl2 b hb i) (hl2 a ha i) (hl2 b hb i) (hl2 a ha i), hcov b hb b hb, hcov b hb a ha,
      hcov a ha b hb, hcov a ha a ha]
    simp only [if_true, wienerCov_eq, min_self, max_self, min_eq_left hab, min_eq_right hab,
      max_eq_left hab, max_eq_right hab]
    rcases le_total t0 a with h | h
    · rw [max_eq_right h, max_eq_right (h.trans hab), min_eq_left h, min_eq_left (h.trans hab)]
      abel
    · rcases le_total t0 b with h' | h'
      · rw [max_eq_left h, max_eq_right h', min_eq_right h, min_eq_left h']
        abel
      · rw [max_eq_left h, max_eq_left h', min_eq_right h, min_eq_right h']
        abel
  · intro a ha b hb c hc d hd hab hbc hcd i j
    rw [hsub (hl2 b hb i) (hl2 a ha i) (hl2 d hd j) (hl2 c hc j), hcov b hb d hd, hcov b hb c hc,
      hcov a ha d hd, hcov a ha c hc]
    by_cases hij : i = j
    · simp only [hij, if_true, wienerCov_eq, min_eq_left hbc, max_eq_right hbc,
        min_eq_left (hbc.trans hcd), max_eq_right (hbc.trans hcd), min_eq_left (hab.trans hbc),
        max_eq_right (hab.trans hbc), min_eq_left (hab.trans (hbc.trans hcd)),
        max_eq_right (hab.trans (hbc.trans hcd))]
      abel
    · simp [hij]

/-! ### One step, for correlations that depend on time in any way -/

theorem inside_fn {t0 : ℝ} {C : ℝ → Matrix κ κ ℝ} {t1 t2 s : ℝ} (h1 : t1 < s) (h2 : s < t2)
    (hside : t0 ≤ t1 ∨ t2 ≤ t0) {A B : Matrix κ κ ℝ} (hA : A = (s - t1) • C ((t1 + s) / 2))
    (hB : B = (t2 - s) • C ((s + t2) / 2)) (hdet : (A + B).det ≠ 0)
    (G : ℕ → Matrix κ κ ℝ → ℝ → ℝ → Ω → ι → κ → ℝ) (w1 w2 : ι → κ → ℝ) (ω : Ω) (n : ℕ) :
    wienerInside t0 (.fn C) (seeded G) w1 w2 t1 t2 s (ω, n) =
      .ok ((w1, some fun i => (B * (A + B)⁻¹) *ᵥ w1 i + (A * (A + B)⁻¹) *ᵥ w2 i +
        G n (B * (A + B)⁻¹ * A) 0 1 ω i), (ω, n + 1)) := by
  unfold wienerInside
  by_cases hc : t2 ≤ t0
  · simp only [hc, h1, h2, if_true, and_self, or_true, pyAssert, decide_true, wienerBridge]
    have eA : (s - t2) • C ((t2 + s) / 2) = -B := by rw [hB, add_comm t2 s, ← neg_smul, neg_sub]
    have eB : (t1 - s) • C ((s + t1) / 2) = -A := by rw [hA, add_comm s t1, ← neg_smul, neg_sub]
    rw [eA, eB]
    have e1 : -B + -A = -(A + B) := by abel
    have hdet' : (-B + -A).det ≠ 0 := by
      rw [e1, Matrix.det_neg]
      exact mul_ne_zero (pow_ne_zero _ (by norm_num)) hdet
    rw [if_neg hdet']
    have hu : IsUnit (A + B).det := isUnit_iff_ne_zero.2 hdet
    have einv : (-B + -A)⁻¹ = -(A + B)⁻¹ := by
      apply Matrix.inv_eq_right_inv
      rw [e1, neg_mul_neg, Matrix.mul_nonsing_inv _ hu]
    have eZ : -A * (-B + -A)⁻¹ = A * (A + B)⁻¹ := by rw [einv, neg_mul_neg]
    have e1Z : 1 - A * (A + B)⁻¹ = B * (A + B)⁻¹ := by
      rw [sub_eq_iff_eq_add, ← Matrix.add_mul, add_comm B A, Matrix.mul_nonsing_inv _ hu]
    have esgn : (SignType.sign (s - t2) : ℝ) = -1 := by rw [sign_neg (by linarith)]; rfl
    simp only [eZ, e1Z, esgn, seeded, Option.getD_some]
    have ec : (-1 : ℝ) • (A * (A + B)⁻¹ * -B) = B * (A + B)⁻¹ * A := by
      rw [Matrix.mul_neg, neg_smul, one_smul, neg_neg, bridge_comm hdet]
    rw [ec]
    simp only [add_comm]
  · have hle : t0 ≤ t1 := hside.resolve_right hc
    simp only [hc, h1, h2, hle, if_false, if_true, and_self, true_or, pyAssert, decide_true,
      wienerBridge]
    have esgn : (SignType.sign (s - t1) : ℝ) = 1 := by rw [sign_pos (by linarith)]; rfl
    rw [← hA, ← hB, if_neg hdet]
    simp only [bridge_one_sub hdet, esgn, one_smul, seeded, Option.getD_some]

/-- **C30** (one step). Let the stored `w(t1)` and `w(t2)` differ by a vector with covariance
matrix `A + B`, where `A = corr((t1 + s)/2)*(s - t1)` and `B = corr((s + t2)/2)*(t2 - s)`, for any
function `corr`. The new value `w(s)` splits it into two increments that are not correlated, with
covariance matrices `A` and `B`; the stored values do not change. -/
theorem C30_bridge {t0 : ℝ} {C : ℝ → Matrix κ κ ℝ} {t1 t2 s : ℝ} (h1 : t1 < s) (h2 : s < t2)
    (hside : t0 ≤ t1 ∨ t2 ≤ t0) {A B : Matrix κ κ ℝ} (hA : A = (s - t1) • C ((t1 + s) / 2))
    (hB : B = (t2 - s) • C ((s + t2) / 2)) (hdet : (A + B).det ≠ 0)
    (hpA : (C ((t1 + s) / 2)).PosSemidef) (hpB : (C ((s + t2) / 2)).PosSemidef)
    {G : ℕ → Matrix κ κ ℝ → ℝ → ℝ → Ω → ι → κ → ℝ} (hG : Draws P G) {w1 w2 : Ω → ι → κ → ℝ} {n : ℕ}
    (hw1 : ∀ i, L2 P (fun ω => w1 ω i)) (hw2 : ∀ i, L2 P (fun ω => w2 ω i))
    (hcov : ∀ i j, covM P (fun ω => w2 ω i - w1 ω i) (fun ω => w2 ω j - w1 ω j) =
      if i = j then A + B else 0)
    (hf : ∀ i c t dt j, covM P (fun ω => w2 ω i - w1 ω i) (fun ω => G n c t dt ω j) = 0) :
    ∃ ws : Ω → ι → κ → ℝ,
      (∀ ω, wienerInside t0 (.fn C) (seeded G) (w1 ω) (w2 ω) t1 t2 s (ω, n) =
        .ok ((w1 ω, some (ws ω)), (ω, n + 1))) ∧
      (∀ i j, covM P (fun ω => ws ω i - w1 ω i) (fun ω => ws ω j - w1 ω j) =
        if i = j then A else 0) ∧
      (∀ i j, covM P (fun ω => w2 ω i - ws ω i) (fun ω => w2 ω j - ws ω j) =
        if i = j then B else 0) ∧
      ∀ i j, covM P (fun ω => ws ω i - w1 ω i) (fun ω => w2 ω j - ws ω j) = 0 := by
  have pA : A.PosSemidef := by rw [hA]; exact hpA.smul (by linarith)
  have pB : B.PosSemidef := by rw [hB]; exact hpB.smul (by linarith)
  have tA := posSemidef_transpose pA
  have tB := posSemidef_transpose pB
  have hu : IsUnit (A + B).det := isUnit_iff_ne_zero.2 hdet
  have pY := bridge_posSemidef pA pB hdet
  refine ⟨_, fun ω => inside_fn h1 h2 hside hA hB hdet G (w1 ω) (w2 ω) ω n, ?_⟩
  set S := (A + B)⁻¹ with hS
  have hsum : A * S + B * S = 1 := by
    rw [← Matrix.add_mul, Matrix.mul_nonsing_inv _ hu]
  -- the difference of the two stored values
  have l12 : ∀ i, L2 P (fun ω => w2 ω i - w1 ω i) := by
    intro i k
    exact (hw2 i k).sub (hw1 i k)
  have lg := fun i => hG.l2 n (B * S * A) 0 1 i
  have lneg : ∀ i, L2 P (fun ω => (-1 : Matrix κ κ ℝ) *ᵥ G n (B * S * A) 0 1 ω i) :=
    fun i => l2_mulVec _ (lg i)
  have e1 : ∀ i, (fun ω => ((B * S) *ᵥ w1 ω i + (A * S) *ᵥ w2 ω i + G n (B * S * A) 0 1 ω i) -
      w1 ω i) = fun ω => (A * S) *ᵥ (w2 ω i - w1 ω i) + G n (B * S * A) 0 1 ω i := by
    intro i
    funext ω
    have : B * S = 1 - A * S := by rw [← hsum]; abel
    rw [this, Matrix.sub_mulVec, Matrix.one_mulVec, Matrix.mulVec_sub]
    abel
  have e2 : ∀ i, (fun ω => w2 ω i - ((B * S) *ᵥ w1 ω i + (A * S) *ᵥ w2 ω i +
      G n (B * S * A) 0 1 ω i)) =
      fun ω => (B * S) *ᵥ (w2 ω i - w1 ω i) + (-1 : Matrix κ κ ℝ) *ᵥ G n (B * S * A) 0 1 ω i := by
    intro i
    funext ω
    have : A * S = 1 - B * S := by rw [← hsum]; abel
    rw [this, Matrix.sub_mulVec, Matrix.one_mulVec, Matrix.mulVec_sub, Matrix.neg_mulVec,
      Matrix.one_mulVec]
    abel
  have hf' : ∀ i c t dt j, covM P (fun ω => G n c t dt ω j) (fun ω => w2 ω i - w1 ω i) = 0 := by
    intro i c t dt j
    rw [covM_swap, hf, Matrix.transpose_zero]
  have tAS : (A * S)ᵀ = S * A := by
    rw [Matrix.transpose_mul, hS, Matrix.transpose_nonsing_inv, Matrix.transpose_add, tA, tB]
  have tBS : (B * S)ᵀ = S * B := bridge_transpose tA tB
  have hS1 : ∀ M : Matrix κ κ ℝ, M * S * (A + B) = M := by
    intro M
    rw [Matrix.mul_assoc, Matrix.nonsing_inv_mul _ hu, Matrix.mul_one]
  have hcom : A * S * B = B * S * A := bridge_comm hdet
  have hAA : A * S * A + B * S * A = A := by
    rw [← hcom, ← Matrix.mul_add, hS1]
  have hBB : B * S * B + B * S * A = B := by
    rw [← Matrix.mul_add, add_comm B A, hS1]
  refine ⟨?_, ?_, ?_⟩
  · intro i j
    rw [e1, e1, covM_add_left (l2_mulVec _ (l12 i)) (lg i) (l2_add (l2_mulVec _ (l12 j)) (lg j)),
      covM_add_right (l2_mulVec _ (l12 j)) (lg j) (l2_mulVec _ (l12 i)),
      covM_add_right (l2_mulVec _ (l12 j)) (lg j) (lg i),
      covM_mulVec_left _ (l12 i) (l2_mulVec _ (l12 j)), covM_mulVec_left _ (l12 i) (lg j),
      covM_mulVec_right _ (l12 j) (l12 i), covM_mulVec_right _ (l12 j) (lg i), hcov, hf, hf',
      hG.cov n _ 0 1 i j pY]
    by_cases hij : i = j
    · simp only [hij, if_true, tAS, Matrix.mul_zero, Matrix.zero_mul, add_zero, zero_add, abs_one,
        one_smul]
      rw [← Matrix.mul_assoc, ← Matrix.mul_assoc, hS1]
      exact hAA
    · simp [hij]
  · intro i j
    rw [e2, e2, covM_add_left (l2_mulVec _ (l12 i)) (lneg i) (l2_add (l2_mulVec _ (l12 j)) (lneg j)),
      covM_add_right (l2_mulVec _ (l12 j)) (lneg j) (l2_mulVec _ (l12 i)),
      covM_add_right (l2_mulVec _ (l12 j)) (lneg j) (lneg i),
      covM_mulVec_left _ (l12 i) (l2_mulVec _ (l12 j)), covM_mulVec_left _ (l12 i) (lneg j),
      covM_mulVec_right _ (l12 j) (l12 i), covM_mulVec_right _ (l12 j) (lneg i),
      covM_mulVec_right _ (lg j) (l12 i), covM_mulVec_right _ (lg j) (lneg i),
      covM_mulVec_left _ (lg i) (lg j), covM_mulVec_left _ (lg i) (l12 j), hcov, hf, hf',
      hG.cov n _ 0 1 i j pY]
    by_cases hij : i = j
    · simp only [hij, if_true, tBS, Matrix.mul_zero, Matrix.zero_mul, add_zero, zero_add, abs_one,
        neg_zero, one_smul, Matrix.transpose_neg, Matrix.transpose_one, Matrix.mul_neg, Matrix.neg_mul,
        Matrix.mul_one, Matrix.one_mul, neg_neg]
      rw [← Matrix.mul_assoc, ← Matrix.mul_assoc, hS1]
      exact hBB
    · simp [hij]
  · intro i j
    rw [e1, e2, covM_add_left (l2_mulVec _ (l12 i)) (lg i) (l2_add (l2_mulVec _ (l12 j)) (lneg j)),
      covM_add_right (l2_mulVec _ (l12 j)) (lneg j) (l2_mulVec _ (l12 i)),
      covM_add_right (l2_mulVec _ (l12 j)) (lneg j) (lg i),
      covM_mulVec_left _ (l12 i) (l2_mulVec _ (l12 j)), covM_mulVec_left _ (l12 i) (lneg j),
      covM_mulVec_right _ (l12 j) (l12 i), covM_mulVec_right _ (l12 j) (lg i),
      covM_mulVec_right _ (lg j) (l12 i), covM_mulVec_right _ (lg j) (lg i), hcov, hf, hf',
      hG.cov n _ 0 1 i j pY]
    by_cases hij : i = j
    · simp only [hij, if_true, tBS, Matrix.mul_zero, Matrix.zero_mul, add_zero, zero_add, abs_one,
        neg_zero, one_smul, Matrix.transpose_neg, Matrix.transpose_one, Matrix.mul_neg, Matrix.mul_one]
      rw [← Matrix.mul_assoc, ← Matrix.mul_assoc, hS1, hcom]
      exact add_neg_cancel _
    · simp [hij]

/-! ### The hypotheses can be met -/

/-- `wiener_source` multiplies the variates by `sqrt(abs(dt))`: it provides what `Draws` asks for. -/
theorem draws_of_normals {N : ℕ → Matrix κ κ ℝ → Ω → ι → κ → ℝ} (h : Normals P N) :
    Draws P (fun n c _ dt ω i k => √|dt| * N n c ω i k) := by
  have e : ∀ n c dt i, (fun ω => (fun k => √|dt| * N n c ω i k)) =
      fun ω => (√|dt| • (1 : Matrix κ κ ℝ)) *ᵥ N n c ω i := by
    intro n c dt i
    funext ω k
    rw [Matrix.smul_mulVec, Matrix.one_mulVec]
    simp
  refine ⟨?_, ?_, ?_, ?_⟩
  · intro n c t dt i
    rw [e]; exact l2_mulVec _ (h.l2 n c i)
  · intro n c t dt i
    rw [e, meanV_mulVec _ (h.l2 n c i), h.mean, Matrix.mulVec_zero]
  · intro n c t dt i j hc
    rw [e, e, covM_mulVec_left _ (h.l2 n c i) (l2_mulVec _ (h.l2 n c j)),
      covM_mulVec_right _ (h.l2 n c j) (h.l2 n c i), h.cov n c i j hc]
    by_cases hij : i = j
    · simp only [hij, if_true, Matrix.transpose_smul, Matrix.transpose_one, Matrix.mul_smul,
        Matrix.smul_mul, Matrix.one_mul, Matrix.mul_one, smul_smul]
      rw [Real.mul_self_sqrt (abs_nonneg _)]
    · simp [hij]
  · intro n c t dt i m c' t' dt' j hnm
    rw [e, e, covM_mulVec_left _ (h.l2 n c i) (l2_mulVec _ (h.l2 m c' j)),
      covM_mulVec_right _ (h.l2 m c' j) (h.l2 n c i), h.uncorr n c i m c' j hnm]
    simp

open scoped MatrixOrder in
/-- There are variates as those asked for by `Normals`. -/
theorem exists_normals (ι κ : Type) [Fintype κ] [DecidableEq κ] [DecidableEq ι] :
    ∃ (Ω : Type) (_ : MeasurableSpace Ω) (P : Measure Ω)
      (N : ℕ → Matrix κ κ ℝ → Ω → ι → κ → ℝ), IsProbabilityMeasure P ∧ Normals P N := by
  obtain ⟨Ω, mΩ, P, X, hm, hlaw, hind, hP⟩ := exists_iid (ℕ × ι × κ) (gaussianReal 0 1)
  have hL : ∀ c : Matrix κ κ ℝ, ∃ L : Matrix κ κ ℝ, c.PosSemidef → c = L * Lᵀ := by
    intro c
    by_cases hc : c.PosSemidef
    · obtain ⟨a, ha⟩ := CStarAlgebra.nonneg_iff_eq_star_mul_self.mp hc.nonneg
      refine ⟨aᵀ, fun _ => ?_⟩
      rw [ha, Matrix.transpose_transpose, Matrix.star_eq_conjTranspose,
        Matrix.conjTranspose_eq_transpose_of_trivial]
    · exact ⟨0, fun h => absurd h hc⟩
  choose L hL using hL
  have l2 : ∀ n i, L2 P (fun ω k => X (n, i, k) ω) := by
    intro n i k
    have := (hlaw (n, i, k)).measurePreserving (hm _)
    exact (memLp_id_gaussianReal 2).comp_measurePreserving this
  have mean : ∀ n i, meanV P (fun ω k => X (n, i, k) ω) = 0 := by
    intro n i
    funext k
    simp only [meanV]
    rw [(hlaw (n, i, k)).integral_eq, integral_id_gaussianReal]
    rfl
  have cov : ∀ n i m j, covM P (fun ω k => X (n, i, k) ω) (fun ω k => X (m, j, k) ω) =
      if n = m ∧ i = j then 1 else 0 := by
    intro n i m j
    ext k l
    simp only [covM]
    by_cases h : (n, i, k) = (m, j, l)
    · simp only [Prod.mk.injEq] at h
      obtain ⟨rfl, rfl, rfl⟩ := h
      simp only [and_self, if_true, Matrix.one_apply_eq]
      rw [covariance_self (hm _).aemeasurable]
      have := (hlaw (n, i, k)).variance_eq
      rw [this, variance_id_gaussianReal]
      rfl
    · rw [(hind.indepFun h).covariance_eq_zero (l2 n i k) (l2 m j l)]
      by_cases h' : n = m ∧ i = j
      · rw [if_pos h', Matrix.one_apply_ne]
        intro hkl
        exact h (by rw [h'.1, h'.2, hkl])
      · rw [if_neg h']; rfl
  refine ⟨Ω, mΩ, P, fun n c ω i => L c *ᵥ fun k => X (n, i, k) ω, hP, ?_, ?_, ?_, ?_⟩
  · intro n c i; exact l2_mulVec _ (l2 n i)
  · intro n c i; rw [meanV_mulVec _ (l2 n i), mean, Matrix.mulVec_zero]
  · intro n c i j hc
    rw [covM_mulVec_left _ (l2 n i) (l2_mulVec _ (l2 n j)),
      covM_mulVec_right _ (l2 n j) (l2 n i), cov]
    by_cases hij : i = j
    · simp only [hij, and_self, if_true, Matrix.one_mul]
      exact (hL c hc).symm
    · simp [hij]
  · intro n c i m c' j hnm
    rw [covM_mulVec_left _ (l2 n i) (l2_mulVec _ (l2 m j)),
      covM_mulVec_right _ (l2 m j) (l2 n i), cov]
    simp [hnm]

/-- Constant correlations are fit for use at all times. -/
theorem corrOk_const {C : Matrix κ κ ℝ} (hC : C.PosSemidef) :
    CorrOk (.const C) Set.univ (fun t => t • C) :=
  ⟨Set.ordConnected_univ, fun u _ v _ => (sub_smul _ _ _).symm, fun _ _ => hC, by simp⟩

/-- So are no correlations. -/
theorem corrOk_none : CorrOk (κ := κ) .none Set.univ (fun t => t • 1) :=
  ⟨Set.ordConnected_univ, fun u _ v _ => (sub_smul _ _ _).symm, fun _ _ => Matrix.PosSemidef.one,
    by simp⟩

/-- Correlations that depend linearly on time are fit for use as long as they are positive definite. -/
theorem corrOk_linear {C0 C1 : Matrix κ κ ℝ} {a b : ℝ}
    (h : ∀ t ∈ Set.Icc a b, (C0 + t • C1).PosDef) :
    CorrOk (.fn fun t => C0 + t • C1) (Set.Icc a b) (fun t => t • C0 + (t ^ 2 / 2) • C1) := by
  refine ⟨Set.ordConnected_Icc, fun u _ v _ => ?_, fun t ht => (h t ht).posSemidef, ?_⟩
  · simp only [corrAt]
    module
  · intro C hC t ht
    cases hC
    exact (h t ht).det_pos.ne'

/-- Correlation that grows from `0` to `1/2`, for `t` from `0` to `1`. -/
example : CorrOk (.fn fun t => (1 : Matrix (Fin 2) (Fin 2) ℝ) + t • !![0, 1/2; 1/2, 0])
    (Set.Icc 0 1) (fun t => t • 1 + (t ^ 2 / 2) • !![0, 1/2; 1/2, 0]) := by
  apply corrOk_linear
  intro t ht
  refine Matrix.PosDef.of_dotProduct_mulVec_pos ?_ ?_
  · ext i j
    fin_cases i <;> fin_cases j <;> simp
  · intro x hx
    have hx' : x 0 ≠ 0 ∨ x 1 ≠ 0 := by
      by_contra h
      push Not at h
      apply hx
      funext i
      fin_cases i
      · exact h.1
      · exact h.2
    simp [Matrix.mulVec, dotProduct, Fin.sum_univ_two, Matrix.add_apply, Matrix.smul_apply]
    obtain ⟨h1, h2⟩ := ht
    rcases hx' with h | h
    · have := sq_pos_of_ne_zero h
      nlinarith [sq_nonneg (x 0 + x 1), sq_nonneg (x 0 - x 1), sq_nonneg (x 1)]
    · have := sq_pos_of_ne_zero h
      nlinarith [sq_nonneg (x 0 + x 1), sq_nonneg (x 0 - x 1), sq_nonneg (x 0)]

/-- All the hypotheses of `C30_covariance` and `C30_increments` hold together: two correlated
components, three paths. -/
example : ∃ (Ω : Type) (_ : MeasurableSpace Ω) (P : Measure Ω)
    (G : ℕ → Matrix (Fin 2) (Fin 2) ℝ → ℝ → ℝ → Ω → Fin 3 → Fin 2 → ℝ),
    IsProbabilityMeasure P ∧ Draws P G ∧
    CorrOk (.const (1 : Matrix (Fin 2) (Fin 2) ℝ)) Set.univ (fun t => t • 1) := by
  obtain ⟨Ω, m, P, N, hP, hN⟩ := exists_normals (Fin 3) (Fin 2)
  exact ⟨Ω, m, P, _, hP, draws_of_normals hN, corrOk_const Matrix.PosSemidef.one⟩

end Sdepy
