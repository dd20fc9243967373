import Verif.Lemmas.Cov
import Verif.Lemmas.TrueSource
import Verif.Lemmas.Gauss
import Verif.Spec.Wiener
import Mathlib.Tactic.Module
import Mathlib.Tactic.LinearCombination
import Mathlib.Tactic.FieldSimp

/-!
# The Wiener source with memory: covariance
-/

set_option linter.unusedSectionVars false
set_option linter.unusedSimpArgs false

open MeasureTheory ProbabilityTheory Matrix

namespace Sdepy

open Spec

section matrices
variable {κ : Type} [Fintype κ] [DecidableEq κ]

theorem bridge_one_sub {A B : Matrix κ κ ℝ} (h : (A + B).det ≠ 0) :
    1 - B * (A + B)⁻¹ = A * (A + B)⁻¹ := by
  have hu : IsUnit (A + B).det := isUnit_iff_ne_zero.2 h
  rw [sub_eq_iff_eq_add, ← Matrix.add_mul, Matrix.mul_nonsing_inv _ hu]

theorem bridge_apply {A B : Matrix κ κ ℝ} (h : (A + B).det ≠ 0) :
    (1 - B * (A + B)⁻¹) * (A + B) = A := by
  have hu : IsUnit (A + B).det := isUnit_iff_ne_zero.2 h
  rw [bridge_one_sub h, Matrix.mul_assoc, Matrix.nonsing_inv_mul _ hu, Matrix.mul_one]

theorem bridge_comm {A B : Matrix κ κ ℝ} (h : (A + B).det ≠ 0) :
    A * (A + B)⁻¹ * B = B * (A + B)⁻¹ * A := by
  have hu : IsUnit (A + B).det := isUnit_iff_ne_zero.2 h
  have h1 : A * (A + B)⁻¹ * (A + B) = A := by
    rw [Matrix.mul_assoc, Matrix.nonsing_inv_mul _ hu, Matrix.mul_one]
  have h2 : (A + B) * (A + B)⁻¹ * A = A := by
    rw [Matrix.mul_nonsing_inv _ hu, Matrix.one_mul]
  rw [Matrix.mul_add] at h1
  rw [Matrix.add_mul, Matrix.add_mul] at h2
  have h3 := h1.trans h2.symm
  exact add_left_cancel h3

theorem bridge_transpose {A B : Matrix κ κ ℝ} (hA : Aᵀ = A) (hB : Bᵀ = B) :
    (B * (A + B)⁻¹)ᵀ = (A + B)⁻¹ * B := by
  rw [Matrix.transpose_mul, Matrix.transpose_nonsing_inv, Matrix.transpose_add, hA, hB]

theorem bridge_symm {A B : Matrix κ κ ℝ} (hA : Aᵀ = A) (hB : Bᵀ = B) (h : (A + B).det ≠ 0) :
    A * (B * (A + B)⁻¹)ᵀ = B * (A + B)⁻¹ * A := by
  rw [bridge_transpose hA hB, ← Matrix.mul_assoc, bridge_comm h]

/-- The matrix passed to the underlying source is positive semidefinite. -/
theorem bridge_posSemidef {A B : Matrix κ κ ℝ} (hA : A.PosSemidef) (hB : B.PosSemidef)
    (h : (A + B).det ≠ 0) : (B * (A + B)⁻¹ * A).PosSemidef := by
  have hu : IsUnit (A + B).det := isUnit_iff_ne_zero.2 h
  have tA : Aᵀ = A := by simpa [Matrix.IsHermitian, Matrix.conjTranspose_eq_transpose_of_trivial] using hA.1
  have tB : Bᵀ = B := by simpa [Matrix.IsHermitian, Matrix.conjTranspose_eq_transpose_of_trivial] using hB.1
  have e : B * (A + B)⁻¹ * A =
      (B * (A + B)⁻¹) * A * (B * (A + B)⁻¹)ᵀ + (A * (A + B)⁻¹) * B * (A * (A + B)⁻¹)ᵀ := by
    have t1 : (A * (A + B)⁻¹)ᵀ = (A + B)⁻¹ * A := by
      rw [Matrix.transpose_mul, Matrix.transpose_nonsing_inv, Matrix.transpose_add, tA, tB]
    rw [bridge_transpose tA tB, t1, bridge_comm h]
    rw [← Matrix.mul_add, ← Matrix.mul_add, add_comm B A, Matrix.nonsing_inv_mul _ hu,
      Matrix.mul_one]
  rw [e]
  have p1 := hA.mul_mul_conjTranspose_same (B * (A + B)⁻¹)
  have p2 := hB.mul_mul_conjTranspose_same (A * (A + B)⁻¹)
  rw [Matrix.conjTranspose_eq_transpose_of_trivial] at p1 p2
  exact p1.add p2

end matrices

variable {Ω ι κ : Type} [MeasurableSpace Ω] [Fintype κ] [DecidableEq κ] [DecidableEq ι]
  {P : Measure Ω} [IsProbabilityMeasure P]

/-- All the draws of a generator, as a family of random variables. -/
def drawFam (G : ℕ → Matrix κ κ ℝ → ℝ → ℝ → Ω → ι → κ → ℝ) :
    ℕ × Matrix κ κ ℝ × ℝ × ℝ × ι × κ → Ω → ℝ :=
  fun p ω => G p.1 p.2.1 p.2.2.1 p.2.2.2.1 ω p.2.2.2.2.1 p.2.2.2.2.2

/-- Values stored at times `ts`, after `n` evaluations of the underlying source. -/
structure Good (P : Measure Ω) (G : ℕ → Matrix κ κ ℝ → ℝ → ℝ → Ω → ι → κ → ℝ)
    (K : ℝ → ℝ → Matrix κ κ ℝ) (z0 : ι → κ → ℝ) (n : ℕ) (ts : List ℝ)
    (X : ℝ → Ω → ι → κ → ℝ) : Prop where
  l2 : ∀ u ∈ ts, ∀ i, L2 P (fun ω => X u ω i)
  mean : ∀ u ∈ ts, ∀ i, meanV P (fun ω => X u ω i) = z0 i
  cov : ∀ u ∈ ts, ∀ v ∈ ts, ∀ i j,
    covM P (fun ω => X u ω i) (fun ω => X v ω j) = if i = j then K u v else 0
  fresh : ∀ u ∈ ts, ∀ i m c t dt j, n ≤ m →
    covM P (fun ω => X u ω i) (fun ω => G m c t dt ω j) = 0
  span : ∀ u ∈ ts, ∀ i k, (fun ω => X u ω i k) ∈ affSpan (drawFam G)

theorem Good.step {G : ℕ → Matrix κ κ ℝ → ℝ → ℝ → Ω → ι → κ → ℝ} (hG : Draws P G)
    {K : ℝ → ℝ → Matrix κ κ ℝ} {z0 : ι → κ → ℝ} {n : ℕ}
    {ts : List ℝ} {X : ℝ → Ω → ι → κ → ℝ} (h : Good P G K z0 n ts X) {u1 u2 s : ℝ}
    (h1 : u1 ∈ ts) (h2 : u2 ∈ ts) (hKs : ∀ u ∈ ts, (K s u)ᵀ = K u s) (hs : s ∉ ts) {Z c : Matrix κ κ ℝ} {t dt : ℝ}
    (hc : c.PosSemidef) (hK : ∀ v ∈ ts, Z * K u1 v + (1 - Z) * K u2 v = K s v)
    (hv : K s u1 * Zᵀ + K s u2 * (1 - Z)ᵀ + |dt| • c = K s s) {ws : Ω → ι → κ → ℝ}
    (hw : ∀ ω i, ws ω i = Z *ᵥ X u1 ω i + (1 - Z) *ᵥ X u2 ω i + G n c t dt ω i) {ts' : List ℝ}
    (hts : ∀ u, u ∈ ts' ↔ u = s ∨ u ∈ ts) :
    Good P G K z0 (n + 1) ts' (Function.update X s ws) := by
  have e : ∀ i, (fun ω => ws ω i) =
      fun ω => (Z *ᵥ X u1 ω i + (1 - Z) *ᵥ X u2 ω i) + G n c t dt ω i := by
    intro i; funext ω; exact hw ω i
  have l1 := fun i => l2_mulVec Z (h.l2 u1 h1 i)
  have l2 := fun i => l2_mulVec (1 - Z) (h.l2 u2 h2 i)
  have l12 := fun i => l2_add (l1 i) (l2 i)
  have lg := fun i => hG.l2 n c t dt i
  have lw : ∀ i, L2 P (fun ω => ws ω i) := by
    intro i; rw [e]; exact l2_add (l12 i) (lg i)
  have hX : ∀ u ∈ ts, Function.update X s ws u = X u := by
    intro u hu
    exact Function.update_of_ne (fun e : u = s => hs (e ▸ hu)) _ _
  have hXs : Function.update X s ws s = ws := Function.update_self _ _ _
  -- covariance of the new value with any vector
  have cov1 : ∀ i Y, L2 P Y → covM P (fun ω => ws ω i) Y =
      Z * covM P (fun ω => X u1 ω i) Y + (1 - Z) * covM P (fun ω => X u2 ω i) Y +
        covM P (fun ω => G n c t dt ω i) Y := by
    intro i Y hY
    rw [e, covM_add_left (l12 i) (lg i) hY, covM_add_left (l1 i) (l2 i) hY,
      covM_mulVec_left Z (h.l2 u1 h1 i) hY, covM_mulVec_left (1 - Z) (h.l2 u2 h2 i) hY]
  have cov2 : ∀ v ∈ ts, ∀ i j, covM P (fun ω => ws ω i) (fun ω => X v ω j) =
      if i = j then K s v else 0 := by
    intro v hv i j
    rw [cov1 i _ (h.l2 v hv j), h.cov u1 h1 v hv, h.cov u2 h2 v hv, covM_swap,
      h.fresh v hv j n c t dt i le_rfl]
    by_cases hij : i = j
    · simp only [hij, if_true, Matrix.transpose_zero, add_zero]; exact hK v hv
    · simp [hij]
  have cov3 : ∀ i j, covM P (fun ω => ws ω i) (fun ω => G n c t dt ω j) =
      if i = j then |dt| • c else 0 := by
    intro i j
    rw [cov1 i _ (lg j), h.fresh u1 h1 i n c t dt j le_rfl, h.fresh u2 h2 i n c t dt j le_rfl,
      hG.cov n c t dt i j hc]
    simp
  have cov4 : ∀ i j, covM P (fun ω => ws ω i) (fun ω => ws ω j) = if i = j then K s s else 0 := by
    intro i j
    conv_lhs => rw [e j]
    rw [covM_add_right (l12 j) (lg j) (lw i), covM_add_right (l1 j) (l2 j) (lw i),
      covM_mulVec_right Z (h.l2 u1 h1 j) (lw i), covM_mulVec_right (1 - Z) (h.l2 u2 h2 j) (lw i),
      cov2 u1 h1, cov2 u2 h2, cov3]
    by_cases hij : i = j
    · simp only [hij, if_true]; exact hv
    · simp [hij]
  constructor
  · intro u hu i
    rcases (hts u).1 hu with rfl | hu
    · rw [hXs]; exact lw i
    · rw [hX u hu]; exact h.l2 u hu i
  · intro u hu i
    rcases (hts u).1 hu with rfl | hu
    · rw [hXs, e, meanV_add (l12 i) (lg i), meanV_add (l1 i) (l2 i),
        meanV_mulVec Z (h.l2 u1 h1 i), meanV_mulVec (1 - Z) (h.l2 u2 h2 i), h.mean u1 h1,
        h.mean u2 h2, hG.mean, add_zero, ← Matrix.add_mulVec]
      simp
    · rw [hX u hu]; exact h.mean u hu i
  · intro u hu v hv' i j
    rcases (hts u).1 hu with rfl | hu <;> rcases (hts v).1 hv' with rfl | hv
    · rw [hXs]; exact cov4 i j
    · rw [hXs, hX v hv]; exact cov2 v hv i j
    · rw [hXs, hX u hu, covM_swap, cov2 u hu j i]
      by_cases hij : i = j
      · simp only [hij, if_true]; exact hKs _ hu
      · simp [hij, Ne.symm hij]
    · rw [hX u hu, hX v hv]; exact h.cov u hu v hv i j
  · intro u hu i m c' t' dt' j hm
    rcases (hts u).1 hu with rfl | hu
    · rw [hXs, cov1 i _ (hG.l2 _ _ _ _ _), h.fresh u1 h1 i m c' t' dt' j (by omega),
        h.fresh u2 h2 i m c' t' dt' j (by omega), hG.uncorr n c t dt i m c' t' dt' j (by omega)]
      simp
    · rw [hX u hu]; exact h.fresh u hu i m c' t' dt' j (by omega)
  · intro u hu i k
    rcases (hts u).1 hu with rfl | hu
    · rw [hXs]
      have e' : (fun ω => ws ω i k) = (∑ l, Z k l • fun ω => X u1 ω i l) +
          (∑ l, (1 - Z) k l • fun ω => X u2 ω i l) + drawFam G (n, c, t, dt, i, k) := by
        funext ω
        rw [hw ω i]
        simp only [Pi.add_apply, Matrix.mulVec, dotProduct, Finset.sum_apply, Pi.smul_apply,
          smul_eq_mul, drawFam]
      rw [e']
      exact Submodule.add_mem _ (Submodule.add_mem _
        (Submodule.sum_mem _ fun l _ => Submodule.smul_mem _ _ (h.span u1 h1 i l))
        (Submodule.sum_mem _ fun l _ => Submodule.smul_mem _ _ (h.span u2 h2 i l)))
        (affSpan_draw _ _)
    · rw [hX u hu]; exact h.span u hu i k

theorem wienerCov_eq (F : ℝ → Matrix κ κ ℝ) (t0 u v : ℝ) :
    wienerCov F t0 u v = F (max t0 (min u v)) - F (min t0 (max u v)) := by
  unfold wienerCov
  split_ifs with h1 h2
  · rw [max_eq_right (le_min h1.1 h1.2), min_eq_left (h1.1.trans (le_max_left u v))]
  · rw [max_eq_left ((min_le_left u v).trans h2.1), min_eq_right (max_le h2.1 h2.2)]
  · have : min u v ≤ t0 ∧ t0 ≤ max u v := by
      rcases le_total t0 u with h | h <;> rcases le_total t0 v with h' | h'
      · exact absurd ⟨h, h'⟩ h1
      · exact ⟨(min_le_right _ _).trans h', h.trans (le_max_left _ _)⟩
      · exact ⟨(min_le_left _ _).trans h, h'.trans (le_max_right _ _)⟩
      · exact absurd ⟨h, h'⟩ h2
    rw [max_eq_left this.1, min_eq_left this.2, sub_self]

theorem posSemidef_transpose {A : Matrix κ κ ℝ} (h : A.PosSemidef) : Aᵀ = A := by
  simpa [Matrix.IsHermitian, Matrix.conjTranspose_eq_transpose_of_trivial] using h.1

theorem midIntegral_symm {D : Set ℝ} {C F : ℝ → Matrix κ κ ℝ} (hD : D.OrdConnected)
    (hF : MidIntegral D C F) (hC : ∀ t ∈ D, (C t).PosSemidef) {u v : ℝ} (hu : u ∈ D) (hv : v ∈ D) :
    (F v - F u)ᵀ = F v - F u := by
  have hm : (u + v) / 2 ∈ D := by
    rcases le_total u v with h | h
    · exact hD.out hu hv ⟨by linarith, by linarith⟩
    · exact hD.out hv hu ⟨by linarith, by linarith⟩
  rw [hF u hu v hv, Matrix.transpose_smul, posSemidef_transpose (hC _ hm)]

theorem Spec.CorrOk.mem {corr : Corr κ} {D : Set ℝ} {F : ℝ → Matrix κ κ ℝ} (h : CorrOk corr D F)
    {u v : ℝ} (hu : u ∈ D) (hv : v ∈ D) : (u + v) / 2 ∈ D := by
  rcases le_total u v with h' | h'
  · exact h.conn.out hu hv ⟨by linarith, by linarith⟩
  · exact h.conn.out hv hu ⟨by linarith, by linarith⟩

theorem Spec.CorrOk.symm {corr : Corr κ} {D : Set ℝ} {F : ℝ → Matrix κ κ ℝ} (h : CorrOk corr D F)
    {t0 u v : ℝ} (h0 : t0 ∈ D) (hu : u ∈ D) (hv : v ∈ D) :
    (wienerCov F t0 u v)ᵀ = wienerCov F t0 v u := by
  have hmin : min u v ∈ D := by rcases min_choice u v with h | h <;> rw [h] <;> assumption
  have hmax : max u v ∈ D := by rcases max_choice u v with h | h <;> rw [h] <;> assumption
  have h1 : max t0 (min u v) ∈ D := by
    rcases max_choice t0 (min u v) with h | h <;> rw [h] <;> assumption
  have h2 : min t0 (max u v) ∈ D := by
    rcases min_choice t0 (max u v) with h | h <;> rw [h] <;> assumption
  rw [wienerCov_eq, wienerCov_eq, midIntegral_symm h.conn h.mid h.psd h2 h1, min_comm u v,
    max_comm u v]

theorem bridge_ok {corr : Corr κ} {D : Set ℝ} {F : ℝ → Matrix κ κ ℝ} (hC : CorrOk corr D F)
    (G : ℕ → Matrix κ κ ℝ → ℝ → ℝ → Ω → ι → κ → ℝ) {t1 t2 s e : ℝ} (h1 : t1 ∈ D) (h2 : t2 ∈ D)
    (hs : s ∈ D) (he : (e = 1 ∧ t1 < s ∧ s < t2) ∨ (e = -1 ∧ t2 < s ∧ s < t1)) :
    ∃ (Z c : Matrix κ κ ℝ) (t dt : ℝ), c.PosSemidef ∧
      (∀ ω w1 w2 n, wienerBridge corr (seeded G) w1 w2 t1 t2 s (ω, n) =
        .ok (fun i => Z *ᵥ w1 i + (1 - Z) *ᵥ w2 i + G n c t dt ω i, (ω, n + 1))) ∧
      (1 - Z) * (F t2 - F t1) = F s - F t1 ∧
      |dt| • c = e • (Z * (F s - F t1)) ∧ (F s - F t1) * Zᵀ = Z * (F s - F t1) := by
  have hsgn : (SignType.sign (s - t1) : ℝ) = e := by
    rcases he with ⟨rfl, h, _⟩ | ⟨rfl, _, h⟩
    · rw [sign_pos (by linarith)]; rfl
    · rw [sign_neg (by linarith)]; rfl
  have hee : e * e = 1 := by rcases he with ⟨rfl, _⟩ | ⟨rfl, _⟩ <;> norm_num
  have h12 : t2 - t1 ≠ 0 := by rcases he with ⟨_, _, _⟩ | ⟨_, _, _⟩ <;> intro h <;> linarith
  -- constant correlations
  have hconst : ∀ (C : Matrix κ κ ℝ), C.PosSemidef → (∀ t, corrAt corr t = C) →
      (∀ w1 w2 st, wienerBridge corr (seeded G) w1 w2 t1 t2 s st =
        match seeded G (corr.at 0) 0 ((t2 - s) / ((s - t1) + (t2 - s)) * (s - t1)) st with
        | .error e => .error e
        | .ok (d, st) => .ok (fun i k => (t2 - s) / ((s - t1) + (t2 - s)) * w1 i k +
            (1 - (t2 - s) / ((s - t1) + (t2 - s))) * w2 i k + d i k, st)) →
      (corr.at 0).getD 1 = C →
      ∃ (Z c : Matrix κ κ ℝ) (t dt : ℝ), c.PosSemidef ∧
      (∀ ω w1 w2 n, wienerBridge corr (seeded G) w1 w2 t1 t2 s (ω, n) =
        .ok (fun i => Z *ᵥ w1 i + (1 - Z) *ᵥ w2 i + G n c t dt ω i, (ω, n + 1))) ∧
      (1 - Z) * (F t2 - F t1) = F s - F t1 ∧
      |dt| • c = e • (Z * (F s - F t1)) ∧ (F s - F t1) * Zᵀ = Z * (F s - F t1) := by
    intro C hpsd hcorr hbr hat
    set z := (t2 - s) / ((s - t1) + (t2 - s)) with hz
    have hz1 : 1 - z = (s - t1) / (t2 - t1) := by
      rw [hz, sub_add_sub_cancel']
      field_simp
      ring
    have hz0 : z = (t2 - s) / (t2 - t1) := by rw [hz, sub_add_sub_cancel']
    have hzpos : 0 ≤ z := by
      rw [hz0]
      rcases he with ⟨_, h, h'⟩ | ⟨_, h, h'⟩
      · exact div_nonneg (by linarith) (by linarith)
      · exact div_nonneg_of_nonpos (by linarith) (by linarith)
    refine ⟨z • 1, C, 0, z * (s - t1), hpsd, ?_, ?_, ?_, ?_⟩
    · intro ω w1 w2 n
      rw [hbr]
      simp only [seeded, hat]
      congr 2
      funext i k
      have : (1 : Matrix κ κ ℝ) - z • 1 = (1 - z) • 1 := by module
      rw [this, Matrix.smul_mulVec, Matrix.smul_mulVec]
      simp
    · rw [hC.mid t1 h1 t2 h2, hC.mid t1 h1 s hs, hcorr, hcorr]
      have : (1 : Matrix κ κ ℝ) - z • 1 = (1 - z) • 1 := by module
      rw [this, Matrix.smul_mul, Matrix.one_mul, smul_smul, hz1, div_mul_cancel₀ _ h12]
    · rw [hC.mid t1 h1 s hs, hcorr, Matrix.smul_mul, Matrix.one_mul, smul_smul, smul_smul, abs_mul,
        abs_of_nonneg hzpos]
      congr 1
      have : |s - t1| = e * (s - t1) := by
        rcases he with ⟨rfl, h, _⟩ | ⟨rfl, _, h⟩
        · rw [abs_of_nonneg (by linarith), one_mul]
        · rw [abs_of_nonpos (by linarith)]; ring
      rw [this]; ring
    · rw [Matrix.transpose_smul, Matrix.transpose_one, Matrix.mul_smul, Matrix.mul_one,
        Matrix.smul_mul, Matrix.one_mul]
  cases hc : corr with
  | none =>
    subst hc
    exact hconst 1 Matrix.PosSemidef.one (fun _ => rfl) (fun _ _ _ => rfl) rfl
  | const C =>
    subst hc
    exact hconst C (hC.psd s hs) (fun _ => rfl) (fun _ _ _ => rfl) rfl
  | fn C =>
    subst hc
    clear hconst
    have hA : (s - t1) • C ((t1 + s) / 2) = F s - F t1 := (hC.mid t1 h1 s hs).symm
    have hB : (t2 - s) • C ((s + t2) / 2) = F t2 - F s := (hC.mid s hs t2 h2).symm
    have hdet : (F s - F t1 + (F t2 - F s)).det ≠ 0 := by
      rw [sub_add_sub_cancel', hC.mid t1 h1 t2 h2, Matrix.det_smul]
      exact mul_ne_zero (pow_ne_zero _ h12) (hC.inv C rfl _ (hC.mem h1 h2))
    have tA : (F s - F t1)ᵀ = F s - F t1 := midIntegral_symm hC.conn hC.mid hC.psd h1 hs
    have tB : (F t2 - F s)ᵀ = F t2 - F s := midIntegral_symm hC.conn hC.mid hC.psd hs h2
    refine ⟨(F t2 - F s) * (F s - F t1 + (F t2 - F s))⁻¹,
      e • ((F t2 - F s) * (F s - F t1 + (F t2 - F s))⁻¹ * (F s - F t1)), 0, 1, ?_, ?_, ?_, ?_, ?_⟩
    · have key : ∀ {A B : Matrix κ κ ℝ}, (A + B).det ≠ 0 →
          e • (B * (A + B)⁻¹ * A) = (e • B) * (e • A + e • B)⁻¹ * (e • A) := by
        intro A B hAB
        have hAB' : IsUnit (A + B).det := isUnit_iff_ne_zero.2 hAB
        have : (e • A + e • B)⁻¹ = e • (A + B)⁻¹ := by
          apply Matrix.inv_eq_right_inv
          rw [← smul_add, Matrix.smul_mul, Matrix.mul_smul, smul_smul, hee, one_smul,
            Matrix.mul_nonsing_inv _ hAB']
        rw [this]
        simp only [Matrix.smul_mul, Matrix.mul_smul, smul_smul]
        congr 1
        linear_combination (-e) * hee
      rw [key hdet]
      have pe : ∀ {u v : ℝ}, u ∈ D → v ∈ D → 0 ≤ e * (v - u) → (e • (F v - F u)).PosSemidef := by
        intro u v hu hv h
        rw [hC.mid u hu v hv, smul_smul]
        exact (hC.psd _ (hC.mem hu hv)).smul h
      refine bridge_posSemidef (pe h1 hs ?_) (pe hs h2 ?_) ?_
      · rcases he with ⟨rfl, h, h'⟩ | ⟨rfl, h, h'⟩ <;> linarith
      · rcases he with ⟨rfl, h, h'⟩ | ⟨rfl, h, h'⟩ <;> linarith
      · rw [← smul_add, Matrix.det_smul]
        refine mul_ne_zero (pow_ne_zero _ ?_) hdet
        rintro rfl
        norm_num at hee
    · intro ω w1 w2 n
      unfold wienerBridge
      simp only [hA, hB, hsgn]
      rw [if_neg hdet]
      simp only [seeded, Option.getD_some]
    · have := bridge_apply hdet
      rwa [sub_add_sub_cancel'] at this ⊢
    · simp
    · exact bridge_symm tA tB hdet

theorem corr_at_getD (corr : Corr κ) (t : ℝ) : (corr.at t).getD 1 = corrAt corr t := by
  cases corr <;> rfl

/-- Memory that holds `X` at times `ts`. -/
def memAt (ts : List ℝ) (X : ℝ → Ω → ι → κ → ℝ) (n : ℕ) (ω : Ω) :
    Mem ℝ (ι → κ → ℝ) (Ω × ℕ) := ⟨ts, ts.map (fun u => X u ω), (ω, n)⟩

theorem map_update {ts : List ℝ} {s : ℝ} (hs : s ∉ ts) (X : ℝ → Ω → ι → κ → ℝ)
    (ws : Ω → ι → κ → ℝ) (ω : Ω) :
    ts.map (fun u => Function.update X s ws u ω) = ts.map (fun u => X u ω) := by
  apply List.map_congr_left
  intro u hu
  rw [Function.update_of_ne (fun e : u = s => hs (e ▸ hu))]

/-- One evaluation of the source, seen over all outcomes. -/
theorem wiener_get1 {t0 rtol : ℝ} {corr : Corr κ} {D : Set ℝ} {F : ℝ → Matrix κ κ ℝ}
    (hC : CorrOk corr D F) {G : ℕ → Matrix κ κ ℝ → ℝ → ℝ → Ω → ι → κ → ℝ} (hG : Draws P G)
    (hr : 0 ≤ rtol)
    {z0 : ι → κ → ℝ} {n : ℕ} {ts : List ℝ} {X : ℝ → Ω → ι → κ → ℝ}
    (hg : Good P G (wienerCov F t0) z0 n ts X) (hsort : ts.Pairwise (· < ·)) (h0 : t0 ∈ ts)
    (hts : ∀ u ∈ ts, u ∈ D) {s : ℝ} (hs : s ∈ D) :
    ∃ (u : ℝ) (ts' : List ℝ) (X' : ℝ → Ω → ι → κ → ℝ) (n' : ℕ),
      (∀ ω, (trueWiener t0 rtol corr (seeded G)).get1 s (memAt ts X n ω) =
        .ok (X' u ω, memAt ts' X' n' ω)) ∧
      Good P G (wienerCov F t0) z0 n' ts' X' ∧ ts'.Pairwise (· < ·) ∧ (∀ u ∈ ts', u ∈ D) ∧
      u ∈ ts' ∧ (∀ v ∈ ts, v ∈ ts' ∧ X' v = X v) ∧ |s - u| ≤ rtol * |u| := by
  obtain ⟨g1, g2, g3⟩ := bisectRight_spec ts s hsort
  have hKs : ∀ u ∈ ts, (wienerCov F t0 s u)ᵀ = wienerCov F t0 u s :=
    fun u hu => hC.symm (hts t0 h0) hs (hts u hu)
  have hne : ts ≠ [] := List.ne_nil_of_mem h0
  have hpos : 0 < ts.length := List.length_pos_iff.2 hne
  have hrs : |s - s| ≤ rtol * |s| := by rw [sub_self, abs_zero]; positivity
  obtain ⟨k, hk⟩ : ∃ k, bisectRight ts s = k := ⟨_, rfl⟩
  rw [hk] at g1 g2 g3
  unfold TrueSrc.get1
  simp only [memAt, hk]
  obtain ⟨u, hu⟩ : ∃ u, ts[if k = 0 then ts.length - 1 else k - 1]? = some u :=
    ⟨_, List.getElem?_eq_getElem (by split <;> omega)⟩
  have humem : u ∈ ts := List.mem_of_getElem? hu
  simp only [hu, List.getElem?_map, Option.map_some]
  by_cases hc : isClose rtol s u
  · refine ⟨u, ts, X, n, ?_, hg, hsort, hts, humem, fun v hv => ⟨hv, rfl⟩, hc⟩
    intro ω
    rw [if_pos (by exact hc)]
    rfl
  have hsu : s ≠ u := by
    rintro rfl
    exact hc hrs
  have hright : ∀ v ∈ ts, (v ≤ s ∧ (∃ i, i < k ∧ ts[i]? = some v)) ∨
      (s < v ∧ (∃ i, k ≤ i ∧ ts[i]? = some v)) := by
    intro v hv
    obtain ⟨i, hi⟩ := List.mem_iff_getElem?.1 hv
    rcases Nat.lt_or_ge i k with h | h
    · exact .inl ⟨g1 i v h hi, i, h, hi⟩
    · exact .inr ⟨g2 i v h hi, i, h, hi⟩
  have hmono : ∀ {i j : ℕ} {x y : ℝ}, ts[i]? = some x → ts[j]? = some y → i ≤ j → x ≤ y := by
    intro i j x y hx hy hij
    obtain ⟨hi, rfl⟩ := List.getElem?_eq_some_iff.1 hx
    obtain ⟨hj, rfl⟩ := List.getElem?_eq_some_iff.1 hy
    rcases Nat.eq_or_lt_of_le hij with h | h
    · subst h; exact le_rfl
    · exact (List.pairwise_iff_getElem.1 hsort i j hi hj h).le
  have hcl : ∀ _ω : Ω, ¬ isClose (trueWiener t0 rtol corr (seeded G)).rtol s u := fun _ => hc
  -- a new value outside
  have hout : ∀ (t : ℝ), t ∈ ts → (t0 ≤ t ∧ t < s ∧ (∀ v ∈ ts, v ≤ t) ∨
      s < t ∧ t ≤ t0 ∧ (∀ v ∈ ts, t ≤ v)) → ∃ ws : Ω → ι → κ → ℝ,
      (∀ ω, wienerOutside t0 corr (seeded G) (X t ω) t s (ω, n) =
        .ok ((X t ω, ws ω), (ω, n + 1))) ∧
      ∀ ts', (∀ u, u ∈ ts' ↔ u = s ∨ u ∈ ts) →
        Good P G (wienerCov F t0) z0 (n + 1) ts' (Function.update X s ws) := by
    intro t ht hside
    have htD := hts t ht
    have hns : s ∉ ts := by
      intro hmem
      rcases hside with ⟨_, h, h'⟩ | ⟨h, _, h'⟩
      · exact absurd (h' s hmem) (not_le.2 h)
      · exact absurd (h' s hmem) (not_le.2 h)
    refine ⟨fun ω i => X t ω i + G n (corrAt corr ((t + s) / 2)) t (s - t) ω i, ?_, ?_⟩
    · intro ω
      unfold wienerOutside
      have : pyAssert ((t0 ≤ t ∧ t < s) ∨ (s < t ∧ t ≤ t0)) = .ok () := by
        have : (t0 ≤ t ∧ t < s) ∨ (s < t ∧ t ≤ t0) := by
          rcases hside with ⟨h, h', _⟩ | ⟨h, h', _⟩
          · exact .inl ⟨h, h'⟩
          · exact .inr ⟨h, h'⟩
        simp [pyAssert, this]
      rw [this]
      simp only [seeded, corr_at_getD]
      rfl
    · intro ts' hts'
      refine hg.step hG ht ht hKs hns (Z := 1) (c := corrAt corr ((t + s) / 2)) (t := t)
        (dt := s - t) (hC.psd _ (hC.mem htD hs)) ?_ ?_ ?_ hts'
      · intro v hv
        rw [Matrix.one_mul, sub_self, Matrix.zero_mul, add_zero, wienerCov_eq, wienerCov_eq]
        rcases hside with ⟨h, h', h''⟩ | ⟨h, h', h''⟩
        · have := h'' v hv
          rw [min_eq_right this, min_eq_right (this.trans h'.le), max_eq_left this,
            max_eq_left (this.trans h'.le), min_eq_left h, min_eq_left (h.trans h'.le)]
        · have := h'' v hv
          rw [min_eq_left this, min_eq_left (h.le.trans this), max_eq_right this,
            max_eq_right (h.le.trans this), max_eq_left h', max_eq_left (h.le.trans h')]
      · rw [Matrix.transpose_one, Matrix.mul_one, sub_self, Matrix.transpose_zero, Matrix.mul_zero,
          add_zero, wienerCov_eq, wienerCov_eq]
        have hm := hC.mid t htD s hs
        rcases hside with ⟨h, h', h''⟩ | ⟨h, h', h''⟩
        · rw [abs_of_pos (by linarith), ← hm, min_eq_right h'.le, max_eq_left h'.le, min_self,
            max_self, max_eq_right h, max_eq_right (h.trans h'.le), min_eq_left (h.trans h'.le)]
          abel
        · rw [abs_of_neg (by linarith), neg_smul, ← hm, min_eq_left h.le, max_eq_right h.le,
            min_self, max_self, max_eq_left (h.le.trans h'), min_eq_right h',
            min_eq_right (h.le.trans h')]
          abel
      · intro ω i
        simp
  by_cases hkl : k = ts.length
  · have hk0 : k ≠ 0 := by omega
    rw [if_neg hk0] at hu
    have hlast : ts.getLast? = some u := by rw [List.getLast?_eq_getElem?, ← hkl]; exact hu
    have hall : ∀ v ∈ ts, v ≤ u := by
      intro v hv
      obtain ⟨i, hi⟩ := List.mem_iff_getElem?.1 hv
      have := (List.getElem?_eq_some_iff.1 hi).1
      exact hmono hi hu (by omega)
    have hlt : u < s := lt_of_le_of_ne (g1 (k - 1) u (by omega) hu) hsu.symm
    have hns : s ∉ ts := fun h => absurd (hall s h) (not_le.2 hlt)
    obtain ⟨ws, hw1, hw2⟩ := hout u humem (.inl ⟨hall t0 h0, hlt, hall⟩)
    have hmem : ∀ v, v ∈ ts ++ [s] ↔ v = s ∨ v ∈ ts := by
      intro v; simp [or_comm]
    refine ⟨s, ts ++ [s], Function.update X s ws, n + 1, ?_, hw2 _ hmem, ?_, ?_, by simp, ?_, hrs⟩
    · intro ω
      rw [if_neg (hcl ω), if_pos hkl]
      simp only [List.getLast?_map, hlast, Option.map_some]
      have : (trueWiener t0 rtol corr (seeded G)).outside (X u ω) u s (ω, n) =
        .ok ((X u ω, ws ω), (ω, n + 1)) := hw1 ω
      rw [this]
      simp only [List.map_append, List.map_cons, List.map_nil, Function.update_self,
        map_update hns]
      have e : (ts.map fun u => X u ω).dropLast ++ [X u ω, ws ω] =
          (ts.map fun u => X u ω) ++ [ws ω] := by
        have h' : (ts.map fun u => X u ω).getLast? = some (X u ω) := by
          rw [List.getLast?_map, hlast]; rfl
        conv_rhs => rw [← List.dropLast_append_getLast? (X u ω) h']
        simp
      rw [e]
      rfl
    · rw [List.pairwise_append]
      refine ⟨hsort, by simp, fun a ha b hb => ?_⟩
      rw [List.mem_singleton.1 hb]
      exact (hall a ha).trans_lt hlt
    · intro v hv
      rcases (hmem v).1 hv with rfl | hv
      · exact hs
      · exact hts v hv
    · intro v hv
      exact ⟨(hmem v).2 (.inr hv), Function.update_of_ne (fun e : v = s => hns (e ▸ hv)) _ _⟩
  by_cases hk0 : k = 0
  · obtain ⟨t, ts1, rfl⟩ := List.exists_cons_of_ne_nil hne
    have hlt : s < t := g2 0 t (by omega) rfl
    have hall : ∀ v ∈ t :: ts1, t ≤ v := by
      intro v hv
      obtain ⟨i, hi⟩ := List.mem_iff_getElem?.1 hv
      exact hmono (i := 0) rfl hi (by omega)
    have hns : s ∉ t :: ts1 := fun h => absurd (hall s h) (not_le.2 hlt)
    obtain ⟨ws, hw1, hw2⟩ := hout t (by simp) (.inr ⟨hlt, hall t0 h0, hall⟩)
    have hmem : ∀ v, v ∈ s :: t :: ts1 ↔ v = s ∨ v ∈ t :: ts1 := by
      intro v; simp
    refine ⟨s, s :: t :: ts1, Function.update X s ws, n + 1, ?_, hw2 _ hmem, ?_, ?_, by simp, ?_,
      hrs⟩
    · intro ω
      rw [if_neg (hcl ω), if_neg hkl, if_pos hk0]
      have : (trueWiener t0 rtol corr (seeded G)).outside (X t ω) t s (ω, n) =
        .ok ((X t ω, ws ω), (ω, n + 1)) := hw1 ω
      have hm := map_update hns X ws ω
      simp only [List.map_cons] at hm ⊢
      rw [this]
      simp only [Function.update_self, hm]
      rfl
    · exact List.pairwise_cons.2 ⟨fun a ha => hlt.trans_le (hall a ha), hsort⟩
    · intro v hv
      rcases (hmem v).1 hv with rfl | hv
      · exact hs
      · exact hts v hv
    · intro v hv
      exact ⟨(hmem v).2 (.inr hv), Function.update_of_ne (fun e : v = s => hns (e ▸ hv)) _ _⟩
  -- a new value inside
  rw [if_neg hk0] at hu
  obtain ⟨tk, htk⟩ : ∃ t, ts[k]? = some t := ⟨_, List.getElem?_eq_getElem (by omega)⟩
  have htkmem : tk ∈ ts := List.mem_of_getElem? htk
  have hus : u < s := lt_of_le_of_ne (g1 (k - 1) u (by omega) hu) hsu.symm
  have hsk : s < tk := g2 k tk le_rfl htk
  have hbetween : ∀ v ∈ ts, v ≤ u ∨ tk ≤ v := by
    intro v hv
    rcases hright v hv with ⟨_, i, hi, hi'⟩ | ⟨_, i, hi, hi'⟩
    · exact .inl (hmono hi' hu (by omega))
    · exact .inr (hmono htk hi' hi)
  have hns : s ∉ ts := by
    intro h
    rcases hbetween s h with h | h
    · exact absurd h (not_le.2 hus)
    · exact absurd h (not_le.2 hsk)
  have hmem : ∀ v, v ∈ ts.insertIdx k s ↔ v = s ∨ v ∈ ts := fun v => List.mem_insertIdx g3
  have hsorted : (ts.insertIdx k s).Pairwise (· < ·) := by
    rw [← hk]; exact insertIdx_sorted hsort hns
  have hin : ∃ ws : Ω → ι → κ → ℝ,
      (∀ ω, wienerInside t0 corr (seeded G) (X u ω) (X tk ω) u tk s (ω, n) =
        .ok ((X u ω, some (ws ω)), (ω, n + 1))) ∧
        Good P G (wienerCov F t0) z0 (n + 1) (ts.insertIdx k s) (Function.update X s ws) := by
    unfold wienerInside
    by_cases hside : tk ≤ t0
    · obtain ⟨Z, c, t, dt, hc1, hc2, hc3, hc4, hc5⟩ := bridge_ok hC G (e := -1) (hts tk htkmem)
        (hts u humem) hs (.inr ⟨rfl, hus, hsk⟩)
      refine ⟨fun ω i => Z *ᵥ X tk ω i + (1 - Z) *ᵥ X u ω i + G n c t dt ω i, ?_, ?_⟩
      · intro ω
        simp only [hside, if_true, hus, hsk, and_self, or_true, pyAssert, decide_true]
        rw [hc2]
      · refine hg.step hG htkmem humem hKs hns hc1 (Z := Z) (dt := dt) (t := t) ?_ ?_
          (fun ω i => rfl) hmem
        · intro v hv
          have e : wienerCov F t0 u v = wienerCov F t0 tk v ∧
              wienerCov F t0 s v = wienerCov F t0 tk v ∨
              wienerCov F t0 u v - wienerCov F t0 tk v = - (F u - F tk) ∧
              wienerCov F t0 s v - wienerCov F t0 tk v = - (F s - F tk) := by
            simp only [wienerCov_eq]
            rcases hbetween v hv with h | h
            · right
              rw [max_eq_left h, max_eq_left (h.trans (hus.trans hsk).le),
                max_eq_left (h.trans hus.le), min_eq_right h,
                min_eq_right (h.trans (hus.trans hsk).le), min_eq_right (h.trans hus.le),
                min_eq_right hside, min_eq_right (hsk.le.trans hside),
                min_eq_right ((hus.trans hsk).le.trans hside)]
              constructor <;> abel
            · left
              rw [max_eq_right h, max_eq_right (hsk.le.trans h),
                max_eq_right ((hus.trans hsk).le.trans h), min_eq_left h,
                min_eq_left (hsk.le.trans h), min_eq_left ((hus.trans hsk).le.trans h),
                max_eq_left hside, max_eq_left (hsk.le.trans hside),
                max_eq_left ((hus.trans hsk).le.trans hside)]
              exact ⟨rfl, rfl⟩
          rcases e with ⟨e1, e2⟩ | ⟨e1, e2⟩
          · rw [e1, e2, ← Matrix.add_mul]; simp
          · have : Z * wienerCov F t0 tk v + (1 - Z) * wienerCov F t0 u v =
                wienerCov F t0 tk v + (1 - Z) * (wienerCov F t0 u v - wienerCov F t0 tk v) := by
              rw [Matrix.mul_sub, Matrix.sub_mul 1 Z (wienerCov F t0 tk v), Matrix.one_mul]; abel
            rw [this, e1, Matrix.mul_neg, hc3, ← e2]; abel
        · have k1 : wienerCov F t0 s tk = F t0 - F tk := by
            rw [wienerCov_eq, min_eq_left hsk.le, max_eq_right hsk.le,
              max_eq_left (hsk.le.trans hside), min_eq_right hside]
          have k2 : wienerCov F t0 s u = F t0 - F s := by
            rw [wienerCov_eq, min_eq_right hus.le, max_eq_left hus.le,
              max_eq_left ((hus.trans hsk).le.trans hside), min_eq_right (hsk.le.trans hside)]
          have k3 : wienerCov F t0 s s = F t0 - F s := by
            rw [wienerCov_eq, min_self, max_self, max_eq_left (hsk.le.trans hside),
              min_eq_right (hsk.le.trans hside)]
          rw [k1, k2, k3, hc4, neg_smul, one_smul, ← hc5, Matrix.transpose_sub,
            Matrix.transpose_one, Matrix.mul_sub, Matrix.mul_one, Matrix.sub_mul, Matrix.sub_mul,
            Matrix.sub_mul]
          abel
    · have hle : t0 ≤ u := by
        rcases hbetween t0 h0 with h | h
        · exact h
        · exact absurd h hside
      obtain ⟨Z, c, t, dt, hc1, hc2, hc3, hc4, hc5⟩ := bridge_ok hC G (e := 1) (hts u humem)
        (hts tk htkmem) hs (.inl ⟨rfl, hus, hsk⟩)
      refine ⟨fun ω i => Z *ᵥ X u ω i + (1 - Z) *ᵥ X tk ω i + G n c t dt ω i, ?_, ?_⟩
      · intro ω
        simp only [hside, if_false, hus, hsk, hle, and_self, true_or, pyAssert, decide_true,
          if_true]
        rw [hc2]
      · refine hg.step hG humem htkmem hKs hns hc1 (Z := Z) (dt := dt) (t := t) ?_ ?_
          (fun ω i => rfl) hmem
        · intro v hv
          have e : wienerCov F t0 tk v = wienerCov F t0 u v ∧
              wienerCov F t0 s v = wienerCov F t0 u v ∨
              wienerCov F t0 tk v - wienerCov F t0 u v = F tk - F u ∧
              wienerCov F t0 s v - wienerCov F t0 u v = F s - F u := by
            simp only [wienerCov_eq]
            rcases hbetween v hv with h | h
            · left
              rw [max_eq_left h, max_eq_left (h.trans (hus.trans hsk).le),
                max_eq_left (h.trans hus.le), min_eq_right h,
                min_eq_right (h.trans (hus.trans hsk).le), min_eq_right (h.trans hus.le),
                min_eq_left hle, min_eq_left (hle.trans hus.le),
                min_eq_left (hle.trans (hus.trans hsk).le)]
              exact ⟨rfl, rfl⟩
            · right
              rw [max_eq_right h, max_eq_right (hsk.le.trans h),
                max_eq_right ((hus.trans hsk).le.trans h), min_eq_left h,
                min_eq_left (hsk.le.trans h), min_eq_left ((hus.trans hsk).le.trans h),
                max_eq_right hle, max_eq_right (hle.trans hus.le),
                max_eq_right (hle.trans (hus.trans hsk).le)]
              constructor <;> abel
          rcases e with ⟨e1, e2⟩ | ⟨e1, e2⟩
          · rw [e1, e2, ← Matrix.add_mul]; simp
          · have : Z * wienerCov F t0 u v + (1 - Z) * wienerCov F t0 tk v =
                wienerCov F t0 u v + (1 - Z) * (wienerCov F t0 tk v - wienerCov F t0 u v) := by
              rw [Matrix.mul_sub, Matrix.sub_mul 1 Z (wienerCov F t0 u v), Matrix.one_mul]; abel
            rw [this, e1, hc3, ← e2]; abel
        · have k1 : wienerCov F t0 s u = F u - F t0 := by
            rw [wienerCov_eq, min_eq_right hus.le, max_eq_left hus.le, max_eq_right hle,
              min_eq_left (hle.trans hus.le)]
          have k2 : wienerCov F t0 s tk = F s - F t0 := by
            rw [wienerCov_eq, min_eq_left hsk.le, max_eq_right hsk.le,
              max_eq_right (hle.trans hus.le), min_eq_left (hle.trans (hus.trans hsk).le)]
          have k3 : wienerCov F t0 s s = F s - F t0 := by
            rw [wienerCov_eq, min_self, max_self, max_eq_right (hle.trans hus.le),
              min_eq_left (hle.trans hus.le)]
          rw [k1, k2, k3, hc4, one_smul, ← hc5, Matrix.transpose_sub,
            Matrix.transpose_one, Matrix.mul_sub, Matrix.mul_one, Matrix.sub_mul, Matrix.sub_mul,
            Matrix.sub_mul]
          abel
  obtain ⟨ws, hw1, hw2⟩ := hin
  refine ⟨s, ts.insertIdx k s, Function.update X s ws, n + 1, ?_, hw2, hsorted, ?_,
    (hmem s).2 (.inl rfl), ?_, hrs⟩
  · intro ω
    rw [if_neg (hcl ω), if_neg hkl, if_neg hk0]
    simp only [htk, Option.map_some]
    have : (trueWiener t0 rtol corr (seeded G)).inside (X u ω) (X tk ω) u tk s (ω, n) =
      .ok ((X u ω, some (ws ω)), (ω, n + 1)) := hw1 ω
    rw [this]
    have hset : (ts.map fun u => X u ω).set (k - 1) (X u ω) = ts.map fun u => X u ω := by
      have h' : (ts.map fun u => X u ω)[k - 1]? = some (X u ω) := by
        rw [List.getElem?_map, hu]; rfl
      obtain ⟨hj, ej⟩ := List.getElem?_eq_some_iff.1 h'
      rw [← ej, List.set_getElem_self]
    simp only [hset, List.map_insertIdx, Function.update_self, map_update hns]
    rfl
  · intro v hv
    rcases (hmem v).1 hv with rfl | hv
    · exact hs
    · exact hts v hv
  · intro v hv
    exact ⟨(hmem v).2 (.inr hv), Function.update_of_ne (fun e : v = s => hns (e ▸ hv)) _ _⟩

end Sdepy
