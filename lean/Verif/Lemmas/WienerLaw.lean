import Verif.Lemmas.Wiener
import Verif.Lemmas.Presets
import Verif.Spec.WienerLaw
import Mathlib.Probability.Distributions.Gaussian.IsGaussianProcess.Independence

/-!
# Sums of Gaussian increments
-/

open MeasureTheory ProbabilityTheory Matrix

namespace Sdepy

open Spec

variable {Ω ι κ : Type} [MeasurableSpace Ω] [Fintype κ] [DecidableEq κ] [DecidableEq ι]
  {P : Measure Ω} [IsProbabilityMeasure P]

theorem good_start (G : ℕ → Matrix κ κ ℝ → ℝ → ℝ → Ω → ι → κ → ℝ) (F : ℝ → Matrix κ κ ℝ) (t0 : ℝ)
    (z0 : ι → κ → ℝ) (n : ℕ) : Good P G (wienerCov F t0) z0 n [t0] (fun _ _ => z0) := by
  refine ⟨fun u _ i => l2_const _, fun u _ i => meanV_const _, ?_, ?_,
    fun u _ i k => affSpan_const _ _⟩
  · intro u hu v hv i j
    rw [List.mem_singleton.1 hu, List.mem_singleton.1 hv, covM_const_left, wienerCov_eq]
    simp
  · intro u _ i m c t dt j _
    exact covM_const_left _ _

theorem good_outside {t0 : ℝ} {corr : Corr κ} {D : Set ℝ} {F : ℝ → Matrix κ κ ℝ}
    (hC : CorrOk corr D F) {G : ℕ → Matrix κ κ ℝ → ℝ → ℝ → Ω → ι → κ → ℝ} (hG : Draws P G)
    {z0 : ι → κ → ℝ} {n : ℕ} {ts : List ℝ} {X : ℝ → Ω → ι → κ → ℝ}
    (hg : Good P G (wienerCov F t0) z0 n ts X) (h0 : t0 ∈ ts)
    (hts : ∀ u ∈ ts, u ∈ D) {t s : ℝ} (hs : s ∈ D) (ht : t ∈ ts)
    (hside : t0 ≤ t ∧ t < s ∧ (∀ v ∈ ts, v ≤ t) ∨ s < t ∧ t ≤ t0 ∧ (∀ v ∈ ts, t ≤ v)) :
    s ∉ ts ∧ Good P G (wienerCov F t0) z0 (n + 1) (s :: ts) (Function.update X s fun ω i =>
      X t ω i + G n (corrAt corr ((t + s) / 2)) t (s - t) ω i) := by
  have hKs : ∀ u ∈ ts, (wienerCov F t0 s u)ᵀ = wienerCov F t0 u s :=
    fun u hu => hC.symm (hts t0 h0) hs (hts u hu)
  have htD := hts t ht
  have hns : s ∉ ts := by
    intro hmem
    rcases hside with ⟨_, h, h'⟩ | ⟨h, _, h'⟩
    · exact absurd (h' s hmem) (not_le.2 h)
    · exact absurd (h' s hmem) (not_le.2 h)
  refine ⟨hns, hg.step hG ht ht hKs hns (Z := 1) (c := corrAt corr ((t + s) / 2)) (t := t)
    (dt := s - t) (hC.psd _ (hC.mem htD hs)) ?_ ?_ ?_ (by simp)⟩
  · intro v hv
    rw [Matrix.one_mul, sub_self, Matrix.zero_mul, add_zero, wienerCov_eq, wienerCov_eq]
    rcases hside with ⟨h, h', h''⟩ | ⟨h, h', h''⟩
    · have := h'' v hv
      rw [min_eq_right this, min_eq_right (this.trans h'.le), max_eq_left this,
        max_eq_left (this.trans h'.le), min_eq_left h, min_eq_left (h.trans h'.le)]
    · have := h'' v hv
      rw [min_eq_left this, min_eq_left (h.le.trans this), max_eq_right this,
        max_eq_right (h.le.trans this), max_eq_left h', max_eq_left (h.le.trans h')]
  · rw [Matrix.transpose_one, Matrix.mul_one, sub_self, Matrix.transpose_zero, Matrix.mul_zero,
      add_zero, wienerCov_eq, wienerCov_eq]
    have hm := hC.mid t htD s hs
    rcases hside with ⟨h, h', h''⟩ | ⟨h, h', h''⟩
    · rw [abs_of_pos (by linarith), ← hm, min_eq_right h'.le, max_eq_left h'.le, min_self,
        max_self, max_eq_right h, max_eq_right (h.trans h'.le), min_eq_left (h.trans h'.le)]
      abel
    · rw [abs_of_neg (by linarith), neg_smul, ← hm, min_eq_left h.le, max_eq_right h.le,
        min_self, max_self, max_eq_left (h.le.trans h'), min_eq_right h',
        min_eq_right (h.le.trans h')]
      abel
  · intro ω i
    simp

/-- Increments summed along times that move away from `t0`. -/
theorem cumulate_good {t0 : ℝ} {corr : Corr κ} {D : Set ℝ} {F : ℝ → Matrix κ κ ℝ}
    (hC : CorrOk corr D F) {G : ℕ → Matrix κ κ ℝ → ℝ → ℝ → Ω → ι → κ → ℝ} (hG : Draws P G)
    (l : List ℝ) : ∀ {n : ℕ} {ts : List ℝ} {X : ℝ → Ω → ι → κ → ℝ} {t : ℝ},
    Good P G (wienerCov F t0) 0 n ts X → t0 ∈ ts → (∀ u ∈ ts, u ∈ D) → (∀ u ∈ l, u ∈ D) → t ∈ ts →
    (t0 ≤ t ∧ (∀ v ∈ ts, v ≤ t) ∧ (t :: l).Pairwise (· < ·) ∨
      t ≤ t0 ∧ (∀ v ∈ ts, t ≤ v) ∧ (t :: l).Pairwise (· > ·)) →
    ∃ (X' : ℝ → Ω → ι → κ → ℝ) (n' : ℕ),
      (∀ ω, cumulate (noise G (corrAt corr)) t (fun c => X t ω c.1 c.2) l (ω, n) =
        .ok (l.map fun u => (u, fun c => X' u ω c.1 c.2), (ω, n'))) ∧
      Good P G (wienerCov F t0) 0 n' (l.reverse ++ ts) X' ∧ ∀ v ∈ ts, X' v = X v := by
  induction l with
  | nil =>
    intro n ts X t hg _ _ _ _ _
    exact ⟨X, n, fun ω => rfl, hg, fun _ _ => rfl⟩
  | cons s l ih =>
    intro n ts X t hg h0 hts hl ht hside
    have hs : s ∈ D := hl s (by simp)
    obtain ⟨hns, hg'⟩ := good_outside hC hG hg h0 hts hs ht (by
      rcases hside with ⟨h1, h2, h3⟩ | ⟨h1, h2, h3⟩
      · exact .inl ⟨h1, (List.pairwise_cons.1 h3).1 s (by simp), h2⟩
      · exact .inr ⟨(List.pairwise_cons.1 h3).1 s (by simp), h1, h2⟩)
    obtain ⟨X', n', e, g, k⟩ := ih (t := s) hg' (by simp [h0])
      (fun u hu => by rcases List.mem_cons.1 hu with rfl | hu; exacts [hs, hts u hu])
      (fun u hu => hl u (by simp [hu])) (by simp) (by
        rcases hside with ⟨h1, h2, h3⟩ | ⟨h1, h2, h3⟩
        · have hlt := (List.pairwise_cons.1 h3).1 s (by simp)
          refine .inl ⟨h1.trans hlt.le, fun v hv => ?_, (List.pairwise_cons.1 h3).2⟩
          rcases List.mem_cons.1 hv with rfl | hv
          · exact le_rfl
          · exact (h2 v hv).trans hlt.le
        · have hlt := (List.pairwise_cons.1 h3).1 s (by simp)
          refine .inr ⟨hlt.le.trans h1, fun v hv => ?_, (List.pairwise_cons.1 h3).2⟩
          rcases List.mem_cons.1 hv with rfl | hv
          · exact le_rfl
          · exact hlt.le.trans (h2 v hv))
    refine ⟨X', n', fun ω => ?_, by simpa using g, fun v hv => ?_⟩
    · have hmid : t + (s - t) / 2 = (t + s) / 2 := by ring
      simp only [cumulate, noise, bind, Except.bind, pure, Except.pure, hmid]
      have := e ω
      have hv : (fun c : ι × κ => Function.update X s (fun ω i =>
          X t ω i + G n (corrAt corr ((t + s) / 2)) t (s - t) ω i) s ω c.1 c.2) =
          (fun c => X t ω c.1 c.2) +
            fun c => G n (corrAt corr ((t + s) / 2)) t (s - t) ω c.1 c.2 := by
        funext c
        rw [Function.update_self]
        rfl
      rw [hv] at this
      rw [this]
      simp only [List.map_cons, Except.ok.injEq, Prod.mk.injEq, and_true, List.cons.injEq, true_and]
      rw [k s (by simp), ← hv]
    · rw [k v (by simp [hv]), Function.update_of_ne (fun e : v = s => hns (e ▸ hv))]

/-- Increments summed along a grid, in both directions from `t0`. -/
theorem cumulated_good {t0 : ℝ} {corr : Corr κ} {D : Set ℝ} {F : ℝ → Matrix κ κ ℝ}
    (hC : CorrOk corr D F) {G : ℕ → Matrix κ κ ℝ → ℝ → ℝ → Ω → ι → κ → ℝ} (hG : Draws P G)
    {grid : List ℝ} (hg : grid.Pairwise (· < ·)) (h0 : t0 ∈ grid) (hD : ∀ u ∈ grid, u ∈ D)
    (n : ℕ) : ∃ (W : ℝ → Ω → ι → κ → ℝ) (n' : ℕ) (ts : List ℝ),
      (∀ ω, cumulated (noise G (corrAt corr)) t0 grid (ω, n) =
        .ok (grid.map fun u => (u, fun c => W u ω c.1 c.2), (ω, n'))) ∧
      Good P G (wienerCov F t0) 0 n' ts W ∧ (∀ u, u ∈ ts ↔ u ∈ grid) ∧ W t0 = fun _ => 0 := by
  have hp1 : (t0 :: (grid.filter (· < t0)).reverse).Pairwise (· > ·) := by
    rw [List.pairwise_cons]
    refine ⟨fun a ha => ?_, ?_⟩
    · simp at ha; exact ha.2
    · rw [List.pairwise_reverse]; exact (hg.filter _)
  have hp2 : (t0 :: grid.filter (t0 < ·)).Pairwise (· < ·) := by
    rw [List.pairwise_cons]
    refine ⟨fun a ha => ?_, hg.filter _⟩
    simp at ha; exact ha.2
  obtain ⟨X1, n1, e1, g1, k1⟩ := cumulate_good hC hG (grid.filter (· < t0)).reverse
    (good_start G F t0 0 n) (t := t0) (by simp) (by simpa using hD t0 h0)
    (fun u hu => hD u (by simp at hu; exact hu.1)) (by simp)
    (.inr ⟨le_rfl, by simp, hp1⟩)
  rw [List.reverse_reverse] at g1
  obtain ⟨X2, n2, e2, g2, k2⟩ := cumulate_good hC hG (grid.filter (t0 < ·)) g1 (t := t0) (by simp)
    (fun u hu => hD u (by
      simp at hu
      rcases hu with hu | rfl
      exacts [hu.1, h0]))
    (fun u hu => hD u (by simp at hu; exact hu.1)) (by simp)
    (.inl ⟨le_rfl, by
      intro v hv
      simp at hv
      rcases hv with hv | rfl
      exacts [hv.2.le, le_rfl], hp2⟩)
  have k10 := k1 t0 (by simp)
  have k20 := k2 t0 (by simp)
  refine ⟨X2, n2, _, fun ω => ?_, g2, fun u => ?_, by rw [k20, k10]⟩
  · simp only [cumulated, bind, Except.bind, pure, Except.pure]
    have z' : (0 : ι × κ → ℝ) = fun c => X1 t0 ω c.1 c.2 := by rw [k10]; rfl
    have h1 := e1 ω
    have h2 := e2 ω
    rw [← z'] at h2
    change cumulate _ t0 (0 : ι × κ → ℝ) _ _ = _ at h1
    rw [h1]
    simp only
    rw [h2]
    simp only [Except.ok.injEq, Prod.mk.injEq, and_true]
    conv_rhs => rw [← filter_split3 hg h0]
    simp only [List.map_append, List.map_cons, List.map_reverse, List.reverse_reverse]
    congr 1
    · apply List.map_congr_left
      intro u hu
      rw [k2 u (by simp at hu ⊢; exact .inl hu)]
    · rw [k20, k10]; rfl
  · simp only [List.mem_append, List.mem_reverse, List.mem_filter, decide_eq_true_eq,
      List.mem_singleton]
    constructor
    · rintro (h | h | rfl)
      exacts [h.1, h.1, h0]
    · intro h
      rcases lt_trichotomy u t0 with h' | h' | h'
      exacts [.inr (.inl ⟨h, h'⟩), .inr (.inr h'), .inl ⟨h, h'⟩]

/-- Values with the covariance of a Wiener process, made from Gaussian draws, are such a process. -/
theorem isWiener_of_good {t0 : ℝ} {F : ℝ → Matrix κ κ ℝ}
    {G : ℕ → Matrix κ κ ℝ → ℝ → ℝ → Ω → ι → κ → ℝ} (hJ : GaussianDraws P G)
    {z0 : ι → κ → ℝ} {n : ℕ} {ts : List ℝ} {X : ℝ → Ω → ι → κ → ℝ}
    (hg : Good P G (wienerCov F t0) z0 n ts X) {D : Set ℝ} (hD : ∀ u ∈ D, u ∈ ts)
    (h0 : ∀ ω, X t0 ω = z0) : IsWienerProcess P F t0 z0 D X := by
  refine ⟨h0, ?_, fun u hu i k => congrFun (hg.mean u (hD u hu) i) k, fun u hu v hv i j k l => ?_⟩
  · exact gauss_of_affSpan (X := drawFam G) hJ fun p => hg.span p.1 (hD _ p.1.2) p.2.1 p.2.2
  · have := congrFun (congrFun (hg.cov u (hD u hu) v (hD v hv) i j) k) l
    simp only [covM] at this
    rw [this]
    split_ifs <;> rfl

end Sdepy
