import Verif.Lemmas.StrongLaw
import Verif.Props.WienerLaw

/-!
# Repeated simulations as one simulation with more paths
-/

set_option linter.unusedSectionVars false

open MeasureTheory ProbabilityTheory

namespace Sdepy

open Spec

/-! ### Errors of estimates -/

/-- The mean square error of the average of independent variables, as an estimate of the mean of a variable `V` that is
close to one, `Z'`, with their law. -/
theorem estimate_error {J Ω Ω' : Type} [Fintype J] [Nonempty J] [MeasurableSpace Ω] [MeasurableSpace Ω'] {P : Measure Ω}
    [IsProbabilityMeasure P] {P' : Measure Ω'} [IsProbabilityMeasure P'] {Z : J → Ω → ℝ} {Z' V : Ω' → ℝ}
    (hI : Pairwise fun i j => IndepFun (Z i) (Z j) P) (hid : ∀ j, IdentDistrib (Z j) Z' P P') (hZ' : MemLp Z' 2 P')
    (hV : MemLp V 2 P') {e : ℝ} (he : ∫ ω, (Z' ω - V ω) ^ 2 ∂P' ≤ e) :
    MemLp (fun ω => (∑ j, Z j ω) / Fintype.card J) 2 P ∧
    ∫ ω, ((∑ j, Z j ω) / Fintype.card J - ∫ ω, V ω ∂P') ^ 2 ∂P ≤ 2 * Var[V; P'] / Fintype.card J + 3 * e := by
  have hN : (1 : ℝ) ≤ Fintype.card J := by exact_mod_cast Fintype.card_pos
  have hN0 : (0 : ℝ) < Fintype.card J := by linarith
  have hZ : ∀ j, MemLp (Z j) 2 P := fun j => (hid j).symm.memLp_snd hZ'
  have hS : MemLp (∑ j, Z j) 2 P := memLp_finsetSum' _ fun j _ => hZ j
  have hE : MemLp (fun ω => (∑ j, Z j ω) / Fintype.card J) 2 P := by
    have := hS.mul_const (1 / (Fintype.card J : ℝ))
    refine (memLp_congr_ae (Filter.Eventually.of_forall fun ω => ?_)).1 this
    simp only [Finset.sum_apply]
    ring
  refine ⟨hE, ?_⟩
  have hm : ∫ ω, (∑ j, Z j ω) / Fintype.card J ∂P = ∫ ω, Z' ω ∂P' := by
    rw [integral_div, integral_finsetSum _ fun j _ => (hZ j).integrable (by norm_num)]
    simp only [(hid _).integral_eq]
    rw [Finset.sum_const, Finset.card_univ, nsmul_eq_mul]
    field_simp
  have hv : Var[fun ω => (∑ j, Z j ω) / Fintype.card J; P] = Var[Z'; P'] / Fintype.card J := by
    have h1 : Var[∑ j, Z j; P] = ∑ j, Var[Z j; P] := IndepFun.variance_sum (fun j _ => hZ j) fun i _ j _ hij => hI hij
    have h2 : (fun ω => (∑ j, Z j ω) / Fintype.card J) = fun ω => (∑ j, Z j) ω * (1 / (Fintype.card J : ℝ)) := by
      funext ω
      simp only [Finset.sum_apply]
      ring
    rw [h2, variance_mul_const, h1]
    simp only [(hid _).variance_eq]
    rw [Finset.sum_const, Finset.card_univ, nsmul_eq_mul]
    field_simp
  have hD : MemLp (fun ω => Z' ω - V ω) 2 P' := hZ'.sub hV
  have hsq : ∀ {Ω₁ : Type} [MeasurableSpace Ω₁] {P₁ : Measure Ω₁} [IsProbabilityMeasure P₁] {f : Ω₁ → ℝ} (c : ℝ),
      MemLp f 2 P₁ → ∫ ω, (f ω - c) ^ 2 ∂P₁ = Var[f; P₁] + ((∫ ω, f ω ∂P₁) - c) ^ 2 := by
    intro Ω₁ _ P₁ _ f c hf
    have h1 : Var[fun ω => f ω - c; P₁] = Var[f; P₁] := variance_sub_const hf.aestronglyMeasurable c
    have h2 := variance_eq_sub (hf.sub (memLp_const c))
    have h3 : ∫ ω, (f ω - c) ∂P₁ = (∫ ω, f ω ∂P₁) - c := by
      rw [integral_sub (hf.integrable (by norm_num)) (integrable_const _), integral_const]
      simp
    rw [← h1, ← h3]
    have h4 : Var[fun ω => f ω - c; P₁] = ∫ ω, (f ω - c) ^ 2 ∂P₁ - (∫ ω, (f ω - c) ∂P₁) ^ 2 := h2
    linarith
  have hbias : ((∫ ω, Z' ω ∂P') - ∫ ω, V ω ∂P') ^ 2 ≤ e := by
    have h1 := hsq 0 hD
    simp only [sub_zero] at h1
    rw [integral_sub (hZ'.integrable (by norm_num)) (hV.integrable (by norm_num))] at h1
    have := variance_nonneg (fun ω => Z' ω - V ω) P'
    linarith
  have hvar : Var[Z'; P'] ≤ 2 * Var[V; P'] + 2 * e := by
    have h1 := hsq (∫ ω, V ω ∂P') hZ'
    have h2 := hsq (∫ ω, V ω ∂P') hV
    have hVc : Integrable (fun ω => (V ω - ∫ ω, V ω ∂P') ^ 2) P' := (hV.sub (memLp_const _)).integrable_sq
    have h3 : ∫ ω, (Z' ω - ∫ ω, V ω ∂P') ^ 2 ∂P' ≤
        ∫ ω, (2 * (Z' ω - V ω) ^ 2 + 2 * (V ω - ∫ ω, V ω ∂P') ^ 2) ∂P' := by
      refine integral_mono (hZ'.sub (memLp_const _)).integrable_sq
        ((hD.integrable_sq.const_mul 2).add (hVc.const_mul 2)) fun ω => ?_
      have := sq_nonneg ((Z' ω - V ω) - (V ω - ∫ ω, V ω ∂P'))
      simp only
      nlinarith
    rw [integral_add (hD.integrable_sq.const_mul 2) (hVc.const_mul 2),
      integral_const_mul, integral_const_mul] at h3
    have h4 := sq_nonneg ((∫ ω, Z' ω ∂P') - ∫ ω, V ω ∂P')
    simp only [sub_self, ne_eq, OfNat.ofNat_ne_zero, not_false_eq_true, zero_pow, add_zero] at h2
    linarith
  rw [hsq _ hE, hm, hv]
  have he0 : 0 ≤ e := (sq_nonneg _).trans hbias
  have h5 : Var[Z'; P'] / Fintype.card J ≤ (2 * Var[V; P'] + 2 * e) / Fintype.card J :=
    div_le_div_of_nonneg_right hvar hN0.le
  have h6 : 2 * e / Fintype.card J ≤ 2 * e := div_le_self (by linarith) hN
  rw [add_div] at h5
  linarith

/-! ### Repeated simulations -/

/-- Number, among all evaluations made, of the evaluation `j` in run `r` of `R`, each of `len` evaluations. -/
def runIdx (n len R r j : ℕ) : ℕ := if j < len then n + r * len + j else n + R * len + (j - len) * R + r

theorem runIdx_inj {n len R r r' j j' : ℕ} (hr : r < R) (hr' : r' < R) (h : runIdx n len R r j = runIdx n len R r' j') :
    r = r' ∧ j = j' := by
  have key : ∀ {m a a' b b' : ℕ}, b < m → b' < m → a * m + b = a' * m + b' → a = a' ∧ b = b' := by
    intro m a a' b b' hb hb' h
    have hm : 0 < m := by omega
    have h1 : (a * m + b) / m = a := by rw [mul_comm, Nat.mul_add_div hm, Nat.div_eq_of_lt hb, add_zero]
    have h2 : (a' * m + b') / m = a' := by rw [mul_comm, Nat.mul_add_div hm, Nat.div_eq_of_lt hb', add_zero]
    have h3 : a = a' := by rw [← h1, h, h2]
    subst h3
    exact ⟨rfl, by omega⟩
  have bound : ∀ {r j : ℕ}, r < R → j < len → r * len + j < R * len := by
    intro r j hr hj
    calc r * len + j < r * len + len := by omega
      _ = (r + 1) * len := by ring
      _ ≤ R * len := Nat.mul_le_mul_right _ hr
  unfold runIdx at h
  split_ifs at h with h1 h2 h2
  · exact key h1 h2 (by omega)
  · have := bound hr h1
    omega
  · have := bound hr' h2
    omega
  · obtain ⟨q1, q2⟩ := key hr hr' (a := j - len) (a' := j' - len) (by omega)
    exact ⟨q2, by omega⟩

section
variable {Ω ι κ : Type} [MeasurableSpace Ω] [DecidableEq ι] [Fintype κ] [DecidableEq κ] {P : Measure Ω} [IsProbabilityMeasure P]
  {G : ℕ → Matrix κ κ ℝ → ℝ → ℝ → Ω → ι → κ → ℝ}

/-- Draws made in `R` runs, as draws made at once for more paths. -/
def runDraws (G : ℕ → Matrix κ κ ℝ → ℝ → ℝ → Ω → ι → κ → ℝ) (n len R : ℕ) :
    ℕ → Matrix κ κ ℝ → ℝ → ℝ → Ω → Fin R × ι → κ → ℝ :=
  fun j c t dt ω p => G (runIdx n len R p.1 j) c t dt ω p.2

theorem runDraws_draws (hG : Draws P G) (n len R : ℕ) : Draws P (runDraws G n len R) where
  l2 j c t dt p := hG.l2 _ c t dt p.2
  mean j c t dt p := hG.mean _ c t dt p.2
  cov j c t dt p q hc := by
    by_cases h1 : p.1 = q.1
    · have : (p = q) = (p.2 = q.2) := by rw [Prod.ext_iff]; simp [h1]
      simp only [runDraws, this, h1]
      exact hG.cov _ c t dt p.2 q.2 hc
    · rw [if_neg fun h => h1 (congrArg Prod.fst h)]
      refine hG.uncorr _ c t dt p.2 _ c t dt q.2 fun h => h1 ?_
      exact Fin.ext (runIdx_inj p.1.2 q.1.2 h).1
  uncorr j c t dt p j' c' t' dt' q hj :=
    hG.uncorr _ c t dt p.2 _ c' t' dt' q.2 fun h => hj (runIdx_inj p.1.2 q.1.2 h).2

theorem runDraws_gaussian (hJ : GaussianDraws P G) (n len R : ℕ) : GaussianDraws P (runDraws G n len R) :=
  IsGaussianProcess.comp_right hJ
    (fun p : ℕ × Matrix κ κ ℝ × ℝ × ℝ × (Fin R × ι) × κ => (runIdx n len R p.2.2.2.2.1.1 p.1, p.2.1, p.2.2.1, p.2.2.2.1,
      p.2.2.2.2.1.2, p.2.2.2.2.2))

/-- The noise of run `r` is part of the noise of all runs. -/
theorem cumulate_run {n len R : ℕ} (C : ℝ → Matrix κ κ ℝ) (r : Fin R) (ω : Ω) :
    ∀ (ts : List ℝ) (t : ℝ) (w : (Fin R × ι) × κ → ℝ) (j : ℕ), j + ts.length ≤ len → ∃ ps : List (ℝ × ((Fin R × ι) × κ → ℝ)),
      cumulate (noise (runDraws G n len R) C) t w ts (ω, j) = .ok (ps, (ω, j + ts.length)) ∧
      cumulate (noise G C) t (fun c => w ((r, c.1), c.2)) ts (ω, n + r * len + j) =
        .ok (ps.map fun p => (p.1, fun c => p.2 ((r, c.1), c.2)), (ω, n + r * len + j + ts.length))
  | [], t, w, j, _ => ⟨[], by simp [cumulate, pure, Except.pure], by simp [cumulate, pure, Except.pure]⟩
  | u :: ts, t, w, j, hj => by
    simp only [List.length_cons] at hj
    obtain ⟨ps, h1, h2⟩ := cumulate_run (n := n) (len := len) C r ω ts u
      (w + fun c : (Fin R × ι) × κ => runDraws G n len R j (C (t + (u - t) / 2)) t (u - t) ω c.1 c.2) (j + 1) (by omega)
    have e : (fun c : ι × κ => w ((r, c.1), c.2)) + (fun c : ι × κ => G (n + r * len + j) (C (t + (u - t) / 2)) t (u - t) ω c.1 c.2) =
        fun c => (w + fun c : (Fin R × ι) × κ => runDraws G n len R j (C (t + (u - t) / 2)) t (u - t) ω c.1 c.2) ((r, c.1), c.2) := by
      funext c
      simp only [Pi.add_apply, runDraws, runIdx, if_pos (show j < len by omega)]
    refine ⟨(u, w + fun c : (Fin R × ι) × κ => runDraws G n len R j (C (t + (u - t) / 2)) t (u - t) ω c.1 c.2) :: ps, ?_, ?_⟩
    · simp only [cumulate, noise, bind, Except.bind, pure, Except.pure] at h1 ⊢
      rw [h1]
      simp only [List.length_cons]
      congr 3
      omega
    · simp only [cumulate, noise, bind, Except.bind, pure, Except.pure] at h2 ⊢
      rw [e, show n + ↑r * len + j + 1 = n + ↑r * len + (j + 1) by ring, h2]
      simp only [List.map_cons, List.length_cons]
      rw [show n + ↑r * len + (j + 1) + ts.length = n + ↑r * len + j + (ts.length + 1) by ring]

theorem cumulated_run {n len R : ℕ} (C : ℝ → Matrix κ κ ℝ) {t0 : ℝ} {grid : List ℝ} (r : Fin R) (ω : Ω)
    (hlen : len = (grid.filter (· < t0)).length + (grid.filter (t0 < ·)).length)
    {ps : List (ℝ × ((Fin R × ι) × κ → ℝ))} {s' : Ω × ℕ}
    (h : cumulated (noise (runDraws G n len R) C) t0 grid (ω, 0) = .ok (ps, s')) :
    cumulated (noise G C) t0 grid (ω, n + r * len) =
      .ok (ps.map fun p => (p.1, fun c => p.2 ((r, c.1), c.2)), (ω, n + (r + 1) * len)) := by
  obtain ⟨p1, a1, a2⟩ := cumulate_run (n := n) (len := len) (G := G) C r ω (grid.filter (· < t0)).reverse t0 0 0 (by
    rw [List.length_reverse]; omega)
  obtain ⟨p2, b1, b2⟩ := cumulate_run (n := n) (len := len) (G := G) C r ω (grid.filter (t0 < ·)) t0 0
    (0 + (grid.filter (· < t0)).reverse.length) (by rw [List.length_reverse]; omega)
  have a2' : cumulate (noise G C) t0 0 (grid.filter (· < t0)).reverse (ω, n + ↑r * len) = _ := a2
  have b2' : cumulate (noise G C) t0 0 (grid.filter (t0 < ·))
    (ω, n + ↑r * len + (0 + (grid.filter (· < t0)).reverse.length)) = _ := b2
  simp only [zero_add] at a1 a2' b1 b2'
  simp only [cumulated, bind, Except.bind, pure, Except.pure, a1, b1, Except.ok.injEq, Prod.mk.injEq] at h
  simp only [add_zero] at a2'
  simp only [cumulated, bind, Except.bind, pure, Except.pure, a2', b2', Except.ok.injEq, Prod.mk.injEq]
  rw [← h.1]
  refine ⟨by simp; rfl, trivial, ?_⟩
  rw [List.length_reverse, hlen]
  ring

end

end Sdepy
