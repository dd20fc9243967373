import Verif.Lemmas.Strong
import Verif.Props.WienerLaw
import Verif.Props.TrueSource
import Verif.Model.TrueNoise

/-!
# Simulations as Euler schemes driven by cumulated noise
-/

set_option linter.unusedSectionVars false

open MeasureTheory ProbabilityTheory

namespace Sdepy

open Spec

section
variable {ι σ O : Type}

theorem cumulate_length {Y : Type} [Add Y] {z : ℝ → ℝ → σ → Py (Y × σ)} : ∀ {l : List ℝ} {t : ℝ} {w : Y} {s s' : σ}
    {ps : List (ℝ × Y)}, cumulate z t w l s = .ok (ps, s') → ps.length = l.length := by
  intro l
  induction l with
  | nil =>
    intro t w s s' ps h
    simp only [cumulate, Except.ok.injEq, Prod.mk.injEq] at h
    rw [← h.1]; rfl
  | cons v l ih =>
    intro t w s s' ps h
    simp only [cumulate, bind, Except.bind, pure, Except.pure] at h
    cases h1 : z t (v - t) s with
    | error e => rw [h1] at h; simp at h
    | ok r =>
      rw [h1] at h
      simp only at h
      cases h2 : cumulate z v (w + r.1) l r.2 with
      | error e => rw [h2] at h; simp at h
      | ok q =>
        rw [h2] at h
        simp only [Except.ok.injEq, Prod.mk.injEq] at h
        rw [← h.1, List.length_cons, ih (ps := q.1) (s' := q.2) h2, List.length_cons]

variable {S : SDE ℝ (ι → ℝ) O ℕ σ} {dw : Src ℝ ι σ} {a b : ℝ → (ι → ℝ) → ι → ℝ}

theorem path_of_noise (hsrc : S.sources = [(idT, dtSource), (idW, dw)])
    (hsde : ∀ t x, S.sde t x = .ok (some [(idT, a t x), (idW, b t x)])) :
    ∀ (l : List ℝ) (t : ℝ) (x : ι → ℝ) (s s' : σ) (V : ℝ → ι → ℝ), (t :: l).Nodup →
    cumulate dw t (V t) l s = .ok (l.map fun u => (u, V u), s') →
    ∃ X : ℝ → ι → ℝ, (equation S).path t x l s = .ok (l.map fun u => (u, X u), s') ∧ X t = x ∧
      ∀ l1 u v l2, t :: l = l1 ++ u :: v :: l2 → ∀ i,
        X v i = X u i + a u (X u) i * (v - u) + b u (X u) i * (V v i - V u i) := by
  intro l
  induction l with
  | nil =>
    intro t x s s' V _ h
    simp only [cumulate, List.map_nil, Except.ok.injEq, Prod.mk.injEq, true_and] at h
    refine ⟨fun _ => x, by rw [h]; rfl, rfl, ?_⟩
    intro l1 a b l2 h
    have := congrArg List.length h
    simp at this
    omega
  | cons v l ih =>
    intro t x s s' V hnd h
    simp only [cumulate, bind, Except.bind, pure, Except.pure] at h
    cases h1 : dw t (v - t) s with
    | error e => rw [h1] at h; simp at h
    | ok r =>
      rw [h1] at h
      simp only at h
      cases h2 : cumulate dw v (V t + r.1) l r.2 with
      | error e => rw [h2] at h; simp at h
      | ok q =>
        rw [h2] at h
        simp only [List.map_cons, Except.ok.injEq, Prod.mk.injEq, List.cons.injEq, true_and] at h
        obtain ⟨⟨hv, hq⟩, hs⟩ := h
        obtain ⟨X, e1, e2, e3⟩ := ih v (fun i => x i + a t x i * (v - t) + b t x i * r.1 i) r.2 s' V
          (List.nodup_cons.1 hnd).2 (by rw [← hv, h2, ← hq, ← hs])
        have htl : t ∉ v :: l := (List.nodup_cons.1 hnd).1
        let X' : ℝ → ι → ℝ := fun u => if u = t then x else X u
        have hXt : X' t = x := by simp [X']
        have hXu : ∀ u ∈ v :: l, X' u = X u := by
          intro u hu
          have : u ≠ t := by rintro rfl; exact htl hu
          simp [X', this]
        refine ⟨X', ?_, hXt, ?_⟩
        · have es : (equation S).step t x v s = .ok (fun i => x i + a t x i * (v - t) + b t x i * r.1 i, r.2) := by
            rw [step_two hsrc hsde, h1]; rfl
          simp only [Equation.path, bind, Except.bind, es, e1, pure, Except.pure, List.map_cons,
            Except.ok.injEq, Prod.mk.injEq, List.cons.injEq, true_and, and_true]
          refine ⟨by rw [hXu v (by simp), e2], ?_⟩
          apply List.map_congr_left
          intro u hu
          rw [hXu u (by simp [hu])]
        · intro l1 c d l2 h i
          cases l1 with
          | nil =>
            simp only [List.nil_append, List.cons.injEq] at h
            obtain ⟨rfl, rfl, rfl⟩ := h
            rw [hXt, hXu v (by simp), e2, ← hv]
            simp
          | cons c' l1 =>
            simp only [List.cons_append, List.cons.injEq] at h
            obtain ⟨rfl, h⟩ := h
            have hc : c ∈ v :: l := by rw [h]; simp
            have hd : d ∈ v :: l := by rw [h]; simp
            rw [hXu c hc, hXu d hd]
            exact e3 l1 c d l2 h i

theorem solution_of_noise (hsrc : S.sources = [(idT, dtSource), (idW, dw)])
    (hsde : ∀ t x, S.sde t x = .ok (some [(idT, a t x), (idW, b t x)]))
    {grid : List ℝ} (hg : grid.Pairwise (· < ·)) {t0 : ℝ} (h0 : t0 ∈ grid) (x0 : ι → ℝ) {s s' : σ}
    {V : ℝ → ι → ℝ} (hV : cumulated dw t0 grid s = .ok (grid.map fun u => (u, V u), s')) :
    ∃ X : ℝ → ι → ℝ, (equation S).solution t0 x0 grid s = .ok (grid.map fun u => (u, X u), s') ∧
      X t0 = x0 ∧ ∀ u v, StepOf grid t0 u v → ∀ i,
        X v i = X u i + a u (X u) i * (v - u) + b u (X u) i * (V v i - V u i) := by
  have hp1 : (t0 :: (grid.filter (· < t0)).reverse).Pairwise (· > ·) := by
    rw [List.pairwise_cons]
    refine ⟨fun a ha => ?_, ?_⟩
    · simp at ha; exact ha.2
    · rw [List.pairwise_reverse]; exact (hg.filter _)
  have hp2 : (t0 :: grid.filter (t0 < ·)).Pairwise (· < ·) := by
    rw [List.pairwise_cons]
    refine ⟨fun a ha => ?_, hg.filter _⟩
    simp at ha; exact ha.2
  have hsp := filter_split3 hg h0
  simp only [cumulated, bind, Except.bind, pure, Except.pure] at hV
  cases h1 : cumulate dw t0 0 (grid.filter (· < t0)).reverse s with
  | error e => rw [h1] at hV; simp at hV
  | ok q1 =>
  rw [h1] at hV
  simp only at hV
  cases h2 : cumulate dw t0 0 (grid.filter (t0 < ·)) q1.2 with
  | error e => rw [h2] at hV; simp at hV
  | ok q2 =>
  rw [h2] at hV
  simp only [Except.ok.injEq, Prod.mk.injEq] at hV
  obtain ⟨hl, hs⟩ := hV
  have hl' : q1.1.reverse ++ (t0, 0) :: q2.1 =
      (grid.filter (· < t0)).map (fun u => (u, V u)) ++ (t0, V t0) :: (grid.filter (t0 < ·)).map fun u => (u, V u) := by
    rw [hl]
    conv_lhs => rw [← hsp]
    simp
  have hlen := cumulate_length (ps := q1.1) (s' := q1.2) h1
  obtain ⟨i1, i2⟩ := List.append_inj hl' (by simpa using hlen)
  simp only [List.cons.injEq, Prod.mk.injEq, true_and] at i2
  obtain ⟨hz, i2⟩ := i2
  have k1 : q1.1 = (grid.filter (· < t0)).reverse.map fun u => (u, V u) := by
    rw [List.map_reverse, ← i1, List.reverse_reverse]
  obtain ⟨Y1, a3, a4, a6⟩ := path_of_noise hsrc hsde (grid.filter (· < t0)).reverse t0 x0 s q1.2 V
    (hp1.imp fun h => ne_of_gt h) (by rw [← hz, h1, ← k1])
  obtain ⟨Y2, b3, b4, b6⟩ := path_of_noise hsrc hsde (grid.filter (t0 < ·)) t0 x0 q1.2 q2.2 V
    (hp2.imp fun h => ne_of_lt h) (by rw [← hz, h2, ← i2])
  let Y : ℝ → ι → ℝ := fun u => if u < t0 then Y1 u else Y2 u
  have hY1 : ∀ u ≤ t0, Y u = Y1 u := by
    intro u hu
    rcases hu.eq_or_lt with rfl | hu
    · simp only [Y, lt_irrefl, if_false, a4, b4]
    · simp only [Y, if_pos hu]
  have hY2 : ∀ u, t0 ≤ u → Y u = Y2 u := fun u hu => by simp only [Y, if_neg (not_lt.2 hu)]
  have m1 : ∀ u ∈ grid, u ≤ t0 → u ∈ t0 :: (grid.filter (· < t0)).reverse := by
    intro u hu hle
    rcases hle.eq_or_lt with rfl | hlt
    · simp
    · simp [hu, hlt]
  have m2 : ∀ u ∈ grid, t0 ≤ u → u ∈ t0 :: grid.filter (t0 < ·) := by
    intro u hu hle
    rcases hle.eq_or_lt with rfl | hlt
    · simp
    · simp [hu, hlt]
  refine ⟨Y, ?_, by rw [hY2 _ le_rfl, b4], ?_⟩
  · simp only [Equation.solution, bind, Except.bind, pure, Except.pure, a3, b3, Except.ok.injEq,
      Prod.mk.injEq, hs, and_true]
    conv_rhs => rw [← hsp]
    simp only [List.map_append, List.map_cons, List.map_reverse, List.reverse_reverse]
    congr 1
    · apply List.map_congr_left
      intro u hu
      simp at hu
      rw [hY1 u hu.2.le]
    · congr 1
      · rw [hY2 _ le_rfl, b4]
      · apply List.map_congr_left
        intro u hu
        simp at hu
        rw [hY2 u hu.2.le]
  · rintro u v ⟨hu, hv, h | h⟩
    · obtain ⟨h1, h2, h3⟩ := h
      obtain ⟨l1, l2, hl⟩ := split_consecutive (fun _ _ h => not_lt.2 (le_of_lt h)) hp2 (m2 u hu h1)
        (m2 v hv (h1.trans h2.le)) h2 (fun c hc => h3 c (by
          rcases List.mem_cons.1 hc with rfl | hc
          · exact h0
          · simp at hc; exact hc.1))
      rw [hY2 u h1, hY2 v (h1.trans h2.le)]
      exact b6 l1 u v l2 hl
    · obtain ⟨h1, h2, h3⟩ := h
      obtain ⟨l1, l2, hl⟩ := split_consecutive (R := (· > ·)) (fun _ _ h => not_lt.2 (le_of_lt h)) hp1 (m1 u hu h1)
        (m1 v hv (h2.le.trans h1)) h2 (fun c hc => fun hh => h3 c (by
          rcases List.mem_cons.1 hc with rfl | hc
          · exact h0
          · simp at hc; exact hc.1) ⟨hh.2, hh.1⟩)
      rw [hY1 u h1, hY1 v (h2.le.trans h1)]
      exact a6 l1 u v l2 hl

end

/-! ### Wiener processes as driving noise -/

section
variable {Ω ι κ : Type} [MeasurableSpace Ω] [Fintype ι] [Fintype κ] [DecidableEq κ] [DecidableEq ι]
  {P : Measure Ω} [IsProbabilityMeasure P]

theorem drives_of_wiener {F : ℝ → Matrix κ κ ℝ} {t0 t1 : ℝ} {z0 : ι → κ → ℝ} {D : Set ℝ}
    {W : ℝ → Ω → ι → κ → ℝ} (h : IsWienerProcess P F t0 z0 D W) (h01 : t0 ≤ t1)
    (hF : ∀ s ∈ D, ∀ t ∈ D, ∀ k, F t k k - F s k k = t - s) :
    Drives P t1 D (fun u ω (c : ι × κ) => W u ω c.1 c.2) where
  meas u hu := aemeasurable_pi_lambda _ fun c => (h.hasGaussianLaw hu c.1 c.2).aemeasurable
  memLp s hs t ht _ _ c := (h.hasGaussianLaw ht c.1 c.2).memLp_two.sub (h.hasGaussianLaw hs c.1 c.2).memLp_two
  mean s hs t ht _ hst c := by
    have hl := h.increment hs ht hst c.1 c.2
    rw [hl.integral_eq]
    exact integral_id_gaussianReal
  var s hs t ht _ hst c := by
    have hl := h.increment hs ht hst c.1 c.2
    rw [hF s hs t ht] at hl
    have hv := hl.variance_eq
    have hm : ∫ ω, (W t ω c.1 c.2 - W s ω c.1 c.2) ∂P = 0 := by
      rw [hl.integral_eq]
      exact integral_id_gaussianReal
    rw [variance_of_integral_eq_zero hl.aemeasurable hm, variance_id_gaussianReal,
      Real.coe_toNNReal _ (sub_nonneg.2 hst)] at hv
    exact hv
  indep s hs t ht h1 hst := h.indep hs ht (h01.trans h1) hst

variable {corr : Corr κ} {D : Set ℝ} {F : ℝ → Matrix κ κ ℝ} {t0 rtol : ℝ}
  {G : ℕ → Matrix κ κ ℝ → ℝ → ℝ → Ω → ι → κ → ℝ} {z0 : ι → κ → ℝ}

/-- The source has been evaluated at times `ts`, among those in `D0`. -/
structure Kept (P : Measure Ω) (G : ℕ → Matrix κ κ ℝ → ℝ → ℝ → Ω → ι → κ → ℝ) (F : ℝ → Matrix κ κ ℝ)
    (t0 : ℝ) (z0 : ι → κ → ℝ) (D0 : Set ℝ) (n : ℕ) (ts : List ℝ) (X : ℝ → Ω → ι → κ → ℝ) : Prop where
  good : Good P G (wienerCov F t0) z0 n ts X
  sorted : ts.Pairwise (· < ·)
  start : t0 ∈ ts
  sub : ∀ u ∈ ts, u ∈ D0

/-- Further evaluations do not change what is stored. -/
def Keeps (ts ts' : List ℝ) (X X' : ℝ → Ω → ι → κ → ℝ) : Prop := ∀ v ∈ ts, v ∈ ts' ∧ X' v = X v

theorem Keeps.trans {ts ts1 ts2 : List ℝ} {X X1 X2 : ℝ → Ω → ι → κ → ℝ} (h : Keeps ts ts1 X X1)
    (h' : Keeps ts1 ts2 X1 X2) : Keeps ts ts2 X X2 := fun v hv =>
  ⟨(h' v (h v hv).1).1, (h' v (h v hv).1).2.trans (h v hv).2⟩

theorem kept_get1 (hC : CorrOk corr D F) (hG : Draws P G) (hr : 0 ≤ rtol) {D0 : Set ℝ} (hD0 : D0 ⊆ D)
    (hsep : ∀ s ∈ D0, ∀ u ∈ D0, |s - u| ≤ rtol * |u| → s = u) {n : ℕ} {ts : List ℝ}
    {X : ℝ → Ω → ι → κ → ℝ} (hk : Kept P G F t0 z0 D0 n ts X) {s : ℝ} (hs : s ∈ D0) :
    ∃ (ts' : List ℝ) (X' : ℝ → Ω → ι → κ → ℝ) (n' : ℕ),
      (∀ ω, (trueWiener t0 rtol corr (seeded G)).get1 s (memAt ts X n ω) =
        .ok (X' s ω, memAt ts' X' n' ω)) ∧
      Kept P G F t0 z0 D0 n' ts' X' ∧ s ∈ ts' ∧ Keeps ts ts' X X' := by
  obtain ⟨u, ts', X', n', h1, h2, h3, h4, h5, h6, h7⟩ := wiener_get1 hC hG hr hk.good hk.sorted hk.start
    (fun u hu => hD0 (hk.sub u hu)) (hD0 hs)
  have hne : Nonempty Ω := nonempty_of_isProbabilityMeasure P
  obtain ⟨ω⟩ := hne
  have hb := (get1_book (lawful_wiener t0 rtol corr (seeded G)) hr
    ⟨hk.sorted, by simp [memAt], List.ne_nil_of_mem hk.start⟩ (h1 ω)).2
  have hsub : ∀ v ∈ ts', v ∈ D0 := by
    intro v hv
    rcases hb with hb | ⟨-, hb⟩
    · exact hk.sub v (by have : ts' = ts := hb; rwa [this] at hv)
    · rcases (hb v).1 hv with rfl | hv
      · exact hs
      · exact hk.sub v hv
  have hu : s = u := hsep s hs u (hsub u h5) h7
  subst hu
  exact ⟨ts', X', n', h1, ⟨h2, h3, (h6 _ hk.start).1, hsub⟩, h5, h6⟩

theorem kept_call (hC : CorrOk corr D F) (hG : Draws P G) (hr : 0 ≤ rtol) {D0 : Set ℝ} (hD0 : D0 ⊆ D)
    (hsep : ∀ s ∈ D0, ∀ u ∈ D0, |s - u| ≤ rtol * |u| → s = u) {n : ℕ} {ts : List ℝ}
    {X : ℝ → Ω → ι → κ → ℝ} (hk : Kept P G F t0 z0 D0 n ts X) {s t : ℝ} (hs : s ∈ D0) (ht : t ∈ D0) :
    ∃ (ts' : List ℝ) (X' : ℝ → Ω → ι → κ → ℝ) (n' : ℕ),
      (∀ ω, trueNoise t0 rtol corr (seeded G) s (t - s) (memAt ts X n ω) =
        .ok (fun c => X' t ω c.1 c.2 - X' s ω c.1 c.2, memAt ts' X' n' ω)) ∧
      Kept P G F t0 z0 D0 n' ts' X' ∧ s ∈ ts' ∧ t ∈ ts' ∧ Keeps ts ts' X X' := by
  obtain ⟨ts1, X1, n1, a1, a2, a3, a4⟩ := kept_get1 hC hG hr hD0 hsep hk ht
  obtain ⟨ts2, X2, n2, b1, b2, b3, b4⟩ := kept_get1 hC hG hr hD0 hsep a2 hs
  refine ⟨ts2, X2, n2, fun ω => ?_, b2, b3, (b4 t a3).1, a4.trans b4⟩
  have e : s + (t - s) = t := by ring
  simp only [trueNoise, TrueSrc.call, List.zipWith_cons_cons, List.zipWith_nil_right, TrueSrc.getList,
    e, a1, b1, (b4 t a3).2]
  rfl

theorem kept_cumulate (hC : CorrOk corr D F) (hG : Draws P G) (hr : 0 ≤ rtol) {D0 : Set ℝ} (hD0 : D0 ⊆ D)
    (hsep : ∀ s ∈ D0, ∀ u ∈ D0, |s - u| ≤ rtol * |u| → s = u) (l : List ℝ) :
    ∀ {n : ℕ} {ts : List ℝ} {X : ℝ → Ω → ι → κ → ℝ} {t : ℝ} (w : Ω → ι × κ → ℝ),
    Kept P G F t0 z0 D0 n ts X → t ∈ D0 → (∀ u ∈ l, u ∈ D0) →
    ∃ (ts' : List ℝ) (X' : ℝ → Ω → ι → κ → ℝ) (n' : ℕ),
      (∀ ω, cumulate (trueNoise t0 rtol corr (seeded G)) t (w ω) l (memAt ts X n ω) =
        .ok (l.map fun u => (u, fun c => w ω c + (X' u ω c.1 c.2 - X' t ω c.1 c.2)), memAt ts' X' n' ω)) ∧
      Kept P G F t0 z0 D0 n' ts' X' ∧ (l ≠ [] → t ∈ ts') ∧ (∀ u ∈ l, u ∈ ts') ∧ Keeps ts ts' X X' := by
  induction l with
  | nil =>
    intro n ts X t w hk _ _
    exact ⟨ts, X, n, fun _ => rfl, hk, fun h => absurd rfl h, by simp, fun v hv => ⟨hv, rfl⟩⟩
  | cons v l ih =>
    intro n ts X t w hk ht hl
    obtain ⟨ts1, X1, n1, a1, a2, a3, a4, a5⟩ := kept_call hC hG hr hD0 hsep hk ht (hl v (by simp))
    obtain ⟨ts2, X2, n2, b1, b2, b3, b4, b5⟩ := ih
      (fun ω c => w ω c + (X1 v ω c.1 c.2 - X1 t ω c.1 c.2)) a2 (hl v (by simp))
      (fun u hu => hl u (by simp [hu]))
    refine ⟨ts2, X2, n2, fun ω => ?_, b2, fun _ => (b5 t a3).1, ?_, a5.trans b5⟩
    · have e2 : w ω + (fun c : ι × κ => X1 v ω c.1 c.2 - X1 t ω c.1 c.2) =
          fun c => w ω c + (X1 v ω c.1 c.2 - X1 t ω c.1 c.2) := rfl
      simp only [cumulate, bind, Except.bind, pure, Except.pure, a1, e2, b1, List.map_cons,
        (b5 t a3).2, (b5 v a4).2, Except.ok.injEq, Prod.mk.injEq, List.cons.injEq, true_and, and_true]
      apply List.map_congr_left
      intro u hu
      simp only [Prod.mk.injEq, true_and]
      funext c
      ring
    · intro u hu
      rcases List.mem_cons.1 hu with rfl | hu
      · exact (b5 _ a4).1
      · exact b4 u hu

/-- Noise cumulated in a simulation, when the source is a Wiener source with memory. -/
theorem kept_cumulated (hC : CorrOk corr D F) (hG : Draws P G) (hr : 0 ≤ rtol) {D0 : Set ℝ} (hD0 : D0 ⊆ D)
    (hsep : ∀ s ∈ D0, ∀ u ∈ D0, |s - u| ≤ rtol * |u| → s = u) {n : ℕ} {ts : List ℝ}
    {X : ℝ → Ω → ι → κ → ℝ} (hk : Kept P G F t0 z0 D0 n ts X) {grid : List ℝ}
    (hg : grid.Pairwise (· < ·)) {t1 : ℝ} (h1 : t1 ∈ grid) (hD : ∀ u ∈ grid, u ∈ D0) :
    ∃ (ts' : List ℝ) (X' : ℝ → Ω → ι → κ → ℝ) (n' : ℕ),
      (∀ ω, cumulated (trueNoise t0 rtol corr (seeded G)) t1 grid (memAt ts X n ω) =
        .ok (grid.map fun u => (u, fun c => X' u ω c.1 c.2 - X' t1 ω c.1 c.2), memAt ts' X' n' ω)) ∧
      Kept P G F t0 z0 D0 n' ts' X' ∧ (∀ u ∈ grid, u ≠ t1 → u ∈ ts') ∧
      ((∃ u ∈ grid, u ≠ t1) → t1 ∈ ts') ∧ Keeps ts ts' X X' := by
  obtain ⟨ts1, X1, n1, a1, a2, a3, a4, a5⟩ := kept_cumulate hC hG hr hD0 hsep (grid.filter (· < t1)).reverse
    (fun _ => 0) hk (hD _ h1) (fun u hu => hD u (by simp at hu; exact hu.1))
  obtain ⟨ts2, X2, n2, b1, b2, b3, b4, b5⟩ := kept_cumulate hC hG hr hD0 hsep (grid.filter (t1 < ·))
    (fun _ => 0) a2 (hD _ h1) (fun u hu => hD u (by simp at hu; exact hu.1))
  have hsp := filter_split3 hg h1
  have hm1 : ∀ u ∈ grid, u < t1 → u ∈ ts1 := fun u hu h => a4 u (by simp [hu, h])
  have ht1 : ∀ u ∈ grid, u < t1 → t1 ∈ ts1 := fun u hu h => a3 (List.ne_nil_of_mem (a := u) (by simp [hu, h]))
  refine ⟨ts2, X2, n2, fun ω => ?_, b2, ?_, ?_, a5.trans b5⟩
  · simp only [cumulated, bind, Except.bind, pure, Except.pure, a1, b1, Except.ok.injEq, Prod.mk.injEq, and_true]
    conv_rhs => rw [← hsp]
    simp only [List.map_append, List.map_cons, List.map_reverse, List.reverse_reverse, Pi.zero_apply, zero_add,
      sub_self]
    congr 1
    apply List.map_congr_left
    intro u hu
    have hu' := List.mem_filter.1 hu
    have hlt : u < t1 := by simpa using hu'.2
    rw [(b5 u (hm1 u hu'.1 hlt)).2, (b5 t1 (ht1 u hu'.1 hlt)).2]
  · intro u hu hne
    rcases lt_or_gt_of_ne hne with h | h
    · exact (b5 u (hm1 u hu h)).1
    · exact b4 u (by simp [hu, h])
  · rintro ⟨u, hu, hne⟩
    rcases lt_or_gt_of_ne hne with h | h
    · exact (b5 t1 (ht1 u hu h)).1
    · exact b3 (List.ne_nil_of_mem (a := u) (by simp [hu, h]))

/-- Two simulations, one after the other, that share a Wiener source with memory: the noise cumulated in both is
the same Wiener process. -/
theorem shared_wiener (hC : CorrOk corr D F) (hG : Draws P G) (hJ : GaussianDraws P G) (hr : 0 ≤ rtol)
    (h0 : t0 ∈ D) {grid1 grid2 : List ℝ} (hg1 : grid1.Pairwise (· < ·)) (hg2 : grid2.Pairwise (· < ·)) {t1 : ℝ}
    (h1 : t1 ∈ grid1) (h2 : t1 ∈ grid2) (hD1 : ∀ u ∈ grid1, u ∈ D) (hD2 : ∀ u ∈ grid2, u ∈ D)
    (hsep : ∀ s ∈ t0 :: (grid1 ++ grid2), ∀ u ∈ t0 :: (grid1 ++ grid2), |s - u| ≤ rtol * |u| → s = u) :
    ∃ (W : ℝ → Ω → ι → κ → ℝ) (m1 m2 : Ω → Mem ℝ (ι → κ → ℝ) (Ω × ℕ)),
      IsWienerProcess P F t0 z0 {u | u ∈ t0 :: (grid1 ++ grid2)} W ∧
      (∀ ω, cumulated (trueNoise t0 rtol corr (seeded G)) t1 grid1 (Mem.new t0 z0 (ω, 0)) =
        .ok (grid1.map fun u => (u, fun c => W u ω c.1 c.2 - W t1 ω c.1 c.2), m1 ω)) ∧
      (∀ ω, cumulated (trueNoise t0 rtol corr (seeded G)) t1 grid2 (m1 ω) =
        .ok (grid2.map fun u => (u, fun c => W u ω c.1 c.2 - W t1 ω c.1 c.2), m2 ω)) := by
  set D0 : Set ℝ := {u | u ∈ t0 :: (grid1 ++ grid2)} with hD0
  have hsub : D0 ⊆ D := by
    intro u hu
    rcases List.mem_cons.1 hu with rfl | hu
    · exact h0
    · exact (List.mem_append.1 hu).elim (hD1 u) (hD2 u)
  have m1 : ∀ u ∈ grid1, u ∈ D0 := fun u hu => by simp [hD0, hu]
  have m2 : ∀ u ∈ grid2, u ∈ D0 := fun u hu => by simp [hD0, hu]
  have k0 : Kept P G F t0 z0 D0 0 [t0] (fun _ _ => z0) :=
    ⟨good_start (P := P) G F t0 z0 0, by simp, by simp, by simp [hD0]⟩
  obtain ⟨ts1, X1, n1, a1, a2, a3, a4, a5⟩ := kept_cumulated hC hG hr hsub hsep k0 hg1 h1 m1
  obtain ⟨ts2, X2, n2, b1, b2, b3, b4, b5⟩ := kept_cumulated hC hG hr hsub hsep a2 hg2 h2 m2
  obtain ⟨ts3, X3, n3, -, c2, c3, c4⟩ := kept_get1 hC hG hr hsub hsep b2 (m1 _ h1)
  have b5' := b5.trans c4
  have a5' := a5.trans b5'
  refine ⟨X3, fun ω => memAt ts1 X1 n1 ω, fun ω => memAt ts2 X2 n2 ω,
    isWiener_of_good hJ c2.good ?_ fun ω => by rw [(a5' t0 (by simp)).2], fun ω => ?_, fun ω => ?_⟩
  · intro u hu
    rcases List.mem_cons.1 hu with rfl | hu
    · exact (a5' _ (by simp)).1
    · by_cases hne : u = t1
      · rw [hne]; exact c3
      · rcases List.mem_append.1 hu with hu | hu
        · exact (b5' u (a3 u hu hne)).1
        · exact (c4 u (b3 u hu hne)).1
  · have : Mem.new t0 z0 (ω, 0) = memAt [t0] (fun (_ : ℝ) (_ : Ω) => z0) 0 ω := rfl
    rw [this, a1 ω]
    simp only [Except.ok.injEq, Prod.mk.injEq, and_true]
    apply List.map_congr_left
    intro u hu
    by_cases hne : u = t1
    · simp [hne]
    · rw [(b5' u (a3 u hu hne)).2, (b5' t1 (a4 ⟨u, hu, hne⟩)).2]
  · rw [b1 ω]
    simp only [Except.ok.injEq, Prod.mk.injEq, and_true]
    apply List.map_congr_left
    intro u hu
    by_cases hne : u = t1
    · simp [hne]
    · rw [(c4 u (b3 u hu hne)).2, (c4 t1 (b4 ⟨u, hu, hne⟩)).2]

end

end Sdepy
