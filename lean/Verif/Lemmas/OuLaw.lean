import Verif.Lemmas.WienerLaw
import Verif.Spec.OuLaw

/-!
# Moments of the Euler scheme for Ornstein-Uhlenbeck processes
-/

open MeasureTheory ProbabilityTheory Matrix

namespace Sdepy

open Spec

variable {Ω ι κ : Type} [MeasurableSpace Ω] [Fintype κ] [DecidableEq κ] [DecidableEq ι]
  {P : Measure Ω} [IsProbabilityMeasure P]

/-- Values computed after `n` evaluations of the source of noise. -/
structure OuGood (P : Measure Ω) (G : ℕ → Matrix κ κ ℝ → ℝ → ℝ → Ω → ι → κ → ℝ) (n : ℕ)
    (Y : Ω → ι × κ → ℝ) (m : ι × κ → ℝ) (c : ι → κ → κ → ℝ) : Prop where
  l2 : ∀ x, MemLp (fun ω => Y ω x) 2 P
  mean : ∀ x, ∫ ω, Y ω x ∂P = m x
  cov : ∀ i j a b, cov[fun ω => Y ω (i, a), fun ω => Y ω (j, b); P] = if i = j then c i a b else 0
  fresh : ∀ x q C t dt j b, n ≤ q → cov[fun ω => Y ω x, fun ω => G q C t dt ω j b; P] = 0
  span : ∀ x, (fun ω => Y ω x) ∈ affSpan (drawFam G)

theorem OuGood.const (G : ℕ → Matrix κ κ ℝ → ℝ → ℝ → Ω → ι → κ → ℝ) (n : ℕ) (x0 : ι × κ → ℝ) :
    OuGood P G n (fun _ => x0) x0 fun _ _ _ => 0 :=
  ⟨fun _ => memLp_const _, fun x => by simp, fun i j a b => by simp [covariance_const_left],
    fun _ _ _ _ _ _ _ _ => covariance_const_left _, fun x => affSpan_const _ _⟩

theorem OuGood.step {G : ℕ → Matrix κ κ ℝ → ℝ → ℝ → Ω → ι → κ → ℝ} (hG : Draws P G) {n : ℕ}
    {Y : Ω → ι × κ → ℝ} {m : ι × κ → ℝ} {c : ι → κ → κ → ℝ} (h : OuGood P G n Y m c)
    (theta k sigma : ι × κ → ℝ) {C : Matrix κ κ ℝ} (hC : C.PosSemidef) (t d : ℝ) :
    OuGood P G (n + 1)
      (fun ω x => Y ω x + k x * (theta x - Y ω x) * d + sigma x * G n C t d ω x.1 x.2)
      (fun x => m x + k x * (theta x - m x) * d)
      (fun i a b => (1 - k (i, a) * d) * (1 - k (i, b) * d) * c i a b +
        sigma (i, a) * sigma (i, b) * C a b * |d|) := by
  have lg : ∀ i a, MemLp (fun ω => G n C t d ω i a) 2 P := fun i a => hG.l2 n C t d i a
  have e : ∀ x : ι × κ, (fun ω => Y ω x + k x * (theta x - Y ω x) * d + sigma x * G n C t d ω x.1 x.2) =
      fun ω => k x * theta x * d + ((1 - k x * d) * Y ω x + sigma x * G n C t d ω x.1 x.2) := by
    intro x; funext ω; ring
  have l1 : ∀ x, MemLp (fun ω => (1 - k x * d) * Y ω x) 2 P := fun x => (h.l2 x).const_mul _
  have l2 : ∀ x : ι × κ, MemLp (fun ω => sigma x * G n C t d ω x.1 x.2) 2 P :=
    fun x => (lg x.1 x.2).const_mul _
  have l3 : ∀ x : ι × κ,
      MemLp (fun ω => (1 - k x * d) * Y ω x + sigma x * G n C t d ω x.1 x.2) 2 P :=
    fun x => (l1 x).add (l2 x)
  have cl : ∀ (x : ι × κ) (Z : Ω → ℝ), MemLp Z 2 P →
      cov[fun ω => Y ω x + k x * (theta x - Y ω x) * d + sigma x * G n C t d ω x.1 x.2, Z; P] =
        (1 - k x * d) * cov[fun ω => Y ω x, Z; P] +
          sigma x * cov[fun ω => G n C t d ω x.1 x.2, Z; P] := by
    intro x Z hZ
    have hadd : cov[fun ω => (1 - k x * d) * Y ω x + sigma x * G n C t d ω x.1 x.2, Z; P] =
        cov[fun ω => (1 - k x * d) * Y ω x, Z; P] +
          cov[fun ω => sigma x * G n C t d ω x.1 x.2, Z; P] := covariance_add_left (l1 x) (l2 x) hZ
    rw [e, covariance_const_add_left ((l3 x).integrable (by norm_num)), hadd,
      covariance_const_mul_left, covariance_const_mul_left]
  have lw : ∀ x : ι × κ,
      MemLp (fun ω => Y ω x + k x * (theta x - Y ω x) * d + sigma x * G n C t d ω x.1 x.2) 2 P := by
    intro x
    rw [e]
    have hc : MemLp (fun _ : Ω => k x * theta x * d) 2 P := memLp_const _
    exact hc.add (l3 x)
  refine ⟨lw, ?_, ?_, ?_, ?_⟩
  · intro x
    rw [e, integral_add (integrable_const _) ((l3 x).integrable (by norm_num)), integral_const,
      integral_add ((l1 x).integrable (by norm_num)) ((l2 x).integrable (by norm_num)),
      integral_const_mul, integral_const_mul, h.mean]
    have := congrFun (hG.mean n C t d x.1) x.2
    simp only [meanV, Pi.zero_apply] at this
    rw [this]
    simp
    ring
  · intro i j a b
    have hgg : cov[fun ω => G n C t d ω i a, fun ω => G n C t d ω j b; P] =
        if i = j then |d| * C a b else 0 := by
      have := congrFun (congrFun (hG.cov n C t d i j hC) a) b
      simp only [covM] at this
      rw [this]
      split <;> simp
    rw [cl _ _ (lw _), covariance_comm, cl _ _ (h.l2 _), covariance_comm _ (fun ω => Y ω (i, a)),
      h.cov, covariance_comm, h.fresh _ _ _ _ _ _ _ le_rfl,
      covariance_comm _ (fun ω => Y ω (j, b) + _ + _), cl _ _ (lg _ _),
      h.fresh _ _ _ _ _ _ _ le_rfl, covariance_comm, hgg]
    by_cases hij : i = j
    · subst hij
      simp only [if_true]
      ring
    · simp [hij]
  · intro x q C' t' d' j b hq
    rw [cl _ _ (hG.l2 q C' t' d' j b), h.fresh _ _ _ _ _ _ _ (by omega)]
    have := congrFun (congrFun (hG.uncorr n C t d x.1 q C' t' d' j (by omega)) x.2) b
    simp only [covM, Matrix.zero_apply] at this
    rw [this]
    simp
  · intro x
    rw [e]
    have hY := Submodule.smul_mem _ (1 - k x * d) (h.span x)
    have hD := Submodule.smul_mem (affSpan (drawFam G)) (sigma x)
      (affSpan_draw (drawFam G) (n, C, t, d, x.1, x.2))
    exact Submodule.add_mem _ (affSpan_const _ _) (Submodule.add_mem _ hY hD)

/-- The solution along given times. -/
theorem ou_path {O : Type} {S : SDE ℝ (ι × κ → ℝ) O ℕ (Ω × ℕ)} {theta k sigma : ℝ → ι × κ → ℝ}
    {G : ℕ → Matrix κ κ ℝ → ℝ → ℝ → Ω → ι → κ → ℝ} (hG : Draws P G) {C : ℝ → Matrix κ κ ℝ}
    (hstep : ∀ t x t' s, (equation S).step t x t' s =
      (noise G C t (t' - t) s).map fun r =>
        (fun c => x c + k t c * (theta t c - x c) * (t' - t) + sigma t c * r.1 c, r.2))
    {D : Set ℝ} (hD : D.OrdConnected) (hC : ∀ t ∈ D, (C t).PosSemidef) :
    ∀ (l : List ℝ) {t : ℝ} {n : ℕ} {Y : Ω → ι × κ → ℝ} {m : ι × κ → ℝ} {c : ι → κ → κ → ℝ},
    OuGood P G n Y m c → (t :: l).Nodup → (∀ u ∈ t :: l, u ∈ D) →
    ∃ X : ℝ → Ω → ι × κ → ℝ,
      (∀ ω, (equation S).path t (Y ω) l (ω, n) =
        .ok (l.map fun u => (u, X u ω), (ω, n + l.length))) ∧
      ∀ l1 u l2, l = l1 ++ u :: l2 → OuGood P G (n + l1.length + 1) (X u)
        (fun x => eulerMean (fun u => theta u x) (fun u => k u x) t (m x) (l1 ++ [u]))
        (fun i a b => eulerCov (fun u => k u (i, a)) (fun u => k u (i, b)) (fun u => sigma u (i, a))
          (fun u => sigma u (i, b)) (fun u => C u a b) t (c i a b) (l1 ++ [u])) := by
  intro l
  induction l with
  | nil =>
    intro t n Y m c _ _ _
    exact ⟨fun _ => Y, fun ω => rfl, fun l1 u l2 h => by simp at h⟩
  | cons s l ih =>
    intro t n Y m c hg hn hl
    have hs : s ∈ D := hl s (by simp)
    have ht : t ∈ D := hl t (by simp)
    have hmid : t + (s - t) / 2 = (t + s) / 2 := by ring
    have hm : (t + s) / 2 ∈ D := by
      rcases le_total t s with h | h
      · exact hD.out ht hs ⟨by linarith, by linarith⟩
      · exact hD.out hs ht ⟨by linarith, by linarith⟩
    have h1 := hg.step hG (theta t) (k t) (sigma t) (hC _ hm) t (s - t)
    obtain ⟨X, e, g⟩ := ih (t := s) h1 (List.nodup_cons.1 hn).2 fun u hu => hl u (by simp [hu])
    have hsl : s ∉ l := (List.nodup_cons.1 (List.nodup_cons.1 hn).2).1
    have hX : ∀ u, u ∈ l → ∀ v, Function.update X s v u = X u :=
      fun u hu v => Function.update_of_ne (fun e : u = s => hsl (e ▸ hu)) _ _
    refine ⟨Function.update X s fun ω x => Y ω x + k t x * (theta t x - Y ω x) * (s - t) +
      sigma t x * G n (C ((t + s) / 2)) t (s - t) ω x.1 x.2, fun ω => ?_, ?_⟩
    · simp only [Equation.path, hstep, noise, Except.map, bind, Except.bind, pure, Except.pure,
        hmid, e, List.map_cons, Function.update_self, List.length_cons, Except.ok.injEq,
        Prod.mk.injEq, List.cons.injEq, true_and]
      refine ⟨?_, by omega⟩
      apply List.map_congr_left
      intro u hu
      rw [hX u hu]
    · rintro l1 u l2 h
      cases l1 with
      | nil =>
        simp only [List.nil_append, List.cons.injEq] at h
        rw [← h.1, Function.update_self]
        simpa [eulerMean, eulerCov] using h1
      | cons v l1 =>
        simp only [List.cons_append, List.cons.injEq] at h
        obtain ⟨rfl, h⟩ := h
        rw [hX u (by rw [h]; simp)]
        have := g l1 u l2 h
        simpa [eulerMean, eulerCov, add_assoc, add_comm, add_left_comm] using this

theorem prefix_filter {R : ℝ → ℝ → Prop} [DecidableRel R] {l1 l2 : List ℝ} {u : ℝ}
    (hirr : ∀ a b, R a b → ¬ R b a) (h : (l1 ++ u :: l2).Pairwise R) :
    (l1 ++ u :: l2).filter (fun v => ¬ R u v) = l1 ++ [u] := by
  rw [List.pairwise_append, List.pairwise_cons] at h
  obtain ⟨h1, ⟨h2, h3⟩, h4⟩ := h
  rw [List.filter_append, List.filter_cons, if_pos (by simpa using fun h => hirr u u h h)]
  have e1 : l1.filter (fun v => ¬ R u v) = l1 := by
    rw [List.filter_eq_self]
    intro a ha
    simpa using hirr _ _ (h4 a ha u (by simp))
  have e2 : l2.filter (fun v => ¬ R u v) = [] := by
    rw [List.filter_eq_nil_iff]
    intro a ha
    simpa using h2 a ha
  rw [e1, e2]

theorem stepsTo_right {grid : List ℝ} (hg : grid.Pairwise (· < ·)) {t0 u : ℝ} {l1 l2 : List ℝ}
    (h : grid.filter (t0 < ·) = l1 ++ u :: l2) : l1 ++ [u] = stepsTo grid t0 u := by
  have hp : (l1 ++ u :: l2).Pairwise (· < ·) := h ▸ hg.filter _
  rw [← prefix_filter (fun a b h => not_lt.2 h.le) hp, ← h, List.filter_filter]
  have hu : u ∈ grid.filter (t0 < ·) := by rw [h]; simp
  rw [stepsTo, if_pos (by simp at hu; exact hu.2.le)]
  congr 1
  funext v
  rw [Bool.and_comm]
  simp

theorem stepsTo_left {grid : List ℝ} (hg : grid.Pairwise (· < ·)) {t0 u : ℝ} {l1 l2 : List ℝ}
    (h : (grid.filter (· < t0)).reverse = l1 ++ u :: l2) : l1 ++ [u] = stepsTo grid t0 u := by
  have hp : (l1 ++ u :: l2).Pairwise (· > ·) := by
    rw [← h, List.pairwise_reverse]; exact hg.filter _
  rw [← prefix_filter (R := (· > ·)) (fun a b h => not_lt.2 (le_of_lt h)) hp, ← h,
    List.filter_reverse, List.filter_filter]
  have hu : u ∈ (grid.filter (· < t0)).reverse := by rw [h]; simp
  rw [stepsTo, if_neg (by simp at hu; exact not_le.2 hu.2)]
  congr 2
  funext v
  simp

theorem stepsTo_self (grid : List ℝ) (t0 : ℝ) : stepsTo grid t0 t0 = [] := by
  rw [stepsTo, if_pos le_rfl, List.filter_eq_nil_iff]
  intro a _
  simp

/-- The solution on a grid, in both directions from `t0`. -/
theorem ou_solution {O : Type} {S : SDE ℝ (ι × κ → ℝ) O ℕ (Ω × ℕ)} {theta k sigma : ℝ → ι × κ → ℝ}
    {G : ℕ → Matrix κ κ ℝ → ℝ → ℝ → Ω → ι → κ → ℝ} (hG : Draws P G) (hJ : GaussianDraws P G)
    {C : ℝ → Matrix κ κ ℝ}
    (hstep : ∀ t x t' s, (equation S).step t x t' s =
      (noise G C t (t' - t) s).map fun r =>
        (fun c => x c + k t c * (theta t c - x c) * (t' - t) + sigma t c * r.1 c, r.2))
    {D : Set ℝ} (hD : D.OrdConnected) (hC : ∀ t ∈ D, (C t).PosSemidef) (x0 : ι × κ → ℝ)
    {grid : List ℝ} (hg : grid.Pairwise (· < ·)) {t0 : ℝ} (h0 : t0 ∈ grid)
    (hgD : ∀ u ∈ grid, u ∈ D) (n : ℕ) :
    ∃ (X : ℝ → Ω → ι × κ → ℝ) (m : ℕ),
      (∀ ω, (equation S).solution t0 x0 grid (ω, n) = .ok (grid.map fun u => (u, X u ω), (ω, m))) ∧
      IsEulerOU P theta k sigma C t0 x0 grid {u | u ∈ grid} X := by
  have hp1 : (t0 :: (grid.filter (· < t0)).reverse).Pairwise (· > ·) := by
    rw [List.pairwise_cons]
    refine ⟨fun a ha => ?_, ?_⟩
    · simp at ha; exact ha.2
    · rw [List.pairwise_reverse]; exact (hg.filter _)
  have hp2 : (t0 :: grid.filter (t0 < ·)).Pairwise (· < ·) := by
    rw [List.pairwise_cons]
    refine ⟨fun a ha => ?_, hg.filter _⟩
    simp at ha; exact ha.2
  obtain ⟨X1, e1, g1⟩ := ou_path hG hstep hD hC (grid.filter (· < t0)).reverse
    (OuGood.const G n x0) (t := t0) (hp1.imp fun h => ne_of_gt h) (fun u hu => hgD u (by
      simp at hu; rcases hu with rfl | hu; exacts [h0, hu.1]))
  obtain ⟨X2, e2, g2⟩ := ou_path hG hstep hD hC (grid.filter (t0 < ·))
    (OuGood.const G (n + (grid.filter (· < t0)).reverse.length) x0) (t := t0)
    (hp2.imp fun h => ne_of_lt h) (fun u hu => hgD u (by
      simp at hu; rcases hu with rfl | hu; exacts [h0, hu.1]))
  let X : ℝ → Ω → ι × κ → ℝ := fun u => if u < t0 then X1 u else if t0 < u then X2 u else fun _ => x0
  have key : ∀ u ∈ grid, ∃ q, OuGood P G q (X u)
        (fun x => eulerMean (fun u => theta u x) (fun u => k u x) t0 (x0 x) (stepsTo grid t0 u))
        (fun i a b => eulerCov (fun u => k u (i, a)) (fun u => k u (i, b)) (fun u => sigma u (i, a))
          (fun u => sigma u (i, b)) (fun u => C u a b) t0 0 (stepsTo grid t0 u)) := by
    intro u hu
    rcases lt_trichotomy u t0 with h | h | h
    · have hm : u ∈ (grid.filter (· < t0)).reverse := by simp [hu, h]
      obtain ⟨l1, l2, hl⟩ := List.append_of_mem hm
      have := g1 l1 u l2 hl
      rw [stepsTo_left hg hl] at this
      rw [show X1 u = X u by simp only [X, if_pos h]] at this
      exact ⟨_, this⟩
    · subst h
      refine ⟨0, ?_⟩
      simp only [X, lt_irrefl, if_false, stepsTo_self, eulerMean, eulerCov]
      exact OuGood.const G 0 x0
    · have hm : u ∈ grid.filter (t0 < ·) := by simp [hu, h]
      obtain ⟨l1, l2, hl⟩ := List.append_of_mem hm
      have := g2 l1 u l2 hl
      rw [stepsTo_right hg hl] at this
      rw [show X2 u = X u by simp only [X, if_pos h, if_neg (not_lt.2 h.le)]] at this
      exact ⟨_, this⟩
  refine ⟨X, n + (grid.filter (· < t0)).reverse.length + (grid.filter (t0 < ·)).length,
    fun ω => ?_, ⟨fun ω => by simp [X], ?_, ?_, ?_⟩⟩
  rotate_left
  · refine gauss_of_affSpan (X := drawFam G) hJ fun p => ?_
    obtain ⟨q, hq⟩ := key p.1 p.1.2
    exact hq.span p.2
  · intro u hu c
    obtain ⟨q, hq⟩ := key u hu
    exact hq.mean c
  · intro u hu i j a b
    obtain ⟨q, hq⟩ := key u hu
    exact hq.cov i j a b
  · simp only [Equation.solution, bind, Except.bind, pure, Except.pure]
    rw [e1 ω]
    simp only
    rw [e2 ω]
    simp only [Except.ok.injEq, Prod.mk.injEq, and_true]
    conv_rhs => rw [← filter_split3 hg h0]
    simp only [List.map_append, List.map_cons, List.map_reverse, List.reverse_reverse]
    congr 1
    · apply List.map_congr_left
      intro u hu
      simp at hu
      simp only [X, if_pos hu.2]
    · simp only [X, lt_irrefl, if_false, List.cons.injEq, true_and]
      apply List.map_congr_left
      intro u hu
      simp at hu
      simp only [X, if_neg (not_lt.2 hu.2.le), if_pos hu.2]

end Sdepy
