import Verif.Spec.StrongN
import Verif.Lemmas.StrongLink

/-!
# Simulations of equations with more than one source, as Euler schemes driven by cumulated noise
-/

set_option linter.unusedSectionVars false

open MeasureTheory ProbabilityTheory

namespace Sdepy

open Spec

section
variable {ι σ O : Type} {E : Equation ℝ (ι → ℝ) ℕ σ} {c : ℕ → ℝ → (ι → ℝ) → ι → ℝ}

theorem step_realised (hcoef : ∀ t x, E.coef t x = .ok fun id => c id t x) (t : ℝ) (x : ι → ℝ) (t' : ℝ) (s : σ) :
    E.step t x t' s = match E.realised t (t' - t) s with
      | .error e => .error e
      | .ok r => .ok (x + ∑ id ∈ E.ids, c id t x * r.1 id, r.2) := by
  simp only [Equation.step, hcoef, bind, Except.bind, pure, Except.pure, Equation.realised]
  cases realise E.noise t (t' - t) (E.ids.sort (· ≤ ·)) s <;> rfl

/-- Time is realised as the time elapsed. -/
theorem realise_time {z : ℕ → ℝ → ℝ → σ → Py ((ι → ℝ) × σ)} {k : ℕ} {t dt : ℝ}
    (hz : ∀ s, z k t dt s = .ok (fun _ => dt, s)) : ∀ {l : List ℕ} {s s' : σ} {f : ℕ → ι → ℝ},
    realise z t dt l s = .ok (f, s') → k ∈ l → f k = fun _ => dt := by
  intro l
  induction l with
  | nil => intro s s' f _ h; simp at h
  | cons id l ih =>
    intro s s' f h hk
    simp only [realise, bind, Except.bind, pure, Except.pure] at h
    cases h1 : z id t dt s with
    | error e => rw [h1] at h; simp at h
    | ok r =>
      rw [h1] at h
      simp only at h
      cases h2 : realise z t dt l r.2 with
      | error e => rw [h2] at h; simp at h
      | ok q =>
        rw [h2] at h
        simp only [Except.ok.injEq, Prod.mk.injEq] at h
        obtain ⟨rfl, rfl⟩ := h
        by_cases hid : k = id
        · subst hid
          rw [hz, Except.ok.injEq] at h1
          rw [Function.update_self, ← h1]
        · rw [Function.update_of_ne hid]
          exact ih h2 ((List.mem_cons.1 hk).resolve_left hid)

theorem cumulate_time {k : ℕ} (hk : k ∈ E.ids) (hz : ∀ t dt s, E.noise k t dt s = .ok (fun _ => dt, s)) :
    ∀ {l : List ℝ} {t : ℝ} {s s' : σ} {V : ℝ → ℕ → ι → ℝ},
    cumulate E.realised t (V t) l s = .ok (l.map fun u => (u, V u), s') →
    ∀ u ∈ l, ∀ i, V u k i = V t k i + (u - t) := by
  intro l
  induction l with
  | nil => intro t s s' V _ u hu; simp at hu
  | cons v l ih =>
    intro t s s' V h u hu i
    simp only [cumulate, bind, Except.bind, pure, Except.pure] at h
    cases h1 : E.realised t (v - t) s with
    | error e => rw [h1] at h; simp at h
    | ok r =>
      rw [h1] at h
      simp only at h
      cases h2 : cumulate E.realised v (V t + r.1) l r.2 with
      | error e => rw [h2] at h; simp at h
      | ok q =>
        rw [h2] at h
        simp only [List.map_cons, Except.ok.injEq, Prod.mk.injEq, List.cons.injEq, true_and] at h
        obtain ⟨⟨hv, hq⟩, hs⟩ := h
        have hr : r.1 k = fun _ => v - t :=
          realise_time (f := r.1) (s' := r.2) (hz t (v - t)) h1 ((Finset.mem_sort _).2 hk)
        have hvk : V v k i = V t k i + (v - t) := by rw [← hv, Pi.add_apply, Pi.add_apply, hr]
        rcases List.mem_cons.1 hu with rfl | hu
        · exact hvk
        · rw [ih (V := V) (s' := s') (by rw [← hv, h2, ← hq, ← hs]) u hu i, hvk]
          ring

theorem cumulated_split {σ Y : Type} [AddGroup Y] {z : ℝ → ℝ → σ → Py (Y × σ)} {grid : List ℝ}
    (hg : grid.Pairwise (· < ·)) {t0 : ℝ} (h0 : t0 ∈ grid) {s s' : σ} {V : ℝ → Y}
    (hV : cumulated z t0 grid s = .ok (grid.map fun u => (u, V u), s')) :
    ∃ s1, cumulate z t0 (V t0) (grid.filter (· < t0)).reverse s =
        .ok ((grid.filter (· < t0)).reverse.map fun u => (u, V u), s1) ∧
      cumulate z t0 (V t0) (grid.filter (t0 < ·)) s1 = .ok ((grid.filter (t0 < ·)).map fun u => (u, V u), s') := by
  have hsp := filter_split3 hg h0
  simp only [cumulated, bind, Except.bind, pure, Except.pure] at hV
  cases h1 : cumulate z t0 0 (grid.filter (· < t0)).reverse s with
  | error e => rw [h1] at hV; simp at hV
  | ok q1 =>
  rw [h1] at hV
  simp only at hV
  cases h2 : cumulate z t0 0 (grid.filter (t0 < ·)) q1.2 with
  | error e => rw [h2] at hV; simp at hV
  | ok q2 =>
  rw [h2] at hV
  simp only [Except.ok.injEq, Prod.mk.injEq] at hV
  obtain ⟨hl, hs⟩ := hV
  have hl' : q1.1.reverse ++ (t0, 0) :: q2.1 =
      (grid.filter (· < t0)).map (fun u => (u, V u)) ++ (t0, V t0) :: (grid.filter (t0 < ·)).map fun u => (u, V u) := by
    rw [hl]
    conv_lhs => rw [← hsp]
    simp
  have hlen := cumulate_length (ps := q1.1) (s' := q1.2) h1
  obtain ⟨i1, i2⟩ := List.append_inj hl' (by simpa using hlen)
  simp only [List.cons.injEq, Prod.mk.injEq, true_and] at i2
  obtain ⟨hz, i2⟩ := i2
  have k1 : q1.1 = (grid.filter (· < t0)).reverse.map fun u => (u, V u) := by
    rw [List.map_reverse, ← i1, List.reverse_reverse]
  exact ⟨q1.2, by rw [← hz, h1, ← k1], by rw [← hz, h2, ← i2, ← hs]⟩

theorem path_of_noises (hcoef : ∀ t x, E.coef t x = .ok fun id => c id t x) :
    ∀ (l : List ℝ) (t : ℝ) (x : ι → ℝ) (s s' : σ) (V : ℝ → ℕ → ι → ℝ), (t :: l).Nodup →
    cumulate E.realised t (V t) l s = .ok (l.map fun u => (u, V u), s') →
    ∃ X : ℝ → ι → ℝ, E.path t x l s = .ok (l.map fun u => (u, X u), s') ∧ X t = x ∧
      ∀ l1 u v l2, t :: l = l1 ++ u :: v :: l2 → ∀ i,
        X v i = X u i + ∑ id ∈ E.ids, c id u (X u) i * (V v id i - V u id i) := by
  intro l
  induction l with
  | nil =>
    intro t x s s' V _ h
    simp only [cumulate, List.map_nil, Except.ok.injEq, Prod.mk.injEq, true_and] at h
    refine ⟨fun _ => x, by rw [h]; rfl, rfl, ?_⟩
    intro l1 a b l2 h
    have := congrArg List.length h
    simp at this
    omega
  | cons v l ih =>
    intro t x s s' V hnd h
    simp only [cumulate, bind, Except.bind, pure, Except.pure] at h
    cases h1 : E.realised t (v - t) s with
    | error e => rw [h1] at h; simp at h
    | ok r =>
      rw [h1] at h
      simp only at h
      cases h2 : cumulate E.realised v (V t + r.1) l r.2 with
      | error e => rw [h2] at h; simp at h
      | ok q =>
        rw [h2] at h
        simp only [List.map_cons, Except.ok.injEq, Prod.mk.injEq, List.cons.injEq, true_and] at h
        obtain ⟨⟨hv, hq⟩, hs⟩ := h
        obtain ⟨X, e1, e2, e3⟩ := ih v (fun i => x i + ∑ id ∈ E.ids, c id t x i * r.1 id i) r.2 s' V
          (List.nodup_cons.1 hnd).2 (by rw [← hv, h2, ← hq, ← hs])
        have htl : t ∉ v :: l := (List.nodup_cons.1 hnd).1
        let X' : ℝ → ι → ℝ := fun u => if u = t then x else X u
        have hXt : X' t = x := by simp [X']
        have hXu : ∀ u ∈ v :: l, X' u = X u := by
          intro u hu
          have : u ≠ t := by rintro rfl; exact htl hu
          simp [X', this]
        refine ⟨X', ?_, hXt, ?_⟩
        · have es : E.step t x v s = .ok (fun i => x i + ∑ id ∈ E.ids, c id t x i * r.1 id i, r.2) := by
            rw [step_realised hcoef, h1]
            simp only [Except.ok.injEq, Prod.mk.injEq, and_true]
            funext i
            simp
          simp only [Equation.path, bind, Except.bind, es, e1, pure, Except.pure, List.map_cons,
            Except.ok.injEq, Prod.mk.injEq, List.cons.injEq, true_and, and_true]
          refine ⟨by rw [hXu v (by simp), e2], ?_⟩
          apply List.map_congr_left
          intro u hu
          rw [hXu u (by simp [hu])]
        · intro l1 p d l2 h i
          cases l1 with
          | nil =>
            simp only [List.nil_append, List.cons.injEq] at h
            obtain ⟨rfl, rfl, rfl⟩ := h
            rw [hXt, hXu v (by simp), e2, ← hv]
            simp
          | cons p' l1 =>
            simp only [List.cons_append, List.cons.injEq] at h
            obtain ⟨rfl, h⟩ := h
            have hc : p ∈ v :: l := by rw [h]; simp
            have hd : d ∈ v :: l := by rw [h]; simp
            rw [hXu p hc, hXu d hd]
            exact e3 l1 p d l2 h i

theorem solution_of_noises (hcoef : ∀ t x, E.coef t x = .ok fun id => c id t x)
    {grid : List ℝ} (hg : grid.Pairwise (· < ·)) {t0 : ℝ} (h0 : t0 ∈ grid) (x0 : ι → ℝ) {s s' : σ}
    {V : ℝ → ℕ → ι → ℝ} (hV : cumulated E.realised t0 grid s = .ok (grid.map fun u => (u, V u), s')) :
    ∃ X : ℝ → ι → ℝ, E.solution t0 x0 grid s = .ok (grid.map fun u => (u, X u), s') ∧
      X t0 = x0 ∧ ∀ u v, StepOf grid t0 u v → ∀ i,
        X v i = X u i + ∑ id ∈ E.ids, c id u (X u) i * (V v id i - V u id i) := by
  have hp1 : (t0 :: (grid.filter (· < t0)).reverse).Pairwise (· > ·) := by
    rw [List.pairwise_cons]
    refine ⟨fun a ha => ?_, ?_⟩
    · simp at ha; exact ha.2
    · rw [List.pairwise_reverse]; exact (hg.filter _)
  have hp2 : (t0 :: grid.filter (t0 < ·)).Pairwise (· < ·) := by
    rw [List.pairwise_cons]
    refine ⟨fun a ha => ?_, hg.filter _⟩
    simp at ha; exact ha.2
  have hsp := filter_split3 hg h0
  obtain ⟨s1, w1, w2⟩ := cumulated_split hg h0 hV
  obtain ⟨Y1, a3, a4, a6⟩ := path_of_noises hcoef (grid.filter (· < t0)).reverse t0 x0 s s1 V
    (hp1.imp fun h => ne_of_gt h) w1
  obtain ⟨Y2, b3, b4, b6⟩ := path_of_noises hcoef (grid.filter (t0 < ·)) t0 x0 s1 s' V
    (hp2.imp fun h => ne_of_lt h) w2
  let Y : ℝ → ι → ℝ := fun u => if u < t0 then Y1 u else Y2 u
  have hY1 : ∀ u ≤ t0, Y u = Y1 u := by
    intro u hu
    rcases hu.eq_or_lt with rfl | hu
    · simp only [Y, lt_irrefl, if_false, a4, b4]
    · simp only [Y, if_pos hu]
  have hY2 : ∀ u, t0 ≤ u → Y u = Y2 u := fun u hu => by simp only [Y, if_neg (not_lt.2 hu)]
  have m1 : ∀ u ∈ grid, u ≤ t0 → u ∈ t0 :: (grid.filter (· < t0)).reverse := by
    intro u hu hle
    rcases hle.eq_or_lt with rfl | hlt
    · simp
    · simp [hu, hlt]
  have m2 : ∀ u ∈ grid, t0 ≤ u → u ∈ t0 :: grid.filter (t0 < ·) := by
    intro u hu hle
    rcases hle.eq_or_lt with rfl | hlt
    · simp
    · simp [hu, hlt]
  refine ⟨Y, ?_, by rw [hY2 _ le_rfl, b4], ?_⟩
  · simp only [Equation.solution, bind, Except.bind, pure, Except.pure, a3, b3, Except.ok.injEq,
      Prod.mk.injEq, and_true]
    conv_rhs => rw [← hsp]
    simp only [List.map_append, List.map_cons, List.map_reverse, List.reverse_reverse]
    congr 1
    · apply List.map_congr_left
      intro u hu
      simp at hu
      rw [hY1 u hu.2.le]
    · congr 1
      · rw [hY2 _ le_rfl, b4]
      · apply List.map_congr_left
        intro u hu
        simp at hu
        rw [hY2 u hu.2.le]
  · rintro u v ⟨hu, hv, h | h⟩
    · obtain ⟨h1, h2, h3⟩ := h
      obtain ⟨l1, l2, hl⟩ := split_consecutive (fun _ _ h => not_lt.2 (le_of_lt h)) hp2 (m2 u hu h1)
        (m2 v hv (h1.trans h2.le)) h2 (fun c hc => h3 c (by
          rcases List.mem_cons.1 hc with rfl | hc
          · exact h0
          · simp at hc; exact hc.1))
      rw [hY2 u h1, hY2 v (h1.trans h2.le)]
      exact b6 l1 u v l2 hl
    · obtain ⟨h1, h2, h3⟩ := h
      obtain ⟨l1, l2, hl⟩ := split_consecutive (R := (· > ·)) (fun _ _ h => not_lt.2 (le_of_lt h)) hp1 (m1 u hu h1)
        (m1 v hv (h2.le.trans h1)) h2 (fun c hc => fun hh => h3 c (by
          rcases List.mem_cons.1 hc with rfl | hc
          · exact h0
          · simp at hc; exact hc.1) ⟨hh.2, hh.1⟩)
      rw [hY1 u h1, hY1 v (h2.le.trans h1)]
      exact a6 l1 u v l2 hl

end

end Sdepy
