import Verif.Lemmas.StrongLimit
import Verif.Spec.Sharp

/-!
# Mean squares of errors for `dx = c*x*dw`
-/

set_option linter.unusedSectionVars false

open MeasureTheory ProbabilityTheory Filter Topology

namespace Sdepy

open Spec

/-! ### Products of factors -/

theorem growth_append (c : ℝ) : ∀ (l : List ℝ) (s t : ℝ),
    growth c (l ++ [s, t]) = growth c (l ++ [s]) * (1 + c * (t - s))
  | [], s, t => by simp [growth]
  | [u], s, t => by simp [growth]
  | u :: v :: l, s, t => by
    have := growth_append c (v :: l) s t
    simp only [List.cons_append, growth] at this ⊢
    rw [this]
    ring

theorem growth_ge_one {c : ℝ} (hc : 0 ≤ c) : ∀ {l : List ℝ}, l.Pairwise (· < ·) → 1 ≤ growth c l
  | [], _ => le_rfl
  | [_], _ => le_rfl
  | s :: t :: l, h => by
    have h1 := growth_ge_one hc (List.pairwise_cons.1 h).2
    have h2 : s < t := (List.pairwise_cons.1 h).1 t (by simp)
    have h3 : 0 ≤ c * (t - s) := mul_nonneg hc (by linarith)
    simp only [growth]
    nlinarith

/-- Exponentials exceed products of factors by at least this, for any `m`. -/
theorem growth_gap {c : ℝ} (hc : 0 ≤ c) (m : ℝ) : ∀ {l : List ℝ} (a : ℝ), (a :: l).Pairwise (· < ·) →
    growth c (a :: l) + (m * (c * (l.getLastD a - a)) - l.length * m ^ 2 / 2) ≤
      Real.exp (c * (l.getLastD a - a))
  | [], a, _ => by simp [growth]
  | b :: l, a, h => by
    have hp := (List.pairwise_cons.1 h).2
    have hab : a < b := (List.pairwise_cons.1 h).1 b (by simp)
    have ih := growth_gap hc m b hp
    have g1 := growth_ge_one hc hp
    have hl : (b :: l).getLastD a = l.getLastD b := by
      cases l <;> rfl
    rw [hl]
    set e := l.getLastD b
    have hx : 0 ≤ c * (b - a) := mul_nonneg hc (by linarith)
    set x := c * (b - a) with hxd
    have he : c * (e - a) = x + c * (e - b) := by rw [hxd]; ring
    have hexp : 1 + x + x ^ 2 / 2 ≤ Real.exp x := Real.quadratic_le_exp_of_nonneg hx
    rw [he, Real.exp_add]
    simp only [growth, List.length_cons, ← hxd]
    push_cast
    have hE : 1 ≤ Real.exp (c * (e - b)) := by
      refine Real.one_le_exp (mul_nonneg hc ?_)
      have : b ≤ e := by
        have hm : e = b ∨ e ∈ l := by
          rcases List.eq_nil_or_concat l with h | ⟨l', y, h⟩
          · left; simp [e, h]
          · right; simp [e, h]
        rcases hm with h | h
        · exact h.ge
        · exact ((List.pairwise_cons.1 hp).1 e h).le
      linarith
    have hgE : growth c (b :: l) ≤ Real.exp (c * (e - b)) := by
      have := growth_gap hc 0 b hp
      rw [zero_mul, zero_pow two_ne_zero, mul_zero, zero_div, sub_zero, add_zero] at this
      exact this
    set E := Real.exp (c * (e - b))
    have k1 : (1 + x + x ^ 2 / 2) * E ≤ Real.exp x * E := by gcongr
    have k2 : (1 + x) * growth c (b :: l) + (E - growth c (b :: l)) + x ^ 2 / 2 ≤
        (1 + x + x ^ 2 / 2) * E := by
      nlinarith [mul_nonneg hx (sub_nonneg.2 hgE), mul_nonneg (sq_nonneg x) (sub_nonneg.2 hE)]
    nlinarith [sq_nonneg (x - m)]

/-- One step, for products: the analogue of `sq_step`. -/
theorem mul_step {Ω : Type} [MeasurableSpace Ω] {P : Measure Ω} [IsProbabilityMeasure P]
    {f g f' g' ζ : Ω → ℝ} (hi : IndepFun (fun ω => (f ω, g ω, f' ω, g' ω)) ζ P)
    (hf : MemLp f 2 P) (hg : MemLp g 2 P) (hf' : MemLp f' 2 P) (hg' : MemLp g' 2 P)
    (hζ : MemLp ζ 2 P) (h0 : ∫ ω, ζ ω ∂P = 0) :
    ∫ ω, (f ω + g ω * ζ ω) * (f' ω + g' ω * ζ ω) ∂P =
      ∫ ω, f ω * f' ω ∂P + (∫ ω, g ω * g' ω ∂P) * ∫ ω, ζ ω ^ 2 ∂P := by
  have pol : ∀ {u v : Ω → ℝ}, MemLp u 2 P → MemLp v 2 P →
      ∫ ω, u ω * v ω ∂P = (∫ ω, (u ω + v ω) ^ 2 ∂P - ∫ ω, (u ω - v ω) ^ 2 ∂P) / 4 := by
    intro u v hu hv
    have := integral_sub (hu.add hv).integrable_sq (hu.sub hv).integrable_sq
    simp only [Pi.add_apply, Pi.sub_apply] at this
    rw [← this, ← integral_div]
    congr 1
    funext ω
    ring
  have s1 := sq_step (hi.comp (φ := fun c : ℝ × ℝ × ℝ × ℝ => (c.1 + c.2.2.1, c.2.1 + c.2.2.2)) (ψ := id)
    (by fun_prop) measurable_id) (hf.add hf') (hg.add hg') hζ h0
  have s2 := sq_step (hi.comp (φ := fun c : ℝ × ℝ × ℝ × ℝ => (c.1 - c.2.2.1, c.2.1 - c.2.2.2)) (ψ := id)
    (by fun_prop) measurable_id) (hf.sub hf') (hg.sub hg') hζ h0
  have m1 := (sq_step (hi.comp (φ := fun c : ℝ × ℝ × ℝ × ℝ => (c.1, c.2.1)) (ψ := id)
    (by fun_prop) measurable_id) hf hg hζ h0).1
  have m2 := (sq_step (hi.comp (φ := fun c : ℝ × ℝ × ℝ × ℝ => (c.2.2.1, c.2.2.2)) (ψ := id)
    (by fun_prop) measurable_id) hf' hg' hζ h0).1
  simp only [Pi.add_apply, Pi.sub_apply, Function.comp_def, id] at s1 s2 m1 m2
  rw [pol m1 m2, pol hf hf', pol hg hg']
  have e1 : ∫ ω, (f ω + g ω * ζ ω + (f' ω + g' ω * ζ ω)) ^ 2 ∂P =
      ∫ ω, (f ω + f' ω + (g ω + g' ω) * ζ ω) ^ 2 ∂P := by
    congr 1; funext ω; ring
  have e2 : ∫ ω, (f ω + g ω * ζ ω - (f' ω + g' ω * ζ ω)) ^ 2 ∂P =
      ∫ ω, (f ω - f' ω + (g ω - g' ω) * ζ ω) ^ 2 ∂P := by
    congr 1; funext ω; ring
  rw [e1, e2, s1.2, s2.2]
  ring

/-! ### The equation `dx = c*x*dw` -/

section
variable {Ω ι : Type} [MeasurableSpace Ω] [Fintype ι] {P : Measure Ω} [IsProbabilityMeasure P]
  {t0 c : ℝ} {D : Set ℝ} {W X Z : ℝ → Ω → ι → ℝ} {x0 : ι → ℝ} {grid fine : List ℝ}

/-- The scheme for `dx = c*x*dw`. -/
abbrev GrowthScheme (c t0 : ℝ) (x0 : ι → ℝ) (grid : List ℝ) (W X : ℝ → Ω → ι → ℝ) : Prop :=
  IsScheme (fun _ _ _ => 0) (fun _ x i => c * x i) t0 x0 grid W X

/-- Values are known when they are reached, and what their mean squares are. -/
theorem growth_moments (hW : Drives P t0 D W) (hg : grid.Pairwise (· < ·)) (h0 : t0 ∈ grid)
    (hD : ∀ u ∈ grid, u ∈ D) (hX : GrowthScheme c t0 x0 grid W X) : ∀ u ∈ grid, t0 ≤ u →
      KnownAt D W u (X u) ∧ (∀ i, MemLp (fun ω => X u ω i) 2 P) := by
  intro u hu h0u
  have := scheme_moments (T := u - t0) (C := c ^ 2) (by linarith) (sq_nonneg c)
    (fun t _ => ⟨by fun_prop, by fun_prop⟩) (fun t _ x => by
      have : ∑ i, ((0 : ℝ) ^ 2 + (c * x i) ^ 2) = c ^ 2 * ∑ i, x i ^ 2 := by
        rw [Finset.mul_sum]
        exact Finset.sum_congr rfl fun i _ => by ring
      rw [this]
      nlinarith [sq_nonneg c]) hW hg h0 hD hX u hu h0u (by linarith)
  exact ⟨this.1, this.2.1⟩

theorem growth_sq_step (hW : Drives P t0 D W) (hg : grid.Pairwise (· < ·)) (h0 : t0 ∈ grid)
    (hD : ∀ u ∈ grid, u ∈ D) (hX : GrowthScheme c t0 x0 grid W X) {s t : ℝ} (hst : StepOf grid t0 s t)
    (h0s : t0 ≤ s) (hlt : s < t) (i : ι) :
    ∫ ω, X t ω i ^ 2 ∂P = (∫ ω, X s ω i ^ 2 ∂P) * (1 + c ^ 2 * (t - s)) := by
  obtain ⟨k, l⟩ := growth_moments hW hg h0 hD hX s hst.1 h0s
  have hsD := hD s hst.1
  have htD := hD t hst.2.1
  have hi : IndepFun (fun ω => (X s ω i, c * X s ω i)) (fun ω => W t ω i - W s ω i) P :=
    (k.indep hW hsD htD h0s hlt.le).comp (φ := fun x : ι → ℝ => (x i, c * x i)) (ψ := fun z : ι → ℝ => z i)
      (by fun_prop) (measurable_pi_apply i)
  have := (sq_step hi (l i) ((l i).const_mul c) (hW.memLp s hsD t htD h0s hlt.le i)
    (hW.mean s hsD t htD h0s hlt.le i)).2
  have e : ∀ ω, X t ω i = X s ω i + c * X s ω i * (W t ω i - W s ω i) := by
    intro ω
    rw [hX.step s t hst h0s hlt ω i]
    ring
  simp only [e, this, mul_pow, integral_const_mul, hW.var s hsD t htD h0s hlt.le i]
  ring

/-- The points of a grid up to the next point. -/
theorem upTo_step (hg : grid.Pairwise (· < ·)) {s t : ℝ} (hst : StepOf grid t0 s t)
    (h0s : t0 ≤ s) (hlt : s < t) : ∃ l, upTo grid t0 s = l ++ [s] ∧ upTo grid t0 t = l ++ [s, t] := by
  have hsub : ∀ {v w : ℝ}, v ∈ grid → t0 ≤ v → (∀ u ∈ grid, u ≤ v ↔ u < w) →
      upTo grid t0 v = grid.filter (fun u => t0 ≤ u ∧ u < w) := by
    intro v w hv h0v h
    unfold upTo
    apply List.filter_congr
    intro u hu
    simp only [decide_eq_decide]
    rw [h u hu]
  have key : ∀ {v : ℝ}, v ∈ grid → t0 ≤ v →
      upTo grid t0 v = grid.filter (fun u => t0 ≤ u ∧ u < v) ++ [v] := by
    intro v hv h0v
    obtain ⟨A, B, rfl⟩ := List.append_of_mem hv
    rw [List.pairwise_append, List.pairwise_cons] at hg
    obtain ⟨h1, ⟨h2, h3⟩, h4⟩ := hg
    have eB : B.filter (fun u => decide (t0 ≤ u ∧ u ≤ v)) = [] := by
      rw [List.filter_eq_nil_iff]
      intro u hu
      have := h2 u hu
      simp only [decide_eq_true_eq]
      rintro ⟨-, h⟩
      linarith
    have eB' : B.filter (fun u => decide (t0 ≤ u ∧ u < v)) = [] := by
      rw [List.filter_eq_nil_iff]
      intro u hu
      have := h2 u hu
      simp only [decide_eq_true_eq]
      rintro ⟨-, h⟩
      linarith
    have eA : A.filter (fun u => decide (t0 ≤ u ∧ u ≤ v)) = A.filter (fun u => decide (t0 ≤ u ∧ u < v)) := by
      apply List.filter_congr
      intro u hu
      have := h4 u hu v (by simp)
      simp only [decide_eq_decide]
      constructor
      · rintro ⟨h, -⟩; exact ⟨h, this⟩
      · rintro ⟨h, -⟩; exact ⟨h, this.le⟩
    unfold upTo
    rw [List.filter_append, List.filter_append, List.filter_cons_of_pos (by simpa using h0v),
      List.filter_cons_of_neg (by simp), eB, eB', eA, List.append_nil]
  have hs := key hst.1 h0s
  have ht := key hst.2.1 (h0s.trans hlt.le)
  have hno : ∀ u ∈ grid, u ≤ s ↔ u < t := by
    intro u hu
    refine ⟨fun h => h.trans_lt hlt, fun h => ?_⟩
    rcases hst.2.2 with ⟨-, -, hn⟩ | ⟨-, hn, -⟩
    · by_contra hc
      exact hn u hu ⟨not_le.1 hc, h⟩
    · linarith
  refine ⟨_, hs, ?_⟩
  rw [ht, ← hsub hst.1 h0s hno, hs]
  simp

/-- Mean squares of simulated values. -/
theorem growth_sq (hW : Drives P t0 D W) (hg : grid.Pairwise (· < ·)) (h0 : t0 ∈ grid)
    (hD : ∀ u ∈ grid, u ∈ D) (hX : GrowthScheme c t0 x0 grid W X) (i : ι) : ∀ t ∈ grid, t0 ≤ t →
    ∫ ω, X t ω i ^ 2 ∂P = x0 i ^ 2 * growth (c ^ 2) (upTo grid t0 t) := by
  refine grid_induction hg h0 ?_ ?_
  · have e : upTo grid t0 t0 = [t0] := by
      obtain ⟨A, B, rfl⟩ := List.append_of_mem h0
      rw [List.pairwise_append, List.pairwise_cons] at hg
      obtain ⟨h1, ⟨h2, h3⟩, h4⟩ := hg
      unfold upTo
      rw [List.filter_append, List.filter_cons_of_pos (by simp)]
      have eA : A.filter (fun u => decide (t0 ≤ u ∧ u ≤ t0)) = [] := by
        rw [List.filter_eq_nil_iff]
        intro u hu
        have := h4 u hu t0 (by simp)
        simp only [decide_eq_true_eq]
        rintro ⟨h, -⟩
        linarith
      have eB : B.filter (fun u => decide (t0 ≤ u ∧ u ≤ t0)) = [] := by
        rw [List.filter_eq_nil_iff]
        intro u hu
        have := h2 u hu
        simp only [decide_eq_true_eq]
        rintro ⟨-, h⟩
        linarith
      rw [eA, eB]
      rfl
    rw [e]
    simp [growth, hX.start]
  · intro s t hst h0s hlt ih
    obtain ⟨l, e1, e2⟩ := upTo_step hg hst h0s hlt
    rw [growth_sq_step hW hg h0 hD hX hst h0s hlt i, ih, e1, e2, growth_append]
    ring

/-- The products of the values of a scheme and of one on a finer grid, in the mean. -/
theorem growth_mul (hW : Drives P t0 D W) (hg : grid.Pairwise (· < ·)) (h0 : t0 ∈ grid)
    (hf : fine.Pairwise (· < ·)) (hsub : ∀ u ∈ grid, u ∈ fine) (hD : ∀ u ∈ fine, u ∈ D)
    (hX : GrowthScheme c t0 x0 grid W X) (hZ : GrowthScheme c t0 x0 fine W Z) (i : ι) :
    ∀ v ∈ fine, t0 ≤ v →
      ∫ ω, Z v ω i * X (lastAt grid v) ω i ∂P = ∫ ω, X (lastAt grid v) ω i ^ 2 ∂P ∧
      ∫ ω, Z v ω i * between (fun _ _ _ => 0) (fun _ x i => c * x i) grid W X v ω i ∂P =
        (∫ ω, X (lastAt grid v) ω i ^ 2 ∂P) * (1 + c ^ 2 * (v - lastAt grid v)) := by
  have hDg : ∀ u ∈ grid, u ∈ D := fun u hu => hD u (hsub u hu)
  refine grid_induction hf (hsub t0 h0) ?_ ?_
  · rw [between_self hg h0 le_rfl h0, lastAt_self hg h0 le_rfl h0]
    simp [hX.start, hZ.start, sq]
  · rintro v v' hst h0v hlt ⟨ih1, ih2⟩
    have hno : ∀ u ∈ grid, ¬ (v < u ∧ u < v') := by
      intro u hu
      rcases hst.2.2 with ⟨-, -, hn⟩ | ⟨-, hn, -⟩
      · exact hn u (hsub u hu)
      · exact absurd hlt hn.not_gt
    obtain ⟨a1, a2, a3, a4⟩ := lastAt_spec hg h0 h0v
    have hvD := hD v hst.1
    have hv'D := hD v' hst.2.1
    have hbs := between_step hX hg h0 h0v hlt hno
    obtain ⟨kX, lX⟩ := growth_moments hW hg h0 hDg hX _ a1 a2
    obtain ⟨kZ, lZ⟩ := growth_moments hW hf (hsub t0 h0) hD hZ v hst.1 h0v
    set s := lastAt grid v with hsdef
    have hsD := hDg s a1
    have kXv := kX.mono a3
    have ζ2 := hW.memLp v hvD v' hv'D h0v hlt.le i
    have ζm := hW.mean v hvD v' hv'D h0v hlt.le i
    have ζv := hW.var v hvD v' hv'D h0v hlt.le i
    have hZs : ∀ ω, Z v' ω i = Z v ω i + c * Z v ω i * (W v' ω i - W v ω i) := by
      intro ω
      rw [hZ.step v v' hst h0v hlt ω i]
      ring
    -- values between the points of the grid
    have kB : KnownAt D W v (between (fun _ _ _ => 0) (fun _ x i => c * x i) grid W X v) := by
      have k1 := (kXv.prodMk (knownAt_self (W := W) hvD le_rfl)).prodMk (knownAt_self (W := W) hsD a3)
      exact k1.comp (f := fun p : ((ι → ℝ) × (ι → ℝ)) × (ι → ℝ) => fun i =>
        p.1.1 i + 0 * (v - s) + c * p.1.1 i * (p.1.2 i - p.2 i)) (by fun_prop)
    have lB : MemLp (fun ω => between (fun _ _ _ => 0) (fun _ x i => c * x i) grid W X v ω i) 2 P := by
      have hi : IndepFun (fun ω => (X s ω i, c * X s ω i)) (fun ω => W v ω i - W s ω i) P :=
        (kX.indep hW hsD hvD a2 a3).comp (φ := fun x : ι → ℝ => (x i, c * x i))
          (ψ := fun z : ι → ℝ => z i) (by fun_prop) (measurable_pi_apply i)
      have := (sq_step hi (lX i) ((lX i).const_mul c) (hW.memLp s hsD v hvD a2 a3 i)
        (hW.mean s hsD v hvD a2 a3 i)).1
      have e : (fun ω => between (fun _ _ _ => 0) (fun _ x i => c * x i) grid W X v ω i) =
          fun ω => X s ω i + c * X s ω i * (W v ω i - W s ω i) := by
        funext ω
        simp only [between, ← hsdef]
        ring
      rw [e]
      exact this
    set B := between (fun _ _ _ => 0) (fun _ x i => c * x i) grid W X v with hB
    have i2 : IndepFun (fun ω => (Z v ω i, c * Z v ω i, B ω i, c * X s ω i))
        (fun ω => W v' ω i - W v ω i) P :=
      (((kZ.prodMk kB).prodMk kXv).indep hW hvD hv'D h0v hlt.le).comp
        (φ := fun p : ((ι → ℝ) × (ι → ℝ)) × (ι → ℝ) => (p.1.1 i, c * p.1.1 i, p.1.2 i, c * p.2 i))
        (ψ := fun z : ι → ℝ => z i) (by fun_prop) (measurable_pi_apply i)
    have m2 := mul_step i2 (lZ i) ((lZ i).const_mul c) lB ((lX i).const_mul c) ζ2 ζm
    have hnew : ∫ ω, Z v' ω i * between (fun _ _ _ => 0) (fun _ x i => c * x i) grid W X v' ω i ∂P =
        (∫ ω, X s ω i ^ 2 ∂P) * (1 + c ^ 2 * (v' - s)) := by
      have e : (fun ω => Z v' ω i * between (fun _ _ _ => 0) (fun _ x i => c * x i) grid W X v' ω i) =
          fun ω => (Z v ω i + c * Z v ω i * (W v' ω i - W v ω i)) *
            (B ω i + c * X s ω i * (W v' ω i - W v ω i)) := by
        funext ω
        rw [hZs, hbs]
        ring
      have e' : (fun ω => c * Z v ω i * (c * X s ω i)) = fun ω => c ^ 2 * (Z v ω i * X s ω i) := by
        funext ω; ring
      rw [e, m2, ih2, e', integral_const_mul, ih1, ζv]
      ring
    by_cases hm : v' ∈ grid
    · have h0v' := h0v.trans hlt.le
      have hst' : StepOf grid t0 s v' := by
        refine ⟨a1, hm, .inl ⟨a2, a3.trans_lt hlt, ?_⟩⟩
        rintro u hu ⟨u1, u2⟩
        by_cases huv : u ≤ v
        · exact absurd (a4 u hu huv) (not_le.2 u1)
        · exact hno u hu ⟨not_le.1 huv, u2⟩
      have hsq := growth_sq_step hW hg h0 hDg hX hst' a2 (a3.trans_lt hlt) i
      rw [between_self hg h0 h0v' hm, ← hsq] at hnew
      rw [between_self hg h0 h0v' hm, lastAt_self hg h0 h0v' hm]
      exact ⟨hnew, by rw [hnew]; ring⟩
    · have e : lastAt grid v' = s := lastAt_congr hg h0 h0v hlt.le (by
        rintro u hu ⟨u1, u2⟩
        rcases u2.eq_or_lt with rfl | u2
        · exact hm hu
        · exact hno u hu ⟨u1, u2⟩)
      rw [e]
      refine ⟨?_, hnew⟩
      have i1 : IndepFun (fun ω => (Z v ω i, c * Z v ω i, X s ω i, (0 : ℝ)))
          (fun ω => W v' ω i - W v ω i) P :=
        ((kZ.prodMk kXv).indep hW hvD hv'D h0v hlt.le).comp
          (φ := fun p : (ι → ℝ) × (ι → ℝ) => (p.1 i, c * p.1 i, p.2 i, (0 : ℝ)))
          (ψ := fun z : ι → ℝ => z i) (by fun_prop) (measurable_pi_apply i)
      have m1 := mul_step i1 (lZ i) ((lZ i).const_mul c) (lX i) (memLp_const 0) ζ2 ζm
      simp only [zero_mul, add_zero, mul_zero, integral_zero] at m1
      simp only [hZs]
      rw [m1, ih1]

/-- The error with respect to a scheme on a finer grid. -/
theorem growth_error (hW : Drives P t0 D W) (hg : grid.Pairwise (· < ·)) (h0 : t0 ∈ grid)
    (hf : fine.Pairwise (· < ·)) (hsub : ∀ u ∈ grid, u ∈ fine) (hD : ∀ u ∈ fine, u ∈ D)
    (hX : GrowthScheme c t0 x0 grid W X) (hZ : GrowthScheme c t0 x0 fine W Z) (i : ι) {t : ℝ}
    (ht : t ∈ grid) (h0t : t0 ≤ t) :
    ∫ ω, (X t ω i - Z t ω i) ^ 2 ∂P = x0 i ^ 2 *
      (growth (c ^ 2) (upTo fine t0 t) - growth (c ^ 2) (upTo grid t0 t)) := by
  have hDg : ∀ u ∈ grid, u ∈ D := fun u hu => hD u (hsub u hu)
  have hm := (growth_mul hW hg h0 hf hsub hD hX hZ i t (hsub t ht) h0t).1
  rw [lastAt_self hg h0 h0t ht] at hm
  have lX := (growth_moments hW hg h0 hDg hX t ht h0t).2 i
  have lZ := (growth_moments hW hf (hsub t0 h0) hD hZ t (hsub t ht) h0t).2 i
  have e : (fun ω => (X t ω i - Z t ω i) ^ 2) =
      fun ω => X t ω i ^ 2 + Z t ω i ^ 2 - 2 * (Z t ω i * X t ω i) := by
    funext ω; ring
  have a1 := integral_sub (lX.integrable_sq.add lZ.integrable_sq) ((lZ.integrable_mul lX).const_mul 2)
  have a2 := integral_add lX.integrable_sq lZ.integrable_sq
  simp only [Pi.add_apply, Pi.mul_apply] at a1 a2
  rw [e, a1, a2, integral_const_mul, hm, growth_sq hW hg h0 hDg hX i t ht h0t,
    growth_sq hW hf (hsub t0 h0) hD hZ i t (hsub t ht) h0t]
  ring

end

/-- Products of factors approach the exponential. -/
theorem growth_lower {c δ : ℝ} (hc : 0 ≤ c) (hδ : c * δ ≤ 1) : ∀ {l : List ℝ} (a : ℝ),
    (a :: l).Pairwise (· < ·) → Mesh (a :: l) δ →
    Real.exp (c * (1 - c * δ) * (l.getLastD a - a)) ≤ growth c (a :: l)
  | [], a, _, _ => by simp [growth]
  | b :: l, a, h, hm => by
    have hp := (List.pairwise_cons.1 h).2
    have hab : a < b := (List.pairwise_cons.1 h).1 b (by simp)
    have hmin : ∀ u ∈ b :: l, b ≤ u := by
      intro u hu
      rcases List.mem_cons.1 hu with rfl | hu
      · exact le_rfl
      · exact ((List.pairwise_cons.1 hp).1 u hu).le
    have ih := growth_lower hc hδ b hp (by
      intro u hu v hv huv hn
      refine hm u (by simp [hu]) v (by simp [hv]) huv fun w hw => ?_
      rcases List.mem_cons.1 hw with rfl | hw
      · rintro ⟨h1, -⟩
        exact absurd (hmin u hu) (not_le.2 (h1.trans hab))
      · exact hn w hw)
    have hd : b - a ≤ δ := hm a (by simp) b (by simp) hab (by
      rintro w hw ⟨h1, h2⟩
      rcases List.mem_cons.1 hw with rfl | hw
      · exact lt_irrefl _ h1
      · exact absurd (hmin w hw) (not_le.2 h2))
    have hl : (b :: l).getLastD a = l.getLastD b := by
      cases l <;> rfl
    rw [hl]
    set e := l.getLastD b
    have hx : 0 ≤ c * (b - a) := mul_nonneg hc (by linarith)
    have hxd : c * (b - a) ≤ c * δ := mul_le_mul_of_nonneg_left hd hc
    have he : c * (1 - c * δ) * (e - a) = (1 - c * δ) * (c * (b - a)) + c * (1 - c * δ) * (e - b) := by ring
    rw [he, Real.exp_add]
    simp only [growth]
    set x := c * (b - a)
    have k : Real.exp ((1 - c * δ) * x) ≤ 1 + x := by
      have h1 : (1 - c * δ) * x ≤ x / (1 + x) := by
        rw [le_div_iff₀ (by linarith)]
        nlinarith [mul_nonneg hx (sub_nonneg.2 hxd), mul_nonneg hx hx, mul_nonneg (mul_nonneg hx hx) (hx.trans hxd)]
      have h2 : 1 - x / (1 + x) ≤ Real.exp (-(x / (1 + x))) := Real.one_sub_le_exp_neg _
      have h3 : 1 - x / (1 + x) = (1 + x)⁻¹ := by field_simp; ring
      rw [h3, Real.exp_neg] at h2
      have h4 : Real.exp (x / (1 + x)) ≤ 1 + x := by
        rwa [inv_le_inv₀ (by linarith) (Real.exp_pos _)] at h2
      exact (Real.exp_le_exp.2 h1).trans h4
    exact mul_le_mul k ih (Real.exp_pos _).le (by linarith)

/-- A list of points from `a` to `b`. -/
theorem sorted_ends {l : List ℝ} {a b : ℝ} (hl : l.Pairwise (· < ·)) (ha : a ∈ l) (hb : b ∈ l)
    (h : ∀ u ∈ l, a ≤ u ∧ u ≤ b) : ∃ l', l = a :: l' ∧ l'.getLastD a = b := by
  cases l with
  | nil => cases ha
  | cons c l =>
    have hca : c = a := by
      rcases List.mem_cons.1 ha with e | e
      · exact e.symm
      · exact absurd ((List.pairwise_cons.1 hl).1 a e) (not_lt.2 (h c (by simp)).1)
    subst hca
    refine ⟨l, rfl, ?_⟩
    rcases List.eq_nil_or_concat l with e | ⟨l', y, e⟩
    · subst e
      simp only [List.mem_singleton] at hb
      exact hb.symm
    · subst e
      have hy : (l'.concat y).getLastD c = y := by simp
      rw [hy]
      rw [List.concat_eq_append] at hl h hb
      refine le_antisymm (h y (by simp)).2 ?_
      rcases List.mem_cons.1 hb with e | e
      · rw [e]; exact (h y (by simp)).1
      · rcases List.mem_append.1 e with e | e
        · have := (List.pairwise_cons.1 hl).2
          exact ((List.pairwise_append.1 this).2.2 b e y (by simp)).le
        · simp only [List.mem_singleton] at e
          exact e.le

theorem mem_upTo {grid : List ℝ} {t0 t u : ℝ} : u ∈ upTo grid t0 t ↔ u ∈ grid ∧ t0 ≤ u ∧ u ≤ t := by
  simp [upTo]

theorem upTo_all {l : List ℝ} {t0 t : ℝ} (h : ∀ u ∈ l, t0 ≤ u ∧ u ≤ t) : upTo l t0 t = l := by
  unfold upTo
  rw [List.filter_eq_self]
  intro u hu
  simpa using h u hu

section
variable {Ω ι : Type} [MeasurableSpace Ω] [Fintype ι] {P : Measure Ω} [IsProbabilityMeasure P]
  {t0 c T : ℝ} {D : Set ℝ} {W X Y : ℝ → Ω → ι → ℝ} {x0 : ι → ℝ} {grid : List ℝ}

theorem scheme_upTo {a b : ℝ → (ι → ℝ) → ι → ℝ} {t : ℝ} (hX : IsScheme a b t0 x0 grid W X) :
    IsScheme a b t0 x0 (upTo grid t0 t) W X := by
  refine ⟨hX.start, ?_⟩
  rintro s u ⟨hs, hu, h⟩ h0s hsu ω i
  rw [mem_upTo] at hs hu
  refine hX.step s u ⟨hs.1, hu.1, .inl ⟨h0s, hsu, fun v hv hvv => ?_⟩⟩ h0s hsu ω i
  have hm : v ∈ upTo grid t0 t := mem_upTo.2 ⟨hv, by linarith [hvv.1], by linarith [hvv.2, hu.2.2]⟩
  rcases h with ⟨-, -, h⟩ | ⟨-, h, -⟩
  · exact h v hm hvv
  · linarith

/-- Adding points to a grid from `t0` to `t`, steps do not get longer. -/
theorem exists_finer_from {t δ : ℝ} (hδ : 0 < δ) {g : List ℝ} (h0 : t0 ≤ t) (hI : ∀ u ∈ g, t0 ≤ u ∧ u ≤ t) :
    ∃ fine : List ℝ, fine.Pairwise (· < ·) ∧ t0 ∈ fine ∧ t ∈ fine ∧ (∀ u ∈ g, u ∈ fine) ∧
      (∀ u ∈ fine, t0 ≤ u ∧ u ≤ t) ∧ Mesh fine δ := by
  obtain ⟨f, f1, f2, f3, f4, f5⟩ := exists_grid (t0 := t0) (T := t - t0) hδ (t := t) ⟨h0, by linarith⟩
  have f4' : ∀ u ∈ f, t0 ≤ u ∧ u ≤ t := fun u hu => ⟨(f4 u hu).1, by linarith [(f4 u hu).2]⟩
  let M := (f ++ g).toFinset.sort (· ≤ ·)
  have hM : M.Pairwise (· < ·) := (Finset.sortedLT_sort _).pairwise
  have hmem : ∀ u, u ∈ M ↔ u ∈ f ∨ u ∈ g := fun u => by simp [M]
  have hMI : ∀ u ∈ M, t0 ≤ u ∧ u ≤ t := fun u hu => ((hmem u).1 hu).elim (f4' u) (hI u)
  refine ⟨M, hM, (hmem _).2 (.inl f2), (hmem _).2 (.inl f3), fun u hu => (hmem u).2 (.inr hu), hMI, ?_⟩
  intro u hu v hv huv hn
  refine le_of_forall_lt fun w hw => ?_
  by_cases hwpos : w ≤ 0
  · exact hwpos.trans_lt hδ
  push Not at hwpos
  obtain ⟨w', h1, h2⟩ := exists_between hw
  have hv' : t0 ≤ u + w' := by linarith [(hMI u hu).1]
  have hvt : u + w' ≤ t := by linarith [(hMI v hv).2]
  obtain ⟨a1, a2, a3, a4⟩ := lastAt_spec f1 f2 hv'
  have hle := lastAt_mesh f1 f2 hv' f3 hvt f5 hδ.le
  have hlast : lastAt f (u + w') ≤ u := by
    by_contra hc
    exact hn _ ((hmem _).2 (.inl a1)) ⟨not_le.1 hc, by linarith⟩
  linarith

/-- **The error of simulations of `dx = c*x*dw`.** -/
theorem growth_solution (hT : 0 ≤ T) (hW : Drives P t0 (Set.Icc t0 (t0 + T)) W)
    (hY : IsSolution P (fun _ _ _ => 0) (fun _ x i => c * x i) t0 T x0 W Y)
    (hg : grid.Pairwise (· < ·)) (h0 : t0 ∈ grid) (hX : GrowthScheme c t0 x0 grid W X) {t : ℝ}
    (ht : t ∈ grid) (h0t : t0 ≤ t) (htT : t ≤ t0 + T) (i : ι) :
    ∫ ω, (X t ω i - Y t ω i) ^ 2 ∂P = x0 i ^ 2 *
      (Real.exp (c ^ 2 * (t - t0)) - growth (c ^ 2) (upTo grid t0 t)) := by
  have hLip : LipschitzCoef (fun _ _ _ => 0) (fun _ x (i : ι) => c * x i) t0 T (c ^ 2) := by
    intro t _ u _ x y
    have e : ∑ i : ι, (((0 : ℝ) - 0) ^ 2 + (c * x i - c * y i) ^ 2) = c ^ 2 * ∑ i, (x i - y i) ^ 2 := by
      rw [Finset.mul_sum]
      exact Finset.sum_congr rfl fun i _ => by ring
    rw [e]
    have : 0 ≤ (1 + ∑ i, x i ^ 2) * |t - u| :=
      mul_nonneg (add_nonneg zero_le_one (Finset.sum_nonneg fun i _ => sq_nonneg _)) (abs_nonneg _)
    exact mul_le_mul_of_nonneg_left (by linarith) (sq_nonneg c)
  obtain ⟨K, hK, hsol⟩ := exists_solution hT hLip x0
  obtain ⟨Y', hY', hconv⟩ := hsol hW
  have htI : t ∈ Set.Icc t0 (t0 + T) := ⟨h0t, htT⟩
  have huniq := solution_unique hT hLip hW hY hY' t htI
  -- the grid from `t0` to `t`
  set g := upTo grid t0 t with hgdef
  have hg' : g.Pairwise (· < ·) := hg.filter _
  have h0g : t0 ∈ g := mem_upTo.2 ⟨h0, le_rfl, h0t⟩
  have htg : t ∈ g := mem_upTo.2 ⟨ht, h0t, le_rfl⟩
  have hgI : ∀ u ∈ g, t0 ≤ u ∧ u ≤ t := fun u hu => (mem_upTo.1 hu).2
  have hXg : GrowthScheme c t0 x0 g W X := scheme_upTo hX
  have hgg : upTo g t0 t = g := upTo_all hgI
  have hδ : ∀ n : ℕ, (0 : ℝ) < 1 / (n + 1) := fun n => Nat.one_div_pos_of_nat
  choose fine f1 f2 f3 f4 f5 f6 using fun n : ℕ => exists_finer_from (hδ n) h0t hgI
  choose Z hZ using fun n => exists_sums (f1 n) (f2 n) (fun _ _ _ => 0) (fun _ x (i : ι) => c * x i) x0 W
  have fD : ∀ n, ∀ u ∈ fine n, u ∈ Set.Icc t0 (t0 + T) := fun n u hu =>
    ⟨(f5 n u hu).1, (f5 n u hu).2.trans htT⟩
  have hXl : MemLp (fun ω => X t ω i) 2 P :=
    (growth_moments hW hg' h0g (fun u hu => ⟨(hgI u hu).1, (hgI u hu).2.trans htT⟩) hXg t htg h0t).2 i
  have hZl := fun n => (hconv (hδ n).le (f1 n) (f2 n) (fD n) (f6 n) (hZ n) t (f3 n)).1 i
  have hZY := fun n => (hconv (hδ n).le (f1 n) (f2 n) (fD n) (f6 n) (hZ n) t (f3 n)).2
  have hYl := hY.memLp t htI i
  have hYl' := hY'.memLp t htI i
  have hone : ∀ n, ∫ ω, (Z n t ω i - Y' t ω i) ^ 2 ∂P ≤ K * (1 / (n + 1)) := fun n =>
    (Finset.single_le_sum (f := fun i => ∫ ω, (Z n t ω i - Y' t ω i) ^ 2 ∂P)
      (fun j _ => integral_nonneg fun ω => sq_nonneg _) (Finset.mem_univ i)).trans (hZY n)
  have hYY : (fun ω => Y t ω i) =ᵐ[P] fun ω => Y' t ω i := by
    unfold meanSq at huniq
    rw [Finset.sum_eq_zero_iff_of_nonneg fun i _ => integral_nonneg fun ω => sq_nonneg _] at huniq
    filter_upwards [(integral_eq_zero_iff_of_nonneg (fun ω => sq_nonneg _)
      (hYl.sub hYl').integrable_sq).1 (huniq i (Finset.mem_univ i))] with ω h
    exact sub_eq_zero.1 (pow_eq_zero_iff two_ne_zero |>.1 h)
  have eYY : ∫ ω, (X t ω i - Y t ω i) ^ 2 ∂P = ∫ ω, (X t ω i - Y' t ω i) ^ 2 ∂P :=
    integral_congr_ae (hYY.mono fun ω h => by simp only at h ⊢; rw [h])
  rw [eYY]
  -- convergence of errors
  have hu := hXl.sub hYl'
  have hw := fun n => hXl.sub (hZl n)
  have hlim : Tendsto (fun n => (hw n).toLp) atTop (𝓝 hu.toLp) := by
    rw [tendsto_iff_norm_sub_tendsto_zero]
    have e : ∀ n, ‖(hw n).toLp - hu.toLp‖ ^ 2 = ∫ ω, (Z n t ω i - Y' t ω i) ^ 2 ∂P := by
      intro n
      rw [← MemLp.toLp_sub, norm_sq_toLp]
      congr 1
      funext ω
      simp only [Pi.sub_apply]
      ring
    have h2 : Tendsto (fun n => ‖(hw n).toLp - hu.toLp‖ ^ 2) atTop (𝓝 0) := by
      refine squeeze_zero (fun n => sq_nonneg _) (fun n => (e n).le.trans (hone n)) ?_
      simpa using tendsto_one_div_add_atTop_nhds_zero_nat.const_mul K
    have := (Real.continuous_sqrt.tendsto 0).comp h2
    simpa [Function.comp_def, Real.sqrt_sq] using this
  have hl2 : Tendsto (fun n => ∫ ω, (X t ω i - Z n t ω i) ^ 2 ∂P) atTop
      (𝓝 (∫ ω, (X t ω i - Y' t ω i) ^ 2 ∂P)) := by
    have := (hlim.norm).pow 2
    simpa only [norm_sq_toLp, Pi.sub_apply] using this
  have herr : ∀ n, ∫ ω, (X t ω i - Z n t ω i) ^ 2 ∂P =
      x0 i ^ 2 * (growth (c ^ 2) (fine n) - growth (c ^ 2) g) := by
    intro n
    have := growth_error hW hg' h0g (f1 n) (f4 n) (fD n) hXg (hZ n) i htg h0t
    rwa [hgg, upTo_all (f5 n)] at this
  refine tendsto_nhds_unique hl2 ?_
  simp only [herr]
  refine ((Tendsto.sub ?_ tendsto_const_nhds).const_mul _)
  -- products of factors
  have hup : ∀ n, growth (c ^ 2) (fine n) ≤ Real.exp (c ^ 2 * (t - t0)) := by
    intro n
    obtain ⟨l, e1, e2⟩ := sorted_ends (f1 n) (f2 n) (f3 n) (f5 n)
    have := growth_gap (sq_nonneg c) 0 t0 (by rw [← e1]; exact f1 n)
    rw [← e1, e2, zero_mul, zero_pow two_ne_zero, mul_zero, zero_div, sub_zero, add_zero] at this
    exact this
  have hlo : ∀ᶠ n : ℕ in atTop, Real.exp (c ^ 2 * (1 - c ^ 2 * (1 / (n + 1))) * (t - t0)) ≤
      growth (c ^ 2) (fine n) := by
    have h1 : Tendsto (fun n : ℕ => c ^ 2 * (1 / ((n : ℝ) + 1))) atTop (𝓝 (c ^ 2 * 0)) :=
      tendsto_one_div_add_atTop_nhds_zero_nat.const_mul _
    rw [mul_zero] at h1
    filter_upwards [h1.eventually (gt_mem_nhds zero_lt_one)] with n hn
    obtain ⟨l, e1, e2⟩ := sorted_ends (f1 n) (f2 n) (f3 n) (f5 n)
    have := growth_lower (sq_nonneg c) hn.le t0 (by rw [← e1]; exact f1 n) (by rw [← e1]; exact f6 n)
    rwa [← e1, e2] at this
  refine tendsto_of_tendsto_of_tendsto_of_le_of_le' ?_ tendsto_const_nhds hlo (Eventually.of_forall hup)
  have h1 : Tendsto (fun n : ℕ => c ^ 2 * (1 - c ^ 2 * (1 / ((n : ℝ) + 1))) * (t - t0)) atTop
      (𝓝 (c ^ 2 * (1 - c ^ 2 * 0) * (t - t0))) :=
    (((tendsto_one_div_add_atTop_nhds_zero_nat.const_mul _).const_sub 1).const_mul _).mul_const _
  rw [mul_zero, sub_zero, mul_one] at h1
  exact (Real.continuous_exp.tendsto _).comp h1

end

end Sdepy
