import Verif.Spec.Back
import Verif.Lemmas.StrongN
import Verif.Lemmas.Ode

/-!
# Reflection of time
-/

set_option linter.unusedSectionVars false

open MeasureTheory ProbabilityTheory

namespace Sdepy

open Spec

variable {Ω ι J : Type} [MeasurableSpace Ω] [Fintype ι] [Fintype J] {P : Measure Ω}
  {a : ℝ → (ι → ℝ) → ι → ℝ} {b : J → ℝ → (ι → ℝ) → ι → ℝ} {t0 T L : ℝ} {x0 : ι → ℝ} {m v : J → ℝ}
  {Z : ℝ → Ω → J × ι → ℝ} {X Y R : ℝ → Ω → ι → ℝ}

/-- Points of a grid, reflected about `t0`. -/
def reflectGrid (t0 : ℝ) (grid : List ℝ) : List ℝ := (grid.map fun v => 2 * t0 - v).reverse

theorem mem_reflectGrid {grid : List ℝ} {u : ℝ} : u ∈ reflectGrid t0 grid ↔ 2 * t0 - u ∈ grid := reflect_mem

theorem reflectGrid_pairwise {grid : List ℝ} (hg : grid.Pairwise (· < ·)) :
    (reflectGrid t0 grid).Pairwise (· < ·) := by
  rw [reflectGrid, List.pairwise_reverse, List.pairwise_map]
  exact hg.imp fun h => by linarith

theorem reflectGrid_start {grid : List ℝ} (h0 : t0 ∈ grid) : t0 ∈ reflectGrid t0 grid :=
  mem_reflectGrid.2 (by rwa [show 2 * t0 - t0 = t0 by ring])

theorem reflectGrid_reflectGrid (grid : List ℝ) : reflectGrid t0 (reflectGrid t0 grid) = grid := by
  unfold reflectGrid
  rw [List.map_reverse, List.reverse_reverse, List.map_map]
  conv_rhs => rw [← List.map_id grid]
  apply List.map_congr_left
  intro u _
  simp

theorem reflectGrid_mesh {grid : List ℝ} {δ : ℝ} (h : Mesh grid δ) : Mesh (reflectGrid t0 grid) δ := by
  intro p hp q hq hpq hn
  have := h _ (mem_reflectGrid.1 hq) _ (mem_reflectGrid.1 hp) (by linarith) (reflect_between hn)
  linarith

theorem stepOf_reflect {grid : List ℝ} {s t : ℝ} (h : StepOf (reflectGrid t0 grid) t0 s t) :
    StepOf grid t0 (2 * t0 - s) (2 * t0 - t) :=
  ⟨mem_reflectGrid.1 h.1, mem_reflectGrid.1 h.2.1, by
    rcases h.2.2 with ⟨k1, k2, k3⟩ | ⟨k1, k2, k3⟩
    · exact .inr ⟨by linarith, by linarith, reflect_between k3⟩
    · exact .inl ⟨by linarith, by linarith, reflect_between k3⟩⟩

/-- Coefficients of the equation with time reflected. -/
def reflectDrift (t0 : ℝ) (a : ℝ → (ι → ℝ) → ι → ℝ) (t : ℝ) (x : ι → ℝ) (i : ι) : ℝ := -a (2 * t0 - t) x i

def reflectVol (t0 : ℝ) (b : J → ℝ → (ι → ℝ) → ι → ℝ) (j : J) (t : ℝ) (x : ι → ℝ) (i : ι) : ℝ :=
  b j (2 * t0 - t) x i

theorem lipschitz_reflect (h : LipschitzCoefs a b (t0 - T) T L) :
    LipschitzCoefs (reflectDrift t0 a) (reflectVol t0 b) t0 T L := by
  intro t ht u hu x y
  have := h (2 * t0 - t) ⟨by linarith [ht.2], by linarith [ht.1]⟩ (2 * t0 - u)
    ⟨by linarith [hu.2], by linarith [hu.1]⟩ x y
  rw [show 2 * t0 - t - (2 * t0 - u) = -(t - u) by ring, abs_neg] at this
  refine le_trans (le_of_eq ?_) this
  refine Finset.sum_congr rfl fun i _ => ?_
  unfold reflectDrift reflectVol
  ring

theorem noises_reflect {D : Set ℝ} (h : NoisesBack P t0 D m v Z) :
    Noises P t0 {u | 2 * t0 - u ∈ D} m v fun u => Z (2 * t0 - u) where
  meas u hu := h.meas _ hu
  memLp s hs t ht h0 hst c := h.memLp _ hs _ ht (by linarith) (by linarith) c
  mean s hs t ht h0 hst j i := by
    rw [h.mean _ hs _ ht (by linarith) (by linarith) j i]
    ring
  var s hs t ht h0 hst j i := by
    have := h.var _ hs _ ht (by linarith) (by linarith) j i
    rw [show 2 * t0 - s - (2 * t0 - t) = t - s by ring] at this
    exact this
  indep s hs t ht h0 hst := by
    have := h.indep _ hs _ ht (by linarith) (by linarith)
    let f : ({u : ℝ // u ∈ D ∧ 2 * t0 - s ≤ u} × (J × ι) → ℝ) →
        {u : ℝ // u ∈ {u | 2 * t0 - u ∈ D} ∧ u ≤ s} × (J × ι) → ℝ :=
      fun z p => z (⟨2 * t0 - p.1.1, p.1.2.1, by linarith [p.1.2.2]⟩, p.2)
    have hf : Measurable f := measurable_pi_lambda _ fun p => measurable_pi_apply _
    exact this.comp hf measurable_id

theorem sums_reflect {grid : List ℝ} (h : SumsBack a b t0 x0 grid Z Y R) :
    AreSums (reflectDrift t0 a) (reflectVol t0 b) t0 x0 (reflectGrid t0 grid) (fun u => Z (2 * t0 - u))
      (fun u => Y (2 * t0 - u)) (fun u => R (2 * t0 - u)) where
  start ω := by
    simp only [show 2 * t0 - t0 = t0 by ring]
    exact h.start ω
  step s t hst h0 hlt ω i := by
    have := h.step _ _ (stepOf_reflect hst) (by linarith) (by linarith) ω i
    rw [this]
    unfold reflectDrift reflectVol
    ring

theorem sums_reflect_inv {grid : List ℝ}
    (h : AreSums (reflectDrift t0 a) (reflectVol t0 b) t0 x0 grid (fun u => Z (2 * t0 - u)) Y R) :
    SumsBack a b t0 x0 (reflectGrid t0 grid) Z (fun u => Y (2 * t0 - u)) (fun u => R (2 * t0 - u)) where
  start ω := by
    simp only [show 2 * t0 - t0 = t0 by ring]
    exact h.start ω
  step s t hst h0 hlt ω i := by
    have := h.step _ _ (stepOf_reflect hst) (by linarith) (by linarith) ω i
    rw [this]
    unfold reflectDrift reflectVol
    simp only [sub_sub_cancel]
    ring

/-- Solutions, backwards, are solutions of the equation with time reflected. -/
theorem solves_reflect (h : SolvesBack P a b t0 T x0 Z Y) :
    Solves P (reflectDrift t0 a) (reflectVol t0 b) t0 T x0 (fun u => Z (2 * t0 - u)) (fun u => Y (2 * t0 - u)) where
  known t ht := by
    obtain ⟨g, hg, h⟩ := h.known (2 * t0 - t) ⟨by linarith [ht.2], by linarith [ht.1]⟩
    let f : ({u : ℝ // u ∈ Set.Icc t0 (t0 + T) ∧ u ≤ t} × (J × ι) → ℝ) →
        {u : ℝ // u ∈ Set.Icc (t0 - T) t0 ∧ 2 * t0 - t ≤ u} × (J × ι) → ℝ :=
      fun z p => z (⟨2 * t0 - p.1.1, ⟨by linarith [p.1.2.1.2], by linarith [p.1.2.1.1]⟩, by linarith [p.1.2.2]⟩, p.2)
    have hf : Measurable f := measurable_pi_lambda _ fun p => measurable_pi_apply _
    refine ⟨g ∘ f, hg.comp hf, fun ω => ?_⟩
    simp only [h ω, Function.comp_apply, f, sub_sub_cancel]
  memLp t ht := h.memLp _ ⟨by linarith [ht.2], by linarith [ht.1]⟩
  integral ε hε := by
    obtain ⟨δ, hδ, h⟩ := h.integral ε hε
    refine ⟨δ, hδ, fun grid R hg h0 hI hm hR t ht => ?_⟩
    have := h (reflectGrid t0 grid) (fun u => R (2 * t0 - u)) (reflectGrid_pairwise hg) (reflectGrid_start h0)
      (fun u hu => by
        have := hI _ (mem_reflectGrid.1 hu)
        exact ⟨by linarith [this.2], by linarith [this.1]⟩)
      (reflectGrid_mesh hm) (by simpa only [sub_sub_cancel] using sums_reflect_inv hR) (2 * t0 - t)
      (mem_reflectGrid.2 (by rwa [sub_sub_cancel]))
    simpa only [sub_sub_cancel] using this

theorem solves_reflect_inv
    (h : Solves P (reflectDrift t0 a) (reflectVol t0 b) t0 T x0 (fun u => Z (2 * t0 - u)) Y) :
    SolvesBack P a b t0 T x0 Z (fun u => Y (2 * t0 - u)) where
  known t ht := by
    obtain ⟨g, hg, h⟩ := h.known (2 * t0 - t) ⟨by linarith [ht.2], by linarith [ht.1]⟩
    let f : ({u : ℝ // u ∈ Set.Icc (t0 - T) t0 ∧ t ≤ u} × (J × ι) → ℝ) →
        {u : ℝ // u ∈ Set.Icc t0 (t0 + T) ∧ u ≤ 2 * t0 - t} × (J × ι) → ℝ :=
      fun z p => z (⟨2 * t0 - p.1.1, ⟨by linarith [p.1.2.1.2], by linarith [p.1.2.1.1]⟩, by linarith [p.1.2.2]⟩, p.2)
    have hf : Measurable f := measurable_pi_lambda _ fun p => measurable_pi_apply _
    refine ⟨g ∘ f, hg.comp hf, fun ω => ?_⟩
    simp only [h ω, Function.comp_apply, f]
  memLp t ht := h.memLp _ ⟨by linarith [ht.2], by linarith [ht.1]⟩
  integral ε hε := by
    obtain ⟨δ, hδ, h⟩ := h.integral ε hε
    refine ⟨δ, hδ, fun grid R hg h0 hI hm hR t ht => ?_⟩
    have := h (reflectGrid t0 grid) (fun u => R (2 * t0 - u)) (reflectGrid_pairwise hg) (reflectGrid_start h0)
      (fun u hu => by
        have := hI _ (mem_reflectGrid.1 hu)
        exact ⟨by linarith [this.2], by linarith [this.1]⟩)
      (reflectGrid_mesh hm) (by simpa only [sub_sub_cancel] using sums_reflect hR) (2 * t0 - t)
      (mem_reflectGrid.2 (by rwa [sub_sub_cancel]))
    simpa only [sub_sub_cancel] using this

/-- The part of a grid between `t0 - T` and `t0`. -/
theorem restrict_grid_back {grid : List ℝ} {δ : ℝ} (hT : 0 ≤ T) (hg : grid.Pairwise (· < ·)) (h0 : t0 ∈ grid)
    (hm : Mesh grid δ) (hX : SumsBack a b t0 x0 grid Z X X) :
    ∃ g : List ℝ, g.Pairwise (· < ·) ∧ t0 ∈ g ∧ (∀ u, u ∈ g ↔ u ∈ grid ∧ u ∈ Set.Icc (t0 - T) t0) ∧ Mesh g δ ∧
      SumsBack a b t0 x0 g Z X X := by
  classical
  have hmem : ∀ u, u ∈ grid.filter (fun u => u ∈ Set.Icc (t0 - T) t0) ↔ u ∈ grid ∧ u ∈ Set.Icc (t0 - T) t0 := by
    intro u
    rw [List.mem_filter, decide_eq_true_iff]
  refine ⟨grid.filter (fun u => u ∈ Set.Icc (t0 - T) t0), hg.filter _, (hmem _).2 ⟨h0, by linarith, le_rfl⟩, hmem, ?_,
    hX.start, ?_⟩
  · intro u hu v hv huv hn
    have hu' := (hmem u).1 hu
    have hv' := (hmem v).1 hv
    exact hm u hu'.1 v hv'.1 huv fun c hc hcc => hn c ((hmem c).2 ⟨hc, by linarith [hu'.2.1, hcc.1],
      by linarith [hv'.2.2, hcc.2]⟩) hcc
  · rintro s t ⟨hs, ht, h⟩ h0s hst ω i
    have hs' := (hmem s).1 hs
    have ht' := (hmem t).1 ht
    refine hX.step s t ⟨hs'.1, ht'.1, .inr ⟨h0s, hst, fun c hc hcc => ?_⟩⟩ h0s hst ω i
    have hcm := (hmem c).2 ⟨hc, by linarith [ht'.2.1, hcc.1], by linarith [hs'.2.2, hcc.2]⟩
    rcases h with ⟨-, h, -⟩ | ⟨-, -, h⟩
    · linarith
    · exact h c hcm hcc

end Sdepy
