import Verif.Spec.Presets
import Verif.Props.SDEs

/-!
# One step of the preset processes
-/

set_option linter.unusedSectionVars false
set_option linter.unusedSimpArgs false

namespace Sdepy

open Spec BigOperators

variable {K ι σ O : Type} [Field K] [LinearOrder K] [IsStrictOrderedRing K]

theorem two_sources_ok {S : SDE K (ι → K) O ℕ σ} {dw : Src K ι σ}
    (hsrc : S.sources = [(idT, dtSource), (idW, dw)])
    {a b : K → (ι → K) → ι → K} (hsde : ∀ t x, S.sde t x = .ok (some [(idT, a t x), (idW, b t x)])) :
    SDEOk S where
  sources := by rw [hsrc]; simp [DictOk, idT, idW]
  sde t x A h := by
    rw [hsde] at h
    simp only [Except.ok.injEq, Option.some.injEq] at h
    rw [← h]; simp [DictOk, idT, idW]

/-- One step of an equation `dx = a*dt + b*dw`. -/
theorem step_two {S : SDE K (ι → K) O ℕ σ} {dw : Src K ι σ}
    (hsrc : S.sources = [(idT, dtSource), (idW, dw)])
    {a b : K → (ι → K) → ι → K} (hsde : ∀ t x, S.sde t x = .ok (some [(idT, a t x), (idW, b t x)]))
    (t : K) (x : ι → K) (t' : K) (s : σ) :
    (equation S).step t x t' s =
      (dw t (t' - t) s).map fun r => (fun i => x i + a t x i * (t' - t) + b t x i * r.1 i, r.2) := by
  rw [← eulerNext_eq S (two_sources_ok hsrc hsde)]
  simp only [SDE.eulerNext, SDE.A, hsde, SDE.checkValues, hsrc, SDE.dZ]
  simp only [List.map_cons, List.map_nil, List.mem_cons, List.not_mem_nil, or_false, imp_self,
    implies_true, if_true, List.insertionSort, List.orderedInsert, idT, idW, evalSources, dtSource]
  cases h : dw t (t' - t) s with
  | error e =>
    simp [evalSources, dtSource, h, Except.map]
  | ok r =>
    simp [evalSources, dtSource, h, Except.map, sumAdZ_nil, sumAdZ_cons, List.lookup]
    funext i
    simp only [Pi.add_apply, Pi.mul_apply]
    ring

/-- One step of an equation `dx = a*dt + b*dw + c*dj`: jumps are realised first. -/
theorem step_three {S : SDE K (ι → K) O ℕ σ} {dw dj : Src K ι σ}
    (hsrc : S.sources = [(idT, dtSource), (idW, dw), (idJ, dj)])
    {a b c : K → (ι → K) → ι → K}
    (hsde : ∀ t x, S.sde t x = .ok (some [(idT, a t x), (idW, b t x), (idJ, c t x)]))
    (t : K) (x : ι → K) (t' : K) (s : σ) :
    (equation S).step t x t' s =
      (do let (j, s) ← dj t (t' - t) s
          let (w, s) ← dw t (t' - t) s
          pure (fun i => x i + a t x i * (t' - t) + b t x i * w i + c t x i * j i, s)) := by
  have hok : SDEOk S := {
    sources := by rw [hsrc]; simp [DictOk, idT, idW, idJ]
    sde := fun t x A h => by
      rw [hsde] at h
      simp only [Except.ok.injEq, Option.some.injEq] at h
      rw [← h]; simp [DictOk, idT, idW, idJ] }
  rw [← eulerNext_eq S hok]
  simp only [SDE.eulerNext, SDE.A, hsde, SDE.checkValues, hsrc, SDE.dZ]
  simp only [List.map_cons, List.map_nil, List.mem_cons, List.not_mem_nil, or_false, imp_self,
    implies_true, if_true, List.insertionSort, List.orderedInsert, idT, idW, idJ, evalSources,
    dtSource, bind, Except.bind, pure, Except.pure]
  cases hj : dj t (t' - t) s with
  | error e =>
    simp [evalSources, dtSource, hj, Except.map]
  | ok r =>
    simp [evalSources, dtSource, hj, Except.map]
    cases hw : dw t (t' - t) r.2 with
    | error e => simp [dtSource, hw]
    | ok r' =>
      simp [evalSources, dtSource, hw, sumAdZ_nil, sumAdZ_cons, List.lookup]
      funext i
      simp only [Pi.add_apply, Pi.mul_apply]
      ring

/-- A solution that is a function of cumulated noise. -/
theorem path_of_cumulate {X Y : Type} [CommRing X] [AddCommGroup Y] (E : Equation K X ℕ σ)
    (z : K → K → σ → Py (Y × σ)) (F : K → Y → X)
    (hstep : ∀ t w t' s, E.step t (F t w) t' s =
      (z t (t' - t) s).map fun r => (F t' (w + r.1), r.2)) :
    ∀ (ts : List K) (t : K) (w : Y) (s : σ), E.path t (F t w) ts s =
      (cumulate z t w ts s).map fun r => (r.1.map fun p => (p.1, F p.1 p.2), r.2) := by
  intro ts
  induction ts with
  | nil => intro t w s; rfl
  | cons t' ts ih =>
    intro t w s
    simp only [Equation.path, cumulate, bind, Except.bind, pure, Except.pure, hstep]
    cases z t (t' - t) s with
    | error e => rfl
    | ok r =>
      simp only [Except.map, ih]
      cases cumulate z t' (w + r.1) ts r.2 <;> rfl

theorem solution_of_cumulated {X Y : Type} [CommRing X] [AddCommGroup Y] (E : Equation K X ℕ σ)
    (z : K → K → σ → Py (Y × σ)) (F : K → Y → X)
    (hstep : ∀ t w t' s, E.step t (F t w) t' s =
      (z t (t' - t) s).map fun r => (F t' (w + r.1), r.2))
    (t0 : K) (grid : List K) (s : σ) :
    E.solution t0 (F t0 0) grid s =
      (cumulated z t0 grid s).map fun r => (r.1.map fun p => (p.1, F p.1 p.2), r.2) := by
  simp only [Equation.solution, cumulated, bind, Except.bind, pure, Except.pure,
    path_of_cumulate E z F hstep]
  cases cumulate z t0 0 (grid.filter (· < t0)).reverse s with
  | error e => rfl
  | ok r =>
    simp only [Except.map]
    cases cumulate z t0 0 (grid.filter (t0 < ·)) r.2 with
    | error e => rfl
    | ok r' => simp

theorem cumulate_memory {P : σ → Prop} {D : K → Prop} {z : Src K ι σ} {W : K → ι → K}
    (hm : Memory P D z W) (t0 : K) : ∀ (ts : List K) (t : K) (s : σ), P s → D t → (∀ u ∈ ts, D u) →
    ∃ s', cumulate z t (W t - W t0) ts s = .ok (ts.map fun u => (u, W u - W t0), s') ∧ P s' := by
  intro ts
  induction ts with
  | nil => intro t s hs _ _; exact ⟨s, rfl, hs⟩
  | cons t' ts ih =>
    intro t s hs ht hts
    have e : t + (t' - t) = t' := by ring
    obtain ⟨s1, h1, hs1⟩ := hm t (t' - t) s hs ht (by rw [e]; exact hts t' (by simp))
    obtain ⟨s2, h2, hs2⟩ := ih t' s1 hs1 (hts t' (by simp)) (fun u hu => hts u (by simp [hu]))
    refine ⟨s2, ?_, hs2⟩
    have hw : W t - W t0 + (W t' - W t) = W t' - W t0 := by abel
    simp only [cumulate, bind, Except.bind, pure, Except.pure, h1, e, hw, h2, List.map_cons]

theorem filter_split3 {l : List K} (h : l.Pairwise (· < ·)) {t : K} (ht : t ∈ l) :
    l.filter (· < t) ++ t :: l.filter (t < ·) = l := by
  have h1 := filter_le_eq h ht
  have eL := filter_le_of_sorted h (getElem?_idxOf ht)
  have eR := filter_ge_of_sorted h (getElem?_idxOf ht)
  rw [← h1.2, ← eR]
  have : l.take (l.idxOf t) = l.filter (· < t) := by
    have h2 := h1.1
    rw [← eL, List.take_succ, getElem?_idxOf ht] at h2
    simpa using h2
  rw [← this, List.take_append_drop]

theorem cumulated_memory {P : σ → Prop} {D : K → Prop} {z : Src K ι σ} {W : K → ι → K}
    (hm : Memory P D z W) {t0 : K} {grid : List K} (hg : grid.Pairwise (· < ·)) (h0 : t0 ∈ grid)
    (hD : ∀ u ∈ grid, D u) (s : σ) (hs : P s) :
    ∃ s', cumulated z t0 grid s = .ok (grid.map fun u => (u, W u - W t0), s') ∧ P s' := by
  have z0 : (0 : ι → K) = W t0 - W t0 := by simp
  obtain ⟨s1, h1, hs1⟩ := cumulate_memory hm t0 (grid.filter (· < t0)).reverse t0 s hs (hD _ h0)
    (fun u hu => hD u (by simp at hu; exact hu.1))
  obtain ⟨s2, h2, hs2⟩ := cumulate_memory hm t0 (grid.filter (t0 < ·)) t0 s1 hs1 (hD _ h0)
    (fun u hu => hD u (by simp at hu; exact hu.1))
  refine ⟨s2, ?_, hs2⟩
  simp only [cumulated, bind, Except.bind, pure, Except.pure]
  rw [z0, h1]
  simp only
  rw [h2]
  simp only [Except.ok.injEq, Prod.mk.injEq, and_true]
  conv_rhs => rw [← filter_split3 hg h0]
  simp

theorem lookup_map_self {V : Type} (f : K → V) {t : K} : ∀ {l : List K}, t ∈ l →
    (l.map fun u => (u, f u)).lookup t = some (f t) := by
  intro l
  induction l with
  | nil => simp
  | cons a l ih =>
    intro h
    simp only [List.map_cons, List.lookup_cons]
    by_cases hta : t = a
    · subst hta; simp
    · have : (t == a) = false := by simpa using hta
      rw [this]
      exact ih (by simpa [hta] using h)

/-- A map of values commutes with looking up. -/
theorem lookup_map_fst {V W : Type} (f : K → V → W) (t : K) : ∀ ps : List (K × V),
    (ps.map (fun p => (p.1, f p.1 p.2))).lookup t = (ps.lookup t).map (f t) := by
  intro ps
  induction ps with
  | nil => rfl
  | cons p ps ih =>
    obtain ⟨k, v⟩ := p
    simp only [List.map_cons, List.lookup_cons, ih]
    by_cases hta : t = k
    · subst hta; simp
    · have : (t == k) = false := by simpa using hta
      rw [this]

end Sdepy
