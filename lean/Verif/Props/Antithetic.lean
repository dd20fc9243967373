import Verif.Spec.Antithetic
import Verif.Lemmas.SDE
import Verif.Props.SDE
import Verif.Props.CPoisson
import Mathlib.Tactic.Ring
import Mathlib.Tactic.LinearCombination

/-!
# Property C111: averages of simulations with antithetic paths
-/

open BigOperators

namespace Sdepy

open Spec

section
variable {K κ σ O Id : Type} [LinearOrder Id] [Field K] [LinearOrder K] [IsStrictOrderedRing K] [Fintype κ] {n : ℕ}

omit [LinearOrder K] [IsStrictOrderedRing K] in
theorem realise_antith {z : Id → Src K (Fin (2 * n) × κ) σ} {t dt : K} :
    ∀ {l : List Id} {s s' : σ} {f : Id → Fin (2 * n) × κ → K}, realise z t dt l s = .ok (f, s') →
      l.Nodup → ∀ id, (id ∈ l → ∃ s1 s2, z id t dt s1 = .ok (f id, s2)) := by
  intro l
  induction l with
  | nil => intro s s' f _ _ id h; simp at h
  | cons j l ih =>
    intro s s' f h hnd id hid
    simp only [realise, bind, Except.bind, pure, Except.pure] at h
    cases hz : z j t dt s with
    | error e => simp [hz] at h
    | ok r =>
      simp only [hz] at h
      cases hr : realise z t dt l r.2 with
      | error e => simp [hr] at h
      | ok q =>
        simp only [hr, Except.ok.injEq, Prod.mk.injEq] at h
        obtain ⟨rfl, rfl⟩ := h
        obtain ⟨hj, hnd⟩ := List.nodup_cons.1 hnd
        by_cases e : id = j
        · subst e
          exact ⟨s, r.2, by simp [hz]⟩
        · obtain ⟨s1, s2, h12⟩ := ih hr hnd id ((List.mem_cons.1 hid).resolve_left e)
          exact ⟨s1, s2, by rw [Function.update_of_ne e]; exact h12⟩

/-- Values of the paths in a pair have the given average. -/
def PairMean (m : κ → K) (x : Fin (2 * n) × κ → K) : Prop :=
  ∀ i k, x (fstHalf i, k) + x (sndHalf i, k) = 2 * m k

/-- The Euler step of the differential equation without noise. -/
def odeStep (p : K → κ → K) (Q : K → κ → κ → K) (u : K) (m : κ → K) (v : K) : κ → K :=
  fun k => m k + (p u k + ∑ l, Q u k l * m l) * (v - u)

variable {S : SDE K (Fin (2 * n) × κ → K) O Id σ} {k0 : Id} {p : K → κ → K} {Q : K → κ → κ → K}
  {b : Id → K → κ → K}

omit [LinearOrder K] [IsStrictOrderedRing K] in
theorem step_antith (hdt : S.sources.lookup k0 = some dtSource)
    (hodd : ∀ id z, id ≠ k0 → S.sources.lookup id = some z → OddSource z)
    (hcoef : ∀ t x, (equation S).coef t x = .ok fun id c =>
      if id = k0 then p t c.2 + ∑ l, Q t c.2 l * x (c.1, l) else b id t c.2)
    {m : κ → K} {x x' : Fin (2 * n) × κ → K} (hm : PairMean m x) {t t' : K} {s s' : σ}
    (h : (equation S).step t x t' s = .ok (x', s')) : PairMean (odeStep p Q t m t') x' := by
  simp only [Equation.step, hcoef, bind, Except.bind, pure, Except.pure] at h
  cases hr : realise (equation S).noise t (t' - t) ((equation S).ids.sort (· ≤ ·)) s with
  | error e => simp [hr] at h
  | ok q =>
    simp only [hr, Except.ok.injEq, Prod.mk.injEq] at h
    obtain ⟨rfl, rfl⟩ := h
    have hz := realise_antith hr (Finset.sort_nodup _ _)
    have hk0 : k0 ∈ (equation S).ids := by
      simp only [equation, List.mem_toFinset]
      by_contra hc
      rw [(lookup_eq_none_iff' S.sources k0).2 hc] at hdt
      cases hdt
    intro i k
    have key : ∀ id ∈ (equation S).ids,
        (if id = k0 then p t k + ∑ l, Q t k l * x (fstHalf i, l) else b id t k) * q.1 id (fstHalf i, k) +
        (if id = k0 then p t k + ∑ l, Q t k l * x (sndHalf i, l) else b id t k) * q.1 id (sndHalf i, k) =
        if id = k0 then 2 * ((p t k + ∑ l, Q t k l * m l) * (t' - t)) else 0 := by
      intro id hid
      obtain ⟨s1, s2, h12⟩ := hz id (by simpa using hid)
      by_cases e : id = k0
      · subst e
        simp only [equation, hdt, dtSource, Except.ok.injEq, Prod.mk.injEq] at h12
        rw [← h12.1]
        simp only [if_true]
        have hs : ∑ l, Q t k l * x (fstHalf i, l) + ∑ l, Q t k l * x (sndHalf i, l) =
            2 * ∑ l, Q t k l * m l := by
          rw [← Finset.sum_add_distrib, Finset.mul_sum]
          refine Finset.sum_congr rfl fun l _ => ?_
          linear_combination Q t k l * hm i l
        linear_combination (t' - t) * hs
      · simp only [if_neg e]
        simp only [equation] at h12
        cases hl : S.sources.lookup id with
        | none =>
          simp only [hl, Except.ok.injEq, Prod.mk.injEq] at h12
          rw [← h12.1]; simp
        | some z =>
          simp only [hl] at h12
          rw [hodd id z e hl _ _ _ _ _ h12 i k]; ring
    simp only [Pi.add_apply, Finset.sum_apply, Pi.mul_apply, odeStep]
    have hs := Finset.sum_congr rfl key
    rw [Finset.sum_add_distrib, Finset.sum_ite_eq' _ k0, if_pos hk0] at hs
    linear_combination hm i k + hs

/-- Values of the Euler method for the differential equation without noise. -/
def odePath (p : K → κ → K) (Q : K → κ → κ → K) : K → (κ → K) → List K → List (K × (κ → K))
  | _, _, [] => []
  | t, m, t' :: ts => (t', odeStep p Q t m t') :: odePath p Q t' (odeStep p Q t m t') ts

omit [LinearOrder K] [IsStrictOrderedRing K] in
theorem odePath_times (p : K → κ → K) (Q : K → κ → κ → K) (ts : List K) (t : K) (m : κ → K) :
    (odePath p Q t m ts).map Prod.fst = ts := by
  induction ts generalizing t m with
  | nil => rfl
  | cons t' ts ih => simp [odePath, ih]

omit [IsStrictOrderedRing K] in
/-- A function with the values listed follows Euler's method. -/
theorem odePath_euler {ts : List K} {t : K} {m : κ → K} {f : K → κ → K} (h0 : f t = m)
    (hf : ∀ q ∈ odePath p Q t m ts, f q.1 = q.2) : NoiseFreeEuler p Q f (t :: ts) := by
  induction ts generalizing t m with
  | nil => exact List.isChain_singleton _
  | cons t' ts ih =>
    simp only [odePath, List.mem_cons, forall_eq_or_imp] at hf
    refine List.isChain_cons_cons.2 ⟨fun k => ?_, ih hf.1 hf.2⟩
    rw [hf.1, h0]; rfl

omit [IsStrictOrderedRing K] in
theorem path_antith (hdt : S.sources.lookup k0 = some dtSource)
    (hodd : ∀ id z, id ≠ k0 → S.sources.lookup id = some z → OddSource z)
    (hcoef : ∀ t x, (equation S).coef t x = .ok fun id c =>
      if id = k0 then p t c.2 + ∑ l, Q t c.2 l * x (c.1, l) else b id t c.2) :
    ∀ {ts : List K} {t : K} {m : κ → K} {x : Fin (2 * n) × κ → K} {s s' : σ} {ps}, PairMean m x →
      (equation S).path t x ts s = .ok (ps, s') →
      List.Forall₂ (fun a b => a.1 = b.1 ∧ PairMean a.2 b.2) (odePath p Q t m ts) ps := by
  intro ts
  induction ts with
  | nil =>
    intro t m x s s' ps _ h
    simp only [Equation.path, Except.ok.injEq, Prod.mk.injEq] at h
    rw [← h.1]; exact .nil
  | cons t' ts ih =>
    intro t m x s s' ps hm h
    simp only [Equation.path, bind, Except.bind, pure, Except.pure] at h
    cases h1 : (equation S).step t x t' s with
    | error e => simp [h1] at h
    | ok r =>
      simp only [h1] at h
      cases h2 : (equation S).path t' r.1 ts r.2 with
      | error e => simp [h2] at h
      | ok q =>
        simp only [h2, Except.ok.injEq, Prod.mk.injEq] at h
        obtain ⟨rfl, rfl⟩ := h
        have hp := step_antith hdt hodd hcoef hm h1
        exact .cons ⟨rfl, hp⟩ (ih hp h2)

omit [Field K] [IsStrictOrderedRing K] [Fintype κ] in
theorem forall₂_lookup {V W : Type} {R : V → W → Prop} {l : List (K × V)} {l' : List (K × W)}
    (h : List.Forall₂ (fun a b => a.1 = b.1 ∧ R a.2 b.2) l l') {t : K} {w : W} (hw : l'.lookup t = some w) :
    ∃ v, l.lookup t = some v ∧ R v w := by
  induction h with
  | nil => simp at hw
  | @cons a b l l' hab _ ih =>
    obtain ⟨a1, a2⟩ := a
    obtain ⟨b1, b2⟩ := b
    obtain ⟨e, hR⟩ := hab
    simp only at e
    subst e
    by_cases e : t = a1
    · subst e
      simp only [List.lookup_cons_self, Option.some.injEq] at hw ⊢
      subst hw
      exact ⟨a2, rfl, hR⟩
    · have e' : (t == a1) = false := by simpa using e
      simp only [List.lookup_cons, e'] at hw ⊢
      exact ih hw

omit [LinearOrder K] [IsStrictOrderedRing K] [Fintype κ] in
theorem sum_pairs (f : Fin (2 * n) → K) : ∑ i, f i = ∑ i : Fin n, (f (fstHalf i) + f (sndHalf i)) := by
  rw [Finset.sum_add_distrib, ← (finCongr (two_mul n).symm).sum_comp f, Fin.sum_univ_add]
  rfl

/-- **C111.** Let the paths of a process be paired, by sources with opposite increments in the two halves of the paths.
Let the drift be affine, the coefficients of the sources be functions of time, the same for all paths, and the initial values
of each pair average to `y0`. Then whatever is drawn, at each time of the timeline, the average of the values simulated for
each pair, and hence the average over all paths, is exactly the value `m` given by Euler's method, along the same grid,
for the differential equation without noise. Values are those integrated, before `let`, and before exponentials if
`log` is set. -/
theorem C111_pairs (hS : SDEOk S) (hdt : S.sources.lookup k0 = some dtSource)
    (hodd : ∀ id z, id ≠ k0 → S.sources.lookup id = some z → OddSource z)
    (hcoef : ∀ t x, (equation S).coef t x = .ok fun id c =>
      if id = k0 then p t c.2 + ∑ l, Q t c.2 l * x (c.1, l) else b id t c.2)
    {fuel : ℕ} {steps : Steps K} {i0 : ℤ} {tl : TArr K} {grid : List K} {t0 : K}
    (ha : Along fuel steps i0 tl grid t0) {x0 : Fin (2 * n) × κ → K} (hinit : S.init t0 = .ok x0) {y0 : κ → K}
    (hx0 : ∀ i k, (if S.log then S.logX x0 else x0) (fstHalf i, k) +
      (if S.log then S.logX x0 else x0) (sndHalf i, k) = 2 * y0 k) :
    ∃ m : K → κ → K, m t0 = y0 ∧ NoiseFreeEuler p Q m (grid.filter (t0 ≤ ·)) ∧
      NoiseFreeEuler p Q m (grid.filter (· ≤ t0)).reverse ∧
      ∀ s xx s', S.call fuel steps i0 tl s = .ok (xx, s') →
        ∃ X : K → Fin (2 * n) × κ → K,
          xx = tl.data.map (fun t => some (if S.log then S.expO (S.letX t (X t)) else S.letX t (X t))) ∧
          ∀ t ∈ tl.data, (∀ i k, X t (fstHalf i, k) + X t (sndHalf i, k) = 2 * m t k) ∧
            ∀ k, ∑ i, X t (i, k) = (2 * n : ℕ) * m t k := by
  obtain ⟨i, hi, h0⟩ := ha.start
  have hmt : t0 ∈ tl.data := List.mem_of_getElem? h0
  have hmem : t0 ∈ grid := (ha.isGrid.2 t0).2 (.inl hmt)
  obtain ⟨eL, eR⟩ := filter_le_eq ha.isGrid.1 hmem
  set M : List (K × (κ → K)) := (odePath p Q t0 y0 (grid.filter (· < t0)).reverse).reverse ++
    (t0, y0) :: odePath p Q t0 y0 (grid.filter (t0 < ·)) with hM
  have hMt : M.map Prod.fst = grid.filter (· < t0) ++ t0 :: grid.filter (t0 < ·) := by
    simp [hM, odePath_times]
  have hMd : DictOk M := by
    unfold DictOk
    rw [hMt]
    refine List.nodup_append.2 ⟨(ha.isGrid.1.imp fun h => ne_of_lt h).filter _, ?_, ?_⟩
    · refine List.nodup_cons.2 ⟨by simp, (ha.isGrid.1.imp fun h => ne_of_lt h).filter _⟩
    · intro a ha' c hc e
      subst e
      have h1 : a < t0 := by simpa using (List.mem_filter.1 ha').2
      rcases List.mem_cons.1 hc with rfl | hc
      · exact lt_irrefl _ h1
      · have h2 : t0 < a := by simpa using (List.mem_filter.1 hc).2
        exact lt_asymm h1 h2
  have hMv : ∀ q ∈ M, ((M.lookup q.1).getD 0) = q.2 := fun q hq => by rw [lookup_of_mem hMd hq]; rfl
  have hM0 : (M.lookup t0).getD 0 = y0 := hMv (t0, y0) (by simp [hM])
  refine ⟨fun t => (M.lookup t).getD 0, hM0, ?_, ?_, ?_⟩
  · rw [eR]
    exact odePath_euler hM0 fun q hq => hMv q (by simp [hM, hq])
  · rw [eL, List.reverse_append, List.reverse_singleton, List.singleton_append]
    exact odePath_euler hM0 fun q hq => hMv q (by simp [hM, hq])
  · intro s xx s' h
    rw [C02_euler S hS fuel steps i0 tl s ha.valid hi ha.nsteps ha.isGrid h0 ha.hfuel] at h
    simp only [hinit, bind, Except.bind, pure, Except.pure] at h
    generalize (if S.log then S.logX x0 else x0) = xi at h hx0
    cases hsol : (equation S).solution t0 xi grid s with
    | error e => simp [hsol] at h
    | ok r =>
      simp only [hsol, Except.ok.injEq, Prod.mk.injEq] at h
      obtain ⟨rfl, rfl⟩ := h
      have ht := solution_times (equation S) ha.isGrid.1 hmem hsol
      have hrel : List.Forall₂ (fun a b => a.1 = b.1 ∧ PairMean a.2 b.2) M r.1 := by
        simp only [Equation.solution, bind, Except.bind, pure, Except.pure] at hsol
        cases h1 : (equation S).path t0 xi (grid.filter (· < t0)).reverse s with
        | error e => simp [h1] at hsol
        | ok q1 =>
          simp only [h1] at hsol
          cases h2 : (equation S).path t0 xi (grid.filter (t0 < ·)) q1.2 with
          | error e => simp [h2] at hsol
          | ok q2 =>
            simp only [h2, Except.ok.injEq] at hsol
            rw [← hsol]
            exact List.rel_append (List.rel_reverse (path_antith hdt hodd hcoef hx0 h1))
              (.cons ⟨rfl, hx0⟩ (path_antith hdt hodd hcoef hx0 h2))
      have hrd : DictOk r.1 := by
        unfold DictOk; rw [ht]; exact ha.isGrid.1.imp fun h => ne_of_lt h
      have hex : ∀ t ∈ tl.data, ∃ x, r.1.lookup t = some x := by
        intro t htt
        have : t ∈ r.1.map Prod.fst := by rw [ht]; exact (ha.isGrid.2 t).2 (.inl htt)
        obtain ⟨q, hq, rfl⟩ := List.mem_map.1 this
        exact ⟨_, lookup_of_mem hrd hq⟩
      refine ⟨fun t => (r.1.lookup t).getD 0, ?_, ?_⟩
      · refine List.map_congr_left fun t htt => ?_
        obtain ⟨x, hx⟩ := hex t htt
        simp [hx]
      · intro t htt
        obtain ⟨x, hx⟩ := hex t htt
        obtain ⟨v, hv, hR⟩ := forall₂_lookup hrel hx
        have hp : ∀ i k, x (fstHalf i, k) + x (sndHalf i, k) = 2 * v k := hR
        simp only [hx, hv, Option.getD_some]
        refine ⟨hp, fun k => ?_⟩
        rw [sum_pairs fun i => x (i, k)]
        simp only [hp, Finset.sum_const, Finset.card_univ, Fintype.card_fin, nsmul_eq_mul]
        push_cast; ring

end

/-! ### `odd_wiener_source` -/

/-- The increments returned by a source for a time and a step, that are arrays of shape `vshape + (paths,)`
(`SDE.dZ`, `integration.py` 1227-1234), cell by cell: `idx k` is the index of component `k` in an array of shape `vshape`. -/
def cellsSource {K κ σ : Type} {N : ℕ} (idx : κ → List ℕ) (z : Arr K → Arr K → σ → Py (Arr K × σ)) :
    Src K (Fin N × κ) σ := fun t dt s =>
  match z (.scalar t) (.scalar dt) s with
  | .error e => .error e
  | .ok (x, s) => .ok (fun c => x.get (idx c.2 ++ [c.1.1]), s)

section
variable {σ κ : Type} {n : ℕ}

/-- **C111**, sources: increments of `odd_wiener_source` in the second half of the paths are the opposite of those in
the first half, whatever the correlations and the generator. -/
theorem C111_odd_wiener {vshape : List ℕ} {corr rho : RawParam ℝ} {rng : Rng σ} {N : ℕ}
    {anti : Arr ℝ → Arr ℝ → σ → Py (Arr ℝ × σ)}
    (h : antithetics (fun k => wienerNew k vshape corr rho) WienerSrc.paths (fun W => wienerCall W rng)
      (fun z => -z) (2 * n) = .ok (N, anti)) (idx : κ → List ℕ) :
    N = 2 * n ∧ OddSource (n := n) (cellsSource idx anti) := by
  obtain ⟨-, he, hok⟩ := C22_odd_wiener vshape corr rho rng n
  cases hW : wienerNew n vshape corr rho with
  | error e => rw [he e hW] at h; cases h
  | ok W =>
    obtain ⟨anti', h1, h2⟩ := hok W hW
    rw [h1] at h
    simp only [Except.ok.injEq, Prod.mk.injEq] at h
    obtain ⟨rfl, rfl⟩ := h
    refine ⟨rfl, ?_⟩
    intro t dt s v s' hv i k
    unfold cellsSource at hv
    obtain ⟨h3, h4⟩ := h2 (.scalar t) (.scalar dt) s
    cases hz : wienerCall W rng (.scalar t) (.scalar dt) s with
    | error e => rw [h3 e hz] at hv; cases hv
    | ok r =>
      obtain ⟨x, sh, hx, -, -, hxv⟩ := h4 r.1 r.2 hz
      rw [hx] at hv
      simp only [Except.ok.injEq, Prod.mk.injEq] at hv
      obtain ⟨rfl, -⟩ := hv
      exact ((hxv (idx k)).1 i i.2).2

/-- **C111**, for `ornstein_uhlenbeck_process` with increments of `odd_wiener_source`: whatever is drawn, the average over
paths of the values returned is exactly the value given by Euler's method for `m' = k*(theta - m)`. -/
theorem C111_ornstein_uhlenbeck [Fintype κ] {vshape : List ℕ} {corr rho : RawParam ℝ} {rng : Rng σ} {N : ℕ}
    {anti : Arr ℝ → Arr ℝ → σ → Py (Arr ℝ × σ)}
    (h : antithetics (fun k => wienerNew k vshape corr rho) WienerSrc.paths (fun W => wienerCall W rng)
      (fun z => -z) (2 * n) = .ok (N, anti)) (idx : κ → List ℕ) (hn : 0 < n)
    {x0 : κ → ℝ} {theta k sigma : ℝ → κ → ℝ} {fuel : ℕ} {steps : Steps ℝ} {i0 : ℤ} {tl : TArr ℝ} {grid : List ℝ} {t0 : ℝ}
    (ha : Along fuel steps i0 tl grid t0) :
    ∃ m : ℝ → κ → ℝ, m t0 = x0 ∧
      (grid.filter (t0 ≤ ·)).IsChain (fun u v => ∀ j, m v j = m u j + k u j * (theta u j - m u j) * (v - u)) ∧
      (grid.filter (· ≤ t0)).reverse.IsChain
        (fun u v => ∀ j, m v j = m u j + k u j * (theta u j - m u j) * (v - u)) ∧
      ∀ s xx s', (ouSDE (fun c : Fin (2 * n) × κ => x0 c.2) (fun t c => theta t c.2) (fun t c => k t c.2)
          (fun t c => sigma t c.2) (cellsSource idx anti)).call fuel steps i0 tl s = .ok (xx, s') →
        ∃ X : ℝ → Fin (2 * n) × κ → ℝ, xx = tl.data.map (fun t => some (X t)) ∧
          ∀ t ∈ tl.data, ∀ j, (∑ i, X t (i, j)) / (2 * n : ℕ) = m t j := by
  classical
  obtain ⟨-, hodd⟩ := C111_odd_wiener h idx
  set S := ouSDE (fun c : Fin (2 * n) × κ => x0 c.2) (fun t c => theta t c.2) (fun t c => k t c.2)
          (fun t c => sigma t c.2) (cellsSource idx anti) with hSdef
  have hS : SDEOk S := ⟨by simp [DictOk, hSdef, ouSDE, idT, idW],
    by intro t x A hA; simp [hSdef, ouSDE] at hA; subst hA; simp [DictOk, idT, idW]⟩
  have hsum : ∀ (m : κ → ℝ) u j, k u j * theta u j + ∑ l, (if l = j then -k u j else 0) * m l =
      k u j * (theta u j - m j) := by
    intro m u j
    simp only [ite_mul, zero_mul, Finset.sum_ite_eq', Finset.mem_univ, if_true]
    ring
  have hod : ∀ id z, id ≠ idT → S.sources.lookup id = some z → OddSource z := by
    intro id z hid hz
    have hz' : List.lookup id [(idT, dtSource), (idW, cellsSource idx anti)] = some z := hz
    by_cases e : id = idW
    · subst e
      simp [List.lookup, idT, idW] at hz'
      rw [← hz']; exact hodd
    · have e1 : (id == idT) = false := by simpa using hid
      have e2 : (id == idW) = false := by simpa using e
      simp [List.lookup, e1, e2] at hz'
  have hco : ∀ t x, (equation S).coef t x = .ok fun id c =>
      if id = idT then k t c.2 * theta t c.2 + ∑ l, (if l = c.2 then -k t c.2 else 0) * x (c.1, l)
      else if id = idW then sigma t c.2 else 0 := by
    intro t x
    have : ¬ ∃ a ∈ [idT, idW], a ∉ [idT, idW] := by simp
    simp only [equation, hSdef, ouSDE, bind, Except.bind, pure, Except.pure, List.map_cons, List.map_nil, this, if_false]
    congr 1
    funext id c
    have hs := hsum (fun l => x (c.1, l)) t c.2
    by_cases e : id = idT
    · subst e
      simp only [if_true, hs]
      simp [entry, List.lookup]
    · have e1 : (id == idT) = false := by simpa using e
      by_cases e' : id = idW
      · subst e'
        simp [entry, List.lookup, idT, idW]
      · have e2 : (id == idW) = false := by simpa using e'
        simp [entry, List.lookup, e1, e2, e, e']
  obtain ⟨m, h0, h1, h2, h3⟩ := C111_pairs (S := S) (k0 := idT) (p := fun t j => k t j * theta t j)
    (Q := fun t j l => if l = j then -k t j else 0) (b := fun id t j => if id = idW then sigma t j else 0)
    hS rfl hod hco ha rfl (y0 := x0) (by intro i j; simp only [hSdef, ouSDE]; simp; ring)
  refine ⟨m, h0, ?_, ?_, ?_⟩
  · simpa only [NoiseFreeEuler, hsum] using h1
  · simpa only [NoiseFreeEuler, hsum] using h2
  · intro s xx s' hc
    obtain ⟨X, hX, hm⟩ := h3 s xx s' hc
    refine ⟨X, hX, fun t ht j => ?_⟩
    rw [(hm t ht).2 j]
    have : ((2 * n : ℕ) : ℝ) ≠ 0 := by positivity
    field_simp

end

/-! ### Examples -/

/-- Two paths with opposite increments, taken from a list. -/
def exOddSource : Src ℚ (Fin (2 * 1) × Unit) (List ℚ) := fun _ _ s =>
  match s with
  | [] => .error .runtimeError
  | w :: ws => .ok (fun c => if c.1 = 0 then w else -w, ws)

/-- `dx = 1/2*(1 - x)*dt + 2*dw(t)`, with initial values `5` and `1`. -/
def exOddSDE : SDE ℚ (Fin (2 * 1) × Unit → ℚ) (Fin (2 * 1) × Unit → ℚ) ℕ (List ℚ) :=
  ouSDE (fun c => if c.1 = 0 then 5 else 1) (fun _ _ => 1) (fun _ _ => 1/2) (fun _ _ => 2) exOddSource

-- hypotheses of `C111_pairs`, with initial values that average to 3
example : SDEOk exOddSDE ∧ exOddSDE.sources.lookup idT = some dtSource ∧
    (∀ id z, id ≠ idT → exOddSDE.sources.lookup id = some z → OddSource z) ∧
    (∀ t x, (equation exOddSDE).coef t x = .ok fun id c =>
      if id = idT then 1/2 + ∑ l, (-1/2) * x (c.1, l) else if id = idW then 2 else 0) ∧
    Along 10 (.iter [2]) 1 ⟨[3], [0, 1, 4]⟩ [0, 1, 2, 4] (1 : ℚ) ∧
    ∀ (i : Fin 1) (k : Unit), (fun c : Fin (2 * 1) × Unit => if c.1 = 0 then (5 : ℚ) else 1) (fstHalf i, k) +
      (fun c : Fin (2 * 1) × Unit => if c.1 = 0 then (5 : ℚ) else 1) (sndHalf i, k) = 2 * 3 := by
  refine ⟨⟨by simp [DictOk, exOddSDE, ouSDE, idT, idW],
    by intro t x A hA; simp [exOddSDE, ouSDE] at hA; subst hA; simp [DictOk, idT, idW]⟩, rfl, ?_, ?_,
    ⟨⟨rfl, by decide +kernel⟩, ⟨1, ⟨by decide, .inl rfl⟩, rfl⟩, by simp,
      stepsTT_isGrid _ _ (by decide +kernel) (by decide +kernel), by decide +kernel⟩, by decide +kernel⟩
  · intro id z hid hz t dt s v s' hv i k
    have hz' : List.lookup id [(idT, dtSource), (idW, exOddSource)] = some z := hz
    have e1 : (id == idT) = false := by simpa using hid
    simp only [List.lookup, e1] at hz'
    split at hz'
    · simp only [Option.some.injEq] at hz'
      subst hz'
      cases s with
      | nil => cases hv
      | cons w ws =>
        simp only [exOddSource, Except.ok.injEq, Prod.mk.injEq] at hv
        obtain ⟨rfl, -⟩ := hv
        have : i = 0 := Subsingleton.elim _ _
        subst this
        simp [fstHalf, sndHalf]
    · cases hz'
  · intro t x
    have : ¬ ∃ a ∈ [idT, idW], a ∉ [idT, idW] := by simp
    simp only [equation, exOddSDE, ouSDE, bind, Except.bind, pure, Except.pure, List.map_cons, List.map_nil, this,
      if_false]
    congr 1
    funext id c
    by_cases e : id = idT
    · subst e
      simp [entry, List.lookup]; ring
    · have e1 : (id == idT) = false := by simpa using e
      by_cases e' : id = idW
      · subst e'
        simp [entry, List.lookup, idT, idW]
      · have e2 : (id == idW) = false := by simpa using e'
        simp [entry, List.lookup, e1, e2, e, e']

-- at times 0, 1, 4 the averages are 3 + (1/2)*(1 - 3)*(-1) = 4, 3, and 1, after 2 at time 2, whatever is drawn
example : okVal ((exOddSDE.call 10 (.iter [2]) 1 ⟨[3], [0, 1, 4]⟩ [7, -1, 3]).map fun r =>
      r.1.map fun x => x.map fun x => (x (0, ()), x (1, ()))) =
    some [some (21, -13), some (5, 1), some (7, -5)] ∧
  okVal ((exOddSDE.call 10 (.iter [2]) 1 ⟨[3], [0, 1, 4]⟩ [1/2, 4, 1/3]).map fun r =>
      r.1.map fun x => x.map fun x => x (0, ()) + x (1, ())) = some [some 8, some 6, some 2] := by
  decide +kernel

-- hypotheses of `C111_odd_wiener` and `C111_ornstein_uhlenbeck`
example : ∃ anti, antithetics (fun k => wienerNew k [3] .none .none) WienerSrc.paths
    (fun W => wienerCall W (⟨fun _ s => (fun i => i.getLastD 0, s), fun _ _ _ s => (fun _ _ => 0, s)⟩ : Rng Unit))
    (fun z => -z) (2 * 2) = .ok (4, anti) ∧ ∃ v, cellsSource (N := 4) (fun k : Fin 3 => [k.1]) anti 0 1 () = .ok (v, ()) ∧
      v (1, 0) = 1 ∧ v (3, 0) = -1 := by
  refine ⟨_, rfl, _, rfl, ?_, ?_⟩ <;> simp [Arr.scalar, concatLast]

end Sdepy
