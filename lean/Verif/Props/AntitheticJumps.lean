import Verif.Props.Antithetic
import Verif.Props.Presets

/-!
# Property C112: antithetic paths in jump-diffusion processes
-/

open BigOperators

namespace Sdepy

namespace Spec

/-- Increments in the second half of the paths are the same as those in the first half. -/
def EvenSource {K κ σ : Type} {n : ℕ} (z : Src K (Fin (2 * n) × κ) σ) : Prop :=
  ∀ t dt s v s', z t dt s = .ok (v, s') → ∀ i k, v (sndHalf i, k) = v (fstHalf i, k)

/-- The values of paired paths have the same averages. -/
def SamePairMeans {K κ : Type} [Add K] {n : ℕ} (x y : Fin (2 * n) × κ → K) : Prop :=
  ∀ i k, x (fstHalf i, k) + x (sndHalf i, k) = y (fstHalf i, k) + y (sndHalf i, k)

end Spec

open Spec

section
variable {K κ σ O O' Id : Type} [LinearOrder Id] [Field K] [LinearOrder K] [IsStrictOrderedRing K] [Fintype κ] {n : ℕ}
  {S : SDE K (Fin (2 * n) × κ → K) O Id σ} {S' : SDE K (Fin (2 * n) × κ → K) O' Id σ} {odd : Finset Id}
  {p : Id → K → κ → K} {Q : Id → K → κ → κ → K} {b b' : Id → K → κ → K}

omit [LinearOrder K] [IsStrictOrderedRing K] in
theorem step_pairs (hsrc : S'.sources = S.sources)
    (hodd : ∀ id ∈ odd, ∀ z, S.sources.lookup id = some z → OddSource z)
    (heven : ∀ id ∉ odd, ∀ z, S.sources.lookup id = some z → EvenSource z)
    (hcoef : ∀ t x, (equation S).coef t x = .ok fun id c =>
      if id ∈ odd then b id t c.2 else p id t c.2 + ∑ l, Q id t c.2 l * x (c.1, l))
    (hcoef' : ∀ t x, (equation S').coef t x = .ok fun id c =>
      if id ∈ odd then b' id t c.2 else p id t c.2 + ∑ l, Q id t c.2 l * x (c.1, l))
    {x y x' : Fin (2 * n) × κ → K} (hm : SamePairMeans x y) {t t' : K} {s s' : σ}
    (h : (equation S).step t x t' s = .ok (x', s')) :
    ∃ y', (equation S').step t y t' s = .ok (y', s') ∧ SamePairMeans x' y' := by
  have hids : (equation S').ids = (equation S).ids := by simp only [equation, hsrc]
  have hnoise : (equation S').noise = (equation S).noise := by simp only [equation, hsrc]
  simp only [Equation.step, hcoef, hcoef', hids, hnoise, bind, Except.bind, pure, Except.pure] at h ⊢
  cases hr : realise (equation S).noise t (t' - t) ((equation S).ids.sort (· ≤ ·)) s with
  | error e => simp [hr] at h
  | ok q =>
    simp only [hr, Except.ok.injEq, Prod.mk.injEq] at h
    obtain ⟨rfl, rfl⟩ := h
    refine ⟨_, rfl, ?_⟩
    have hz := realise_antith hr (Finset.sort_nodup _ _)
    intro i k
    have key : ∀ id ∈ (equation S).ids,
        (if id ∈ odd then b id t k else p id t k + ∑ l, Q id t k l * x (fstHalf i, l)) * q.1 id (fstHalf i, k) +
        (if id ∈ odd then b id t k else p id t k + ∑ l, Q id t k l * x (sndHalf i, l)) * q.1 id (sndHalf i, k) =
        (if id ∈ odd then b' id t k else p id t k + ∑ l, Q id t k l * y (fstHalf i, l)) * q.1 id (fstHalf i, k) +
        (if id ∈ odd then b' id t k else p id t k + ∑ l, Q id t k l * y (sndHalf i, l)) * q.1 id (sndHalf i, k) := by
      intro id hid
      obtain ⟨s1, s2, h12⟩ := hz id (by simpa using hid)
      simp only [equation] at h12
      cases hl : S.sources.lookup id with
      | none =>
        simp only [hl, Except.ok.injEq, Prod.mk.injEq] at h12
        rw [← h12.1]; simp
      | some z =>
        simp only [hl] at h12
        by_cases e : id ∈ odd
        · simp only [if_pos e]
          rw [hodd id e z hl _ _ _ _ _ h12 i k]; ring
        · simp only [if_neg e]
          rw [heven id e z hl _ _ _ _ _ h12 i k]
          have hs : ∑ l, Q id t k l * x (fstHalf i, l) + ∑ l, Q id t k l * x (sndHalf i, l) =
              ∑ l, Q id t k l * y (fstHalf i, l) + ∑ l, Q id t k l * y (sndHalf i, l) := by
            rw [← Finset.sum_add_distrib, ← Finset.sum_add_distrib]
            refine Finset.sum_congr rfl fun l _ => ?_
            linear_combination Q id t k l * hm i l
          linear_combination q.1 id (fstHalf i, k) * hs
    simp only [Pi.add_apply, Finset.sum_apply, Pi.mul_apply]
    have hs := Finset.sum_congr rfl key
    rw [Finset.sum_add_distrib, Finset.sum_add_distrib] at hs
    linear_combination hm i k + hs

omit [IsStrictOrderedRing K] in
theorem path_pairs (hsrc : S'.sources = S.sources)
    (hodd : ∀ id ∈ odd, ∀ z, S.sources.lookup id = some z → OddSource z)
    (heven : ∀ id ∉ odd, ∀ z, S.sources.lookup id = some z → EvenSource z)
    (hcoef : ∀ t x, (equation S).coef t x = .ok fun id c =>
      if id ∈ odd then b id t c.2 else p id t c.2 + ∑ l, Q id t c.2 l * x (c.1, l))
    (hcoef' : ∀ t x, (equation S').coef t x = .ok fun id c =>
      if id ∈ odd then b' id t c.2 else p id t c.2 + ∑ l, Q id t c.2 l * x (c.1, l)) :
    ∀ {ts : List K} {t : K} {x y : Fin (2 * n) × κ → K} {s s' : σ} {ps}, SamePairMeans x y →
      (equation S).path t x ts s = .ok (ps, s') →
      ∃ qs, (equation S').path t y ts s = .ok (qs, s') ∧
        List.Forall₂ (fun a b => a.1 = b.1 ∧ SamePairMeans b.2 a.2) qs ps := by
  intro ts
  induction ts with
  | nil =>
    intro t x y s s' ps _ h
    simp only [Equation.path, Except.ok.injEq, Prod.mk.injEq] at h
    obtain ⟨rfl, rfl⟩ := h
    exact ⟨[], rfl, .nil⟩
  | cons t' ts ih =>
    intro t x y s s' ps hm h
    simp only [Equation.path, bind, Except.bind, pure, Except.pure] at h ⊢
    cases h1 : (equation S).step t x t' s with
    | error e => simp [h1] at h
    | ok r =>
      simp only [h1] at h
      cases h2 : (equation S).path t' r.1 ts r.2 with
      | error e => simp [h2] at h
      | ok q =>
        simp only [h2, Except.ok.injEq, Prod.mk.injEq] at h
        obtain ⟨rfl, rfl⟩ := h
        obtain ⟨y', e1, hp⟩ := step_pairs hsrc hodd heven hcoef hcoef' hm h1
        obtain ⟨qs, e2, hq⟩ := ih hp h2
        simp only [e1, e2]
        exact ⟨_, rfl, .cons ⟨rfl, hp⟩ hq⟩

/-- **C112.** Let the paths of a process be paired, with opposite increments of the sources in `odd`, and the same increments
of any other source, in the two halves of the paths. Let coefficients of the sources in `odd` be functions of time, those of
others be affine, the same for all paths. Consider a second process, with the same sources, that differs
only in the coefficients of those in `odd`, that may be zero, and possibly in initial values, provided they have the
same averages over pairs. Whatever is drawn, starting from the same state of generators, both processes
leave generators in the same state, and the averages over each pair of the values simulated at each time are exactly the same. Values are
those integrated, before `let`, and before exponentials if `log` is set. -/
theorem C112_pairs (hS : SDEOk S) (hS' : SDEOk S') (hsrc : S'.sources = S.sources)
    (hodd : ∀ id ∈ odd, ∀ z, S.sources.lookup id = some z → OddSource z)
    (heven : ∀ id ∉ odd, ∀ z, S.sources.lookup id = some z → EvenSource z)
    (hcoef : ∀ t x, (equation S).coef t x = .ok fun id c =>
      if id ∈ odd then b id t c.2 else p id t c.2 + ∑ l, Q id t c.2 l * x (c.1, l))
    (hcoef' : ∀ t x, (equation S').coef t x = .ok fun id c =>
      if id ∈ odd then b' id t c.2 else p id t c.2 + ∑ l, Q id t c.2 l * x (c.1, l))
    {fuel : ℕ} {steps : Steps K} {i0 : ℤ} {tl : TArr K} {grid : List K} {t0 : K}
    (ha : Along fuel steps i0 tl grid t0) {x0 y0 : Fin (2 * n) × κ → K} (hinit : S.init t0 = .ok x0)
    (hinit' : S'.init t0 = .ok y0)
    (hx0 : SamePairMeans (if S.log then S.logX x0 else x0) (if S'.log then S'.logX y0 else y0))
    {s s' : σ} {xx} (h : S.call fuel steps i0 tl s = .ok (xx, s')) :
    ∃ (X Y : K → Fin (2 * n) × κ → K),
      xx = tl.data.map (fun t => some (if S.log then S.expO (S.letX t (X t)) else S.letX t (X t))) ∧
      S'.call fuel steps i0 tl s =
        .ok (tl.data.map (fun t => some (if S'.log then S'.expO (S'.letX t (Y t)) else S'.letX t (Y t))), s') ∧
      ∀ t ∈ tl.data, ∀ i k, X t (fstHalf i, k) + X t (sndHalf i, k) = Y t (fstHalf i, k) + Y t (sndHalf i, k) := by
  obtain ⟨i, hi, h0⟩ := ha.start
  have hmt : t0 ∈ tl.data := List.mem_of_getElem? h0
  have hmem : t0 ∈ grid := (ha.isGrid.2 t0).2 (.inl hmt)
  rw [C02_euler S' hS' fuel steps i0 tl s ha.valid hi ha.nsteps ha.isGrid h0 ha.hfuel]
  rw [C02_euler S hS fuel steps i0 tl s ha.valid hi ha.nsteps ha.isGrid h0 ha.hfuel] at h
  simp only [hinit, hinit', bind, Except.bind, pure, Except.pure] at h ⊢
  generalize (if S.log then S.logX x0 else x0) = xi at h hx0
  generalize (if S'.log then S'.logX y0 else y0) = yi at hx0 ⊢
  cases hsol : (equation S).solution t0 xi grid s with
  | error e => simp [hsol] at h
  | ok r =>
    simp only [hsol, Except.ok.injEq, Prod.mk.injEq] at h
    obtain ⟨rfl, rfl⟩ := h
    have hrel : ∃ qs, (equation S').solution t0 yi grid s = .ok (qs, r.2) ∧
        List.Forall₂ (fun a b => a.1 = b.1 ∧ SamePairMeans b.2 a.2) qs r.1 := by
      simp only [Equation.solution, bind, Except.bind, pure, Except.pure] at hsol ⊢
      cases h1 : (equation S).path t0 xi (grid.filter (· < t0)).reverse s with
      | error e => simp [h1] at hsol
      | ok q1 =>
        simp only [h1] at hsol
        cases h2 : (equation S).path t0 xi (grid.filter (t0 < ·)) q1.2 with
        | error e => simp [h2] at hsol
        | ok q2 =>
          simp only [h2, Except.ok.injEq] at hsol
          obtain ⟨u1, e1, r1⟩ := path_pairs hsrc hodd heven hcoef hcoef' hx0 h1
          obtain ⟨u2, e2, r2⟩ := path_pairs hsrc hodd heven hcoef hcoef' hx0 h2
          simp only [e1, e2]
          rw [← hsol]
          exact ⟨_, rfl, List.rel_append (List.rel_reverse r1) (.cons ⟨rfl, hx0⟩ r2)⟩
    obtain ⟨qs, hqs, hR⟩ := hrel
    have ht := solution_times (equation S) ha.isGrid.1 hmem hsol
    have hrd : DictOk r.1 := by
      unfold DictOk; rw [ht]; exact ha.isGrid.1.imp fun h => ne_of_lt h
    have hex : ∀ t ∈ tl.data, ∃ x, r.1.lookup t = some x := by
      intro t htt
      have : t ∈ r.1.map Prod.fst := by rw [ht]; exact (ha.isGrid.2 t).2 (.inl htt)
      obtain ⟨q, hq, rfl⟩ := List.mem_map.1 this
      exact ⟨_, lookup_of_mem hrd hq⟩
    refine ⟨fun t => (r.1.lookup t).getD 0, fun t => (qs.lookup t).getD 0, ?_, ?_, ?_⟩
    · refine List.map_congr_left fun t htt => ?_
      obtain ⟨x, hx⟩ := hex t htt
      simp [hx]
    · simp only [hqs]
      congr 2
      refine List.map_congr_left fun t htt => ?_
      obtain ⟨x, hx⟩ := hex t htt
      obtain ⟨v, hv, -⟩ := forall₂_lookup (R := fun a b => SamePairMeans b a) hR hx
      simp [hv]
    · intro t htt
      obtain ⟨x, hx⟩ := hex t htt
      obtain ⟨v, hv, hp⟩ := forall₂_lookup (R := fun a b => SamePairMeans b a) hR hx
      simp only [hx, hv, Option.getD_some]
      exact hp

end

/-! ### Jump-diffusion processes -/

section
variable {σ κ : Type} {n : ℕ}

/-- **C112**, sources: increments of `even_cpoisson_source` in the second half of the paths are the same as those in the
first half. -/
theorem C112_even_cpoisson {K : Type} [Field K] [LinearOrder K] {vshape : List ℕ} {make : ℕ → Py (CPoissonSrc K K σ)}
    (hmake : ∀ k S, make k = .ok S → S.paths = k ∧ S.vshape = vshape) {N : ℕ}
    {anti : Arr K → Arr K → σ → Py (Arr K × σ)}
    (h : antithetics make CPoissonSrc.paths (fun S t dt s => (cpoissonCall S t dt s).map fun r => (r.1.1, r.2))
      (fun z => z) (2 * n) = .ok (N, anti)) (idx : κ → List ℕ) :
    N = 2 * n ∧ EvenSource (n := n) (cellsSource idx anti) := by
  obtain ⟨-, hok⟩ := C22_even_cpoisson vshape make hmake n
  cases hW : make n with
  | error e =>
    unfold antithetics at h
    have h2 : 2 * n / 2 = n := by omega
    rw [if_neg (by omega), h2, hW] at h
    cases h
  | ok W =>
    obtain ⟨anti', h1, h2⟩ := hok W hW
    rw [h1] at h
    simp only [Except.ok.injEq, Prod.mk.injEq] at h
    obtain ⟨rfl, rfl⟩ := h
    refine ⟨rfl, ?_⟩
    intro t dt s v s' hv i k
    unfold cellsSource at hv
    obtain ⟨h3, h4⟩ := h2 (.scalar t) (.scalar dt) s
    cases hz : cpoissonCall W (.scalar t) (.scalar dt) s with
    | error e => rw [h3 e hz] at hv; cases hv
    | ok r =>
      obtain ⟨x, sh, hx, -, -, hxv⟩ := h4 r.1.1 r.1.2.1 r.1.2.2 r.2 hz
      rw [hx] at hv
      simp only [Except.ok.injEq, Prod.mk.injEq] at hv
      obtain ⟨rfl, -⟩ := hv
      exact (hxv (idx k) i i.2).2

theorem jumpdiff_ok {ι : Type} (x0 : ι → ℝ) (mu sigma : ℝ → ι → ℝ) (dw dj : Src ℝ ι σ) :
    SDEOk (jumpdiffSDE x0 mu sigma dw dj) :=
  ⟨by simp [DictOk, jumpdiffSDE, idT, idW, idJ],
    by intro t x A hA; simp [jumpdiffSDE] at hA; subst hA; simp [DictOk, idT, idW, idJ]⟩

theorem jumpdiff_coef [Fintype κ] {N : ℕ} (x0 : Fin N × κ → ℝ) (mu sigma : ℝ → κ → ℝ) (dw dj : Src ℝ (Fin N × κ) σ)
    (t : ℝ) (x : Fin N × κ → ℝ) :
    (equation (jumpdiffSDE x0 (fun t c => mu t c.2) (fun t c => sigma t c.2) dw dj)).coef t x = .ok fun id c =>
      if id ∈ ({idW} : Finset ℕ) then sigma t c.2 else
        (if id = idT then mu t c.2 - sigma t c.2 * sigma t c.2 / 2 else if id = idJ then 1 else 0) +
          ∑ l, (0 : ℝ) * x (c.1, l) := by
  have : ¬ ∃ a ∈ [idT, idW, idJ], a ∉ [idT, idW, idJ] := by simp
  simp only [equation, jumpdiffSDE, bind, Except.bind, pure, Except.pure, List.map_cons, List.map_nil, this, if_false]
  congr 1
  funext id c
  simp only [Finset.mem_singleton, zero_mul, Finset.sum_const_zero, add_zero]
  by_cases e : id = idT
  · subst e
    simp [entry, List.lookup, idT, idW]
  · have e1 : (id == idT) = false := by simpa using e
    by_cases e' : id = idW
    · subst e'
      simp [entry, List.lookup, idT, idW]
    · have e2 : (id == idW) = false := by simpa using e'
      by_cases e'' : id = idJ
      · subst e''
        simp [entry, List.lookup, idT, idW, idJ]
      · have e3 : (id == idJ) = false := by simpa using e''
        simp [entry, List.lookup, e1, e2, e3, e, e', e'']

/-- **C112**, for `jumpdiff_process`, `merton_jumpdiff_process` and `kou_jumpdiff_process`, with sources `dw` and `dj` such as
`odd_wiener_source` and `even_cpoisson_source`: whatever is drawn, the product of the values returned for each pair of paths is
the same as that, for the same jumps, for the process without diffusion and with drift `mu - sigma**2/2`. -/
theorem C112_jumpdiff [Fintype κ] {dw dj : Src ℝ (Fin (2 * n) × κ) σ} (hdw : OddSource dw) (hdj : EvenSource dj)
    {x0 : Fin (2 * n) × κ → ℝ} {mu sigma : ℝ → κ → ℝ} {fuel : ℕ} {steps : Steps ℝ} {i0 : ℤ} {tl : TArr ℝ}
    {grid : List ℝ} {t0 : ℝ} (ha : Along fuel steps i0 tl grid t0) {s s' : σ} {xx}
    (h : (jumpdiffSDE x0 (fun t c => mu t c.2) (fun t c => sigma t c.2) dw dj).call fuel steps i0 tl s = .ok (xx, s')) :
    ∃ (X Y : ℝ → Fin (2 * n) × κ → ℝ), xx = tl.data.map (fun t => some (X t)) ∧
      (jumpdiffSDE x0 (fun t c => mu t c.2 - sigma t c.2 ^ 2 / 2) (fun _ _ => 0) dw dj).call fuel steps i0 tl s =
        .ok (tl.data.map (fun t => some (Y t)), s') ∧
      ∀ t ∈ tl.data, ∀ i k, X t (fstHalf i, k) * X t (sndHalf i, k) = Y t (fstHalf i, k) * Y t (sndHalf i, k) := by
  have hl : ∀ id z, (jumpdiffSDE x0 (fun t c => mu t c.2) (fun t c => sigma t c.2) dw dj).sources.lookup id = some z →
      (id = idT ∧ z = dtSource) ∨ (id = idW ∧ z = dw) ∨ (id = idJ ∧ z = dj) := by
    intro id z hz
    have hz' : List.lookup id [(idT, dtSource), (idW, dw), (idJ, dj)] = some z := hz
    by_cases e : id = idT
    · subst e
      simp [List.lookup] at hz'
      exact .inl ⟨rfl, hz'.symm⟩
    · have e1 : (id == idT) = false := by simpa using e
      by_cases e' : id = idW
      · subst e'
        simp [List.lookup, idT, idW] at hz'
        exact .inr (.inl ⟨rfl, hz'.symm⟩)
      · have e2 : (id == idW) = false := by simpa using e'
        by_cases e'' : id = idJ
        · subst e''
          simp [List.lookup, idT, idW, idJ] at hz'
          exact .inr (.inr ⟨rfl, hz'.symm⟩)
        · have e3 : (id == idJ) = false := by simpa using e''
          simp [List.lookup, e1, e2, e3] at hz'
  have hodd : ∀ id ∈ ({idW} : Finset ℕ), ∀ z, (jumpdiffSDE x0 (fun t c => mu t c.2) (fun t c => sigma t c.2) dw
      dj).sources.lookup id = some z → OddSource z := by
    intro id hid z hz
    rcases hl id z hz with ⟨rfl, -⟩ | ⟨-, rfl⟩ | ⟨rfl, -⟩
    · simp [idT, idW] at hid
    · exact hdw
    · simp [idJ, idW] at hid
  have heven : ∀ id ∉ ({idW} : Finset ℕ), ∀ z, (jumpdiffSDE x0 (fun t c => mu t c.2) (fun t c => sigma t c.2) dw
      dj).sources.lookup id = some z → EvenSource z := by
    intro id hid z hz
    rcases hl id z hz with ⟨-, rfl⟩ | ⟨rfl, -⟩ | ⟨-, rfl⟩
    · intro t dt s v s' hv i k
      simp only [dtSource, Except.ok.injEq, Prod.mk.injEq] at hv
      rw [← hv.1]
    · simp at hid
    · exact hdj
  have hco' : ∀ t x, (equation (jumpdiffSDE x0 (fun t c => mu t c.2 - sigma t c.2 ^ 2 / 2) (fun _ _ => 0) dw
      dj)).coef t x = .ok fun id c => if id ∈ ({idW} : Finset ℕ) then 0 else
        (if id = idT then mu t c.2 - sigma t c.2 * sigma t c.2 / 2 else if id = idJ then 1 else 0) +
          ∑ l, (0 : ℝ) * x (c.1, l) := by
    intro t x
    rw [jumpdiff_coef x0 (fun t k => mu t k - sigma t k ^ 2 / 2) (fun _ _ => 0) dw dj t x]
    simp [pow_two]
  have hok := jumpdiff_ok x0 (fun t c => mu t c.2) (fun t c => sigma t c.2) dw dj
  have hok' := jumpdiff_ok x0 (fun t c => mu t c.2 - sigma t c.2 ^ 2 / 2) (fun _ _ => 0) dw dj
  have hco := jumpdiff_coef x0 mu sigma dw dj
  have e1 : ∀ (m sg : ℝ → Fin (2 * n) × κ → ℝ), (jumpdiffSDE x0 m sg dw dj).init t0 = .ok x0 ∧
      (jumpdiffSDE x0 m sg dw dj).log = true ∧ (jumpdiffSDE x0 m sg dw dj).logX = npLog ∧
      (jumpdiffSDE x0 m sg dw dj).expO = npExp ∧ (∀ t x, (jumpdiffSDE x0 m sg dw dj).letX t x = x) ∧
      (jumpdiffSDE x0 m sg dw dj).sources = [(idT, dtSource), (idW, dw), (idJ, dj)] :=
    fun _ _ => ⟨rfl, rfl, rfl, rfl, fun _ _ => rfl, rfl⟩
  have f1 := e1 (fun t c => mu t c.2) (fun t c => sigma t c.2)
  have f2 := e1 (fun t c => mu t c.2 - sigma t c.2 ^ 2 / 2) (fun _ _ => 0)
  generalize jumpdiffSDE x0 (fun t c => mu t c.2) (fun t c => sigma t c.2) dw dj = S at *
  generalize jumpdiffSDE x0 (fun t c => mu t c.2 - sigma t c.2 ^ 2 / 2) (fun _ _ => 0) dw dj = S' at *
  obtain ⟨a1, a2, a3, a4, a5, a6⟩ := f1
  obtain ⟨b1, b2, b3, b4, b5, b6⟩ := f2
  obtain ⟨X, Y, hX, hY, hXY⟩ := C112_pairs (S := S) (S' := S') (odd := {idW})
    (b := fun _ t k => sigma t k) (b' := fun _ _ _ => 0)
    (p := fun id t k => if id = idT then mu t k - sigma t k * sigma t k / 2 else if id = idJ then 1 else 0)
    (Q := fun _ _ _ _ => 0) hok hok' (b6.trans a6.symm) hodd heven hco hco' ha a1 b1
    (by simp only [a2, b2, a3, b3, if_true]; exact fun _ _ => rfl) h
  simp only [a2, a4, a5, if_true] at hX
  simp only [b2, b4, b5, if_true] at hY
  refine ⟨fun t => npExp (X t), fun t => npExp (Y t), hX, hY, fun t ht i k => ?_⟩
  simp only [npExp, ← Real.exp_add, hXY t ht i k]

end

/-! ### Examples -/

/-- Two paths with the same increments, taken from a list. -/
def exEvenSource : Src ℚ (Fin (2 * 1) × Unit) (List ℚ) := fun _ _ s =>
  match s with
  | [] => .error .runtimeError
  | w :: ws => .ok (fun _ => w, ws)

/-- `dx = 1/2*(1 - x)*dt + b*dw(t) + x*dj(t)`, with initial values `5` and `1`. -/
def exJumpSDE (b : ℚ) : SDE ℚ (Fin (2 * 1) × Unit → ℚ) (Fin (2 * 1) × Unit → ℚ) ℕ (List ℚ) where
  sources := [(idT, dtSource), (idW, exOddSource), (idJ, exEvenSource)]
  sde _ x := .ok (some [(idT, fun c => 1/2 * (1 - x c)), (idW, fun _ => b), (idJ, x)])
  init _ := .ok fun c => if c.1 = 0 then 5 else 1
  letX _ x := x
  log := false
  logX := id
  expO := id

-- hypotheses of `C112_pairs`, for two values of the coefficient of `dw`
example : (∀ b, SDEOk (exJumpSDE b)) ∧ (exJumpSDE 0).sources = (exJumpSDE 2).sources ∧
    (∀ id ∈ ({idW} : Finset ℕ), ∀ z, (exJumpSDE 2).sources.lookup id = some z → OddSource z) ∧
    (∀ id ∉ ({idW} : Finset ℕ), ∀ z, (exJumpSDE 2).sources.lookup id = some z → EvenSource z) ∧
    (∀ b t x, (equation (exJumpSDE b)).coef t x = .ok fun id c => if id ∈ ({idW} : Finset ℕ) then b else
      (if id = idT then 1/2 else 0) + ∑ l, (if id = idT then -1/2 else if id = idJ then 1 else 0) * x (c.1, l)) ∧
    Along 10 (.iter [2]) 1 ⟨[3], [0, 1, 4]⟩ [0, 1, 2, 4] (1 : ℚ) := by
  refine ⟨fun b => ⟨by simp [DictOk, exJumpSDE, idT, idW, idJ],
    by intro t x A hA; simp [exJumpSDE] at hA; subst hA; simp [DictOk, idT, idW, idJ]⟩, rfl, ?_, ?_, ?_,
    ⟨⟨rfl, by decide +kernel⟩, ⟨1, ⟨by decide, .inl rfl⟩, rfl⟩, by simp,
      stepsTT_isGrid _ _ (by decide +kernel) (by decide +kernel), by decide +kernel⟩⟩
  · intro id hid z hz t dt s v s' hv i k
    rw [Finset.mem_singleton] at hid
    subst hid
    simp [exJumpSDE, List.lookup, idT, idW] at hz
    subst hz
    cases s with
    | nil => cases hv
    | cons w ws =>
      simp only [exOddSource, Except.ok.injEq, Prod.mk.injEq] at hv
      obtain ⟨rfl, -⟩ := hv
      have : i = 0 := Subsingleton.elim _ _
      subst this
      simp [fstHalf, sndHalf]
  · intro id hid z hz t dt s v s' hv i k
    have hz' : List.lookup id [(idT, dtSource), (idW, exOddSource), (idJ, exEvenSource)] = some z := hz
    have e2 : (id == idW) = false := by simpa using hid
    simp only [List.lookup, e2] at hz'
    split at hz'
    · simp only [Option.some.injEq] at hz'
      subst hz'
      simp only [dtSource, Except.ok.injEq, Prod.mk.injEq] at hv
      rw [← hv.1]
    · split at hz'
      · simp only [Option.some.injEq] at hz'
        subst hz'
        cases s with
        | nil => cases hv
        | cons w ws =>
          simp only [exEvenSource, Except.ok.injEq, Prod.mk.injEq] at hv
          rw [← hv.1]
      · cases hz'
  · intro b t x
    have : ¬ ∃ a ∈ [idT, idW, idJ], a ∉ [idT, idW, idJ] := by simp
    simp only [equation, exJumpSDE, bind, Except.bind, pure, Except.pure, List.map_cons, List.map_nil, this, if_false]
    congr 1
    funext id c
    by_cases e : id = idT
    · subst e
      simp [entry, List.lookup, idT, idW]; ring
    · have e1 : (id == idT) = false := by simpa using e
      by_cases e' : id = idW
      · subst e'
        simp [entry, List.lookup, idT, idW]
      · have e2 : (id == idW) = false := by simpa using e'
        by_cases e'' : id = idJ
        · subst e''
          simp [entry, List.lookup, idT, idW, idJ]
        · have e3 : (id == idJ) = false := by simpa using e''
          simp [entry, List.lookup, e1, e2, e3, e, e', e'']

-- sums over pairs do not depend on the coefficient of `dw`, but do depend on jumps
example : (∀ b ∈ [(0 : ℚ), 2, 7], okVal ((exJumpSDE b).call 10 (.iter [2]) 1 ⟨[3], [0, 1, 4]⟩ [0, 7, 1, -1, 0, 3]
      |>.map fun r => r.1.map fun x => x.map fun x => x (0, ()) + x (1, ())) =
      some [some 8, some 6, some 2]) ∧
    okVal ((exJumpSDE 2).call 10 (.iter [2]) 1 ⟨[3], [0, 1, 4]⟩ [1, 7, 0, -1, 0, 3]
      |>.map fun r => r.1.map fun x => x.map fun x => x (0, ()) + x (1, ())) =
      some [some 14, some 6, some 2] := by
  decide +kernel

/-- Real valued sources, for two paths. -/
def exOddReal : Src ℝ (Fin (2 * 1) × Unit) (ℕ → ℝ) := fun _ dt s =>
  .ok (fun c => if c.1 = 0 then s 0 * dt else -(s 0 * dt), fun i => s (i + 1))

-- hypotheses of `C112_even_cpoisson`
example (S : CPoissonSrc ℚ ℚ (List ℚ)) :
    (∀ k S', (Except.ok { S with paths := k, vshape := [3] } : Py (CPoissonSrc ℚ ℚ (List ℚ))) = .ok S' →
      S'.paths = k ∧ S'.vshape = [3]) ∧
    ∃ anti, antithetics (fun k => .ok { S with paths := k, vshape := [3] }) CPoissonSrc.paths
      (fun S t dt s => (cpoissonCall S t dt s).map fun r => (r.1.1, r.2)) (fun z => z) (2 * 2) = .ok (4, anti) :=
  ⟨by rintro k S' ⟨⟩; exact ⟨rfl, rfl⟩, _, rfl⟩

-- hypotheses of `C112_jumpdiff`
example : OddSource exOddReal ∧ EvenSource (n := 1) (κ := Unit) (fun _ _ (s : ℕ → ℝ) => .ok (fun _ => s 0, fun i => s (i + 1))) ∧
    ∃ r, (jumpdiffSDE (fun _ => 1) (fun _ _ => 1) (fun _ _ => 2) exOddReal
      (fun _ _ (s : ℕ → ℝ) => .ok (fun _ => s 0, fun i => s (i + 1)))).sde 0 (fun _ => 1) = .ok (some r) := by
  refine ⟨?_, ?_, _, rfl⟩
  · intro t dt s v s' hv i k
    simp only [exOddReal, Except.ok.injEq, Prod.mk.injEq] at hv
    have : i = 0 := Subsingleton.elim _ _
    subst this
    rw [← hv.1]
    simp [fstHalf, sndHalf]
  · intro t dt s v s' hv i k
    simp only [Except.ok.injEq, Prod.mk.injEq] at hv
    rw [← hv.1]

end Sdepy
