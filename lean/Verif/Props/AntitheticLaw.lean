import Verif.Spec.AntitheticLaw
import Verif.Props.PathsMC
import Verif.Props.Antithetic

/-!
# Property C115: laws of antithetic paths, and errors of their means
-/

set_option linter.unusedSectionVars false

open MeasureTheory ProbabilityTheory Filter Topology

namespace Sdepy

open Spec

section
variable {κ : Type} {n : ℕ}

/-- The pair, the path within the pair, and the component of a value. -/
def pairCells (n : ℕ) (κ : Type) : Fin (2 * n) × κ ≃ Fin n × (Bool × κ) where
  toFun c := if h : c.1.1 < n then (⟨c.1, h⟩, (false, c.2)) else (⟨c.1 - n, by omega⟩, (true, c.2))
  invFun p := (if p.2.1 then sndHalf p.1 else fstHalf p.1, p.2.2)
  left_inv c := by
    obtain ⟨⟨i, hi⟩, k⟩ := c
    by_cases h : i < n
    · simp [h, fstHalf]
    · simp [h, sndHalf]; omega
  right_inv p := by
    obtain ⟨i, b, k⟩ := p
    cases b <;> simp [fstHalf, sndHalf]

/-- The law of noise along a pair. -/
noncomputable def pairLaw (ν : Measure (κ → ℝ)) : Measure (Bool × κ → ℝ) :=
  ν.map fun z c => if c.1 then -z c.2 else z c.2

theorem measurable_pairOf : Measurable fun (z : κ → ℝ) (c : Bool × κ) => if c.1 then -z c.2 else z c.2 := by
  refine measurable_pi_lambda _ fun c => ?_
  by_cases h : c.1 = true
  · simp only [h, if_true]; fun_prop
  · simp only [h, Bool.false_eq_true, if_false]; fun_prop

theorem pairLaw_prob {ν : Measure (κ → ℝ)} (h : IsProbabilityMeasure ν) : IsProbabilityMeasure (pairLaw ν) :=
  Measure.isProbabilityMeasure_map measurable_pairOf.aemeasurable

theorem antitheticLaw_eq {ν : Measure (κ → ℝ)} (h : IsProbabilityMeasure ν) :
    antitheticLaw n ν = pathsLaw (pairCells n κ) (pairLaw ν) := by
  have := pairLaw_prob h
  have h1 := Measure.pi_map_pi (μ := fun _ : Fin n => ν) (f := fun _ z (c : Bool × κ) => if c.1 then -z c.2 else z c.2)
    fun _ => measurable_pairOf.aemeasurable
  have hm2 : Measurable fun (x : Fin n → Bool × κ → ℝ) (c : Fin (2 * n) × κ) =>
      x (pairCells n κ c).1 (pairCells n κ c).2 := by fun_prop
  have hm1 : Measurable fun (x : Fin n → κ → ℝ) (i : Fin n) (c : Bool × κ) => if c.1 then -x i c.2 else x i c.2 :=
    measurable_pi_lambda _ fun i => measurable_pairOf.comp (measurable_pi_apply i)
  rw [pathsLaw, pairLaw, ← h1, Measure.map_map hm2 hm1, antitheticLaw]
  congr 1
  funext z c
  simp only [Function.comp_apply, pairCells, Equiv.coe_fn_mk]
  split <;> simp

theorem lipschitz_pairs [Fintype κ] {J : Type} [Fintype J] {a : ℝ → (κ → ℝ) → κ → ℝ} {b : J → ℝ → (κ → ℝ) → κ → ℝ}
    {t0 T L : ℝ} (h : LipschitzCoefs a b t0 T L) :
    LipschitzCoefs (fun t x (c : Bool × κ) => a t (fun k => x (c.1, k)) c.2)
      (fun j t x (c : Bool × κ) => b j t (fun k => x (c.1, k)) c.2) t0 T (2 * |L|) := by
  intro t ht u hu x y
  have h1 : ∀ z : Bool, _ := fun z => h t ht u hu (fun k => x (z, k)) fun k => y (z, k)
  have f := h1 false
  have g := h1 true
  simp only [Fintype.sum_prod_type, Fintype.sum_bool]
  have n1 : ∀ z : Bool, 0 ≤ ∑ k, (x (z, k) - y (z, k)) ^ 2 := fun z => Finset.sum_nonneg fun _ _ => sq_nonneg _
  have n2 : ∀ z : Bool, 0 ≤ ∑ k, x (z, k) ^ 2 := fun z => Finset.sum_nonneg fun _ _ => sq_nonneg _
  have n3 := abs_nonneg (t - u)
  have hle : ∀ q : ℝ, 0 ≤ q → L * q ≤ |L| * q := fun q hq => mul_le_mul_of_nonneg_right (le_abs_self L) hq
  have f' := f.trans (hle _ (by have := n1 false; have := n2 false; positivity))
  have g' := g.trans (hle _ (by have := n1 true; have := n2 true; positivity))
  refine (add_le_add g' f').trans ?_
  have p1 := mul_nonneg (abs_nonneg L) (n1 true)
  have p2 := mul_nonneg (abs_nonneg L) (n1 false)
  have p3 := mul_nonneg (mul_nonneg (abs_nonneg L) (n2 true)) n3
  have p4 := mul_nonneg (mul_nonneg (abs_nonneg L) (n2 false)) n3
  nlinarith

/-- Noise along a pair. -/
def pairNoise {J Ω : Type} (sgn : Bool) (Z : ℝ → Ω → J → κ → ℝ) : ℝ → Ω → J → Bool × κ → ℝ :=
  fun u ω j c => if c.1 = sgn then Z u ω j c.2 else -Z u ω j c.2

theorem increments_pair [Fintype κ] {J Ω : Type} [Fintype J] [MeasurableSpace Ω] {P : Measure Ω} {t0 : ℝ} {D : Set ℝ}
    {law : J → ℝ → Measure (κ → ℝ)} (hpr : ∀ j, ∀ h > 0, IsProbabilityMeasure (law j h))
    (hsym : ∀ j, ∀ h > 0, SymmetricLaw (law j h)) {Z : ℝ → Ω → J → κ → ℝ}
    (h : Increments P t0 D (fun h => Measure.pi fun j => law j h) Z) (sgn : Bool) :
    Increments P t0 D (fun h => Measure.pi fun j => pairLaw (law j h)) (pairNoise sgn Z) := by
  let ψ : (κ → ℝ) → Bool × κ → ℝ := fun z c => if c.1 = sgn then z c.2 else -z c.2
  have hψ : Measurable ψ := by
    refine measurable_pi_lambda _ fun c => ?_
    by_cases h : c.1 = sgn
    · simp only [ψ, h, if_true]; fun_prop
    · simp only [ψ, h, if_false]; fun_prop
  let Ψ : (J → κ → ℝ) → J → Bool × κ → ℝ := fun z j => ψ (z j)
  have hΨ : Measurable Ψ := measurable_pi_lambda _ fun j => hψ.comp (measurable_pi_apply j)
  have hd : ∀ s t ω, pairNoise sgn Z t ω - pairNoise sgn Z s ω = Ψ (Z t ω - Z s ω) := by
    intro s t ω
    funext j c
    simp only [pairNoise, Ψ, ψ, Pi.sub_apply]
    split <;> ring
  have hlaw : ∀ ν : Measure (κ → ℝ), SymmetricLaw ν → ν.map ψ = pairLaw ν := by
    intro ν hν
    cases hs : sgn with
    | false =>
      rw [pairLaw]
      congr 1
      funext z c
      cases hc : c.1 <;> simp [ψ, hs, hc]
    | true =>
      conv_lhs => rw [← hν]
      rw [Measure.map_map hψ (by fun_prop), pairLaw]
      congr 1
      funext z c
      cases hc : c.1 <;> simp [ψ, hs, hc]
  refine ⟨fun u hu => hΨ.comp_aemeasurable (h.meas u hu), fun s hs t ht h0 hst => ?_, fun s hs t ht h0 hst => ?_⟩
  · have hpos : t - s > 0 := sub_pos.2 hst
    have := fun j => hpr j _ hpos
    have := fun j => pairLaw_prob (hpr j _ hpos)
    have h1 := h.law s hs t ht h0 hst
    have h3 : HasLaw Ψ (Measure.pi fun j => pairLaw (law j (t - s))) (Measure.pi fun j => law j (t - s)) := by
      refine ⟨hΨ.aemeasurable, ?_⟩
      have h4 : ∀ j, (law j (t - s)).map ψ = pairLaw (law j (t - s)) := fun j => hlaw _ (hsym j _ hpos)
      have : ∀ j, IsProbabilityMeasure ((law j (t - s)).map ψ) := fun j => by rw [h4]; infer_instance
      have e1 := Measure.pi_map_pi (μ := fun j => law j (t - s)) (f := fun _ => ψ) fun _ => hψ.aemeasurable
      simp only [h4] at e1
      exact e1
    simp only [hd]
    exact h3.comp h1
  · simp only [hd]
    exact (h.indep s hs t ht h0 hst).comp
      (φ := fun (x : {u : ℝ // u ∈ D ∧ u ≤ s} → J → κ → ℝ) u => Ψ (x u)) (ψ := Ψ) (by fun_prop) hΨ

/-- The scheme of a pair, along a path of the pair. -/
theorem sums_pair [Fintype κ] {J Ω : Type} [Fintype J] {a : ℝ → (κ → ℝ) → κ → ℝ} {b : J → ℝ → (κ → ℝ) → κ → ℝ}
    {t0 : ℝ} {y0 : κ → ℝ} {g : List ℝ} (hg : g.Pairwise (· < ·)) (h0 : t0 ∈ g) (hge : ∀ u ∈ g, t0 ≤ u)
    {Z : ℝ → Ω → J → κ → ℝ} {X Y : ℝ → Ω → Bool × κ → ℝ} {z z' : Bool}
    (hX : AreSums (fun t x (c : Bool × κ) => a t (fun k => x (c.1, k)) c.2)
      (fun j t x (c : Bool × κ) => b j t (fun k => x (c.1, k)) c.2) t0 (fun c => y0 c.2) g
      (fun u ω p => pairNoise z Z u ω p.1 p.2) X X)
    (hY : AreSums (fun t x (c : Bool × κ) => a t (fun k => x (c.1, k)) c.2)
      (fun j t x (c : Bool × κ) => b j t (fun k => x (c.1, k)) c.2) t0 (fun c => y0 c.2) g
      (fun u ω p => pairNoise z' Z u ω p.1 p.2) Y Y) (ω : Ω) : ∀ u ∈ g, ∀ k, X u ω (z, k) = Y u ω (z', k) := by
  intro u hu
  refine grid_induction hg h0 (Q := fun u => ∀ k, X u ω (z, k) = Y u ω (z', k)) (fun k => ?_) (fun s t hst h0s hlt ih k => ?_)
    u hu (hge u hu)
  · rw [hX.start, hY.start]
  · rw [hX.step s t hst h0s hlt, hY.step s t hst h0s hlt]
    simp only [ih, pairNoise, if_true]

end

section
variable {κ : Type} [Fintype κ] {ids : Finset ℕ} {a : ℕ → ℝ → (κ → ℝ) → κ → ℝ} {t0 : ℝ}

/-- **C115** (paths). A simulation, with `2*n` paths with the same initial values, is repeated any number of times, each run
starting from the state of the random generator left by the previous one; sources draw from the generator increments with
symmetric laws, such as those of Wiener processes, that are independent along the first `n` paths and opposite along the
others. The values simulated along a path, for all times of the timeline, have the same joint law whatever the path,
in the first half or in the second, and the run; pairs of paths of all runs, each as a whole, are independent. -/
theorem C115_paths [Nonempty {id // id ∈ ids.erase idT}] {T L : ℝ} (hT : 0 ≤ T)
    (hL : LipschitzCoefs (a idT) (fun j : {id // id ∈ ids.erase idT} => a j.1) t0 T L) (y0 : κ → ℝ)
    {law : ℕ → ℝ → Measure (κ → ℝ)} (hpr : ∀ j ∈ ids.erase idT, ∀ h > 0, IsProbabilityMeasure (law j h))
    (hsym : ∀ j ∈ ids.erase idT, ∀ h > 0, SymmetricLaw (law j h))
    {Ω : Type} [MeasurableSpace Ω] {P : Measure Ω} [IsProbabilityMeasure P]
    {Z : ℝ → Ω → {id // id ∈ ids.erase idT} → κ → ℝ}
    (hZ : Increments P t0 (Set.Icc t0 (t0 + T)) (fun h => Measure.pi fun j : {id // id ∈ ids.erase idT} => law j.1 h) Z)
    {σ O : Type} {n : ℕ} [MeasurableSpace σ] {μ : Measure σ} [IsProbabilityMeasure μ]
    {S : SDE ℝ (Fin (2 * n) × κ → ℝ) O ℕ σ} {x0 : Fin (2 * n) × κ → ℝ}
    (hS : SDEOk S) (hdt : S.sources.lookup idT = some dtSource) (hids : (equation S).ids = ids)
    (hcoef : ∀ t x, (equation S).coef t x = .ok fun id c => a id t (fun k => x (c.1, k)) c.2)
    (hinit : S.init t0 = .ok x0) (hx0 : ∀ c, (if S.log then S.logX x0 else x0) c = y0 c.2)
    (hdraw : (equation S).DrawsNoise idT μ (fun j h => antitheticLaw n (law j.1 h)))
    {fuel : ℕ} {steps : Steps ℝ} {i0 : ℤ} {tl : TArr ℝ} {grid : List ℝ}
    (ha : Along fuel steps i0 tl grid t0) :
    ∃ (X : ℕ → ℝ → σ → Fin (2 * n) × κ → ℝ) (ss : ℕ → σ → σ), (∀ s, ss 0 s = s) ∧
      (∀ r s, S.call fuel steps i0 tl (ss r s) = .ok (tl.data.map fun t => some
        (if S.log then S.expO (S.letX t (X r t s)) else S.letX t (X r t s)), ss (r + 1) s)) ∧
      (∀ p p' : ℕ × Fin (2 * n),
        IdentDistrib (fun s (t : {t : ℝ // t ∈ tl.data ∧ t ∈ Set.Icc t0 (t0 + T)}) k => X p.1 t s (p.2, k))
          (fun s (t : {t : ℝ // t ∈ tl.data ∧ t ∈ Set.Icc t0 (t0 + T)}) k => X p'.1 t s (p'.2, k)) μ μ) ∧
      (∀ p p' : ℕ × Fin n, IdentDistrib
        (fun s (b : Bool) (t : {t : ℝ // t ∈ tl.data ∧ t ∈ Set.Icc t0 (t0 + T)}) k =>
          X p.1 t s (if b then sndHalf p.2 else fstHalf p.2, k))
        (fun s (b : Bool) (t : {t : ℝ // t ∈ tl.data ∧ t ∈ Set.Icc t0 (t0 + T)}) k =>
          X p'.1 t s (if b then sndHalf p'.2 else fstHalf p'.2, k)) μ μ) ∧
      iIndepFun (fun (p : ℕ × Fin n) s (b : Bool) (t : {t : ℝ // t ∈ tl.data ∧ t ∈ Set.Icc t0 (t0 + T)}) k =>
        X p.1 t s (if b then sndHalf p.2 else fstHalf p.2, k)) μ := by
  obtain ⟨δ, hm⟩ := exists_longest grid
  have hdraw' : (equation S).DrawsNoise idT μ (fun j h => pathsLaw (pairCells n κ) (pairLaw (law j.1 h))) := by
    intro j t dt hd
    obtain ⟨ν, h1, h2⟩ := hdraw j t dt hd
    exact ⟨ν, h1, fun h => (h2 h).trans (antitheticLaw_eq (hpr j.1 (hids ▸ j.2) dt h))⟩
  obtain ⟨X, ss, g, e0, e1, g1, g2, gI, -, g5, hd, hi, hlink⟩ :=
    paths_of_scheme (a := fun id t x (c : Bool × κ) => a id t (fun k => x (c.1, k)) c.2) hT (lipschitz_pairs hL)
      (fun c => y0 c.2) (law := fun j h => pairLaw (law j h)) (fun j hj h hh => pairLaw_prob (hpr j hj h hh))
      (pairCells n κ) hS hdt hids (fun t x => by
        rw [hcoef]
        congr 1
        funext id c
        obtain ⟨⟨i, hi⟩, k⟩ := c
        by_cases h : i < n
        · simp [pairCells, h, fstHalf]
        · have : n + (i - n) = i := by omega
          simp [pairCells, h, sndHalf, this]) hinit (fun c => by
        rw [hx0]
        simp only [pairCells, Equiv.coe_fn_mk]
        split <;> rfl) hdraw' ha hm
  have hinc := increments_pair (fun j h hh => hpr j.1 j.2 h hh) (fun j h hh => hsym j.1 j.2 h hh) hZ
  obtain ⟨Xf, f1, f2⟩ := hlink (hinc false)
  obtain ⟨Xt, t1, t2⟩ := hlink (hinc true)
  have heq := fun ω => sums_pair g1 g2 (fun u hu => (gI u hu).1) f1 t1 ω
  -- any path
  have hany : ∀ (p : ℕ × Fin n) (b : Bool), IdentDistrib
      (fun s (t : {t : ℝ // t ∈ g}) k => X p.1 t s (if b then sndHalf p.2 else fstHalf p.2, k))
      (fun ω (t : {t : ℝ // t ∈ g}) k => Xf t ω (false, k)) μ P := by
    intro p b
    cases b with
    | false =>
      exact (f2 p).comp (u := fun w (t : {t : ℝ // t ∈ g}) k => w t (false, k)) (by fun_prop)
    | true =>
      have h := (t2 p).comp (u := fun w (t : {t : ℝ // t ∈ g}) k => w t (true, k)) (by fun_prop)
      have e : (fun ω (t : {t : ℝ // t ∈ g}) k => Xf t ω (false, k)) = fun ω (t : {t : ℝ // t ∈ g}) k => Xt t ω (true, k) := by
        funext ω t k
        exact heq ω t.1 t.2 k
      rw [e]
      exact h
  have hψ : Measurable fun (w : {t : ℝ // t ∈ g} → κ → ℝ) (t : {t : ℝ // t ∈ tl.data ∧ t ∈ Set.Icc t0 (t0 + T)}) =>
      w ⟨t.1, g5 t.1 t.2.1 t.2.2⟩ := measurable_pi_lambda _ fun t => measurable_pi_apply _
  have hψ' : Measurable fun (w : {t : ℝ // t ∈ g} → Bool × κ → ℝ) (b : Bool)
      (t : {t : ℝ // t ∈ tl.data ∧ t ∈ Set.Icc t0 (t0 + T)}) k => w ⟨t.1, g5 t.1 t.2.1 t.2.2⟩ (b, k) := by fun_prop
  have hhalf : ∀ i : Fin (2 * n), ∃ (b : Bool) (j : Fin n), i = if b then sndHalf j else fstHalf j := by
    intro i
    by_cases h : i.1 < n
    · exact ⟨false, ⟨i, h⟩, rfl⟩
    · exact ⟨true, ⟨i - n, by omega⟩, by simp [sndHalf, Fin.ext_iff]; omega⟩
  refine ⟨X, ss, e0, e1, ?_, fun p p' => (hd p p').comp hψ', hi.comp _ fun _ => hψ'⟩
  rintro ⟨r, i⟩ ⟨r', i'⟩
  obtain ⟨b, j, rfl⟩ := hhalf i
  obtain ⟨b', j', rfl⟩ := hhalf i'
  exact ((hany (r, j) b).trans (hany (r', j') b').symm).comp hψ

/-- A `montecarlo` instance that cumulates a sample for each run, whatever `use`. -/
theorem cumulates_runs_use {Ω : Type} {auto : String → Option (ℝ × ℝ) → List ℝ → Py (List ℝ)} {bins : Bins ℝ}
    {range : Option (ℝ × ℝ)} {use : String} {vs c : List ℕ} {N R : ℕ} (hc : InRange vs c) (hN : 0 < N) (hR : 0 < R)
    {smp : Ω → ℕ → Batch ℝ} {mc : Ω → MC ℝ} {v : Ω → ℕ → Fin N → ℝ}
    (hs : ∀ ω r, (smp ω r).vshape = vs ∧ 0 < (smp ω r).size use ∧ (smp ω r).data use c = List.ofFn (v ω r))
    (hmc : ∀ ω, McHistory auto bins range use ((List.range R).map (smp ω)) (mc ω)) :
    Cumulates auto bins range use vs c mc (R * N) fun k ω => v ω (k / N) ⟨k % N, Nat.mod_lt k hN⟩ := by
  refine ⟨hc, fun ω => ?_⟩
  obtain ⟨R, rfl⟩ : ∃ R', R = R' + 1 := ⟨R - 1, by omega⟩
  have h := hmc ω
  have hu : Uniform vs ((List.range (R + 1)).map (smp ω)) := by
    intro x hx
    obtain ⟨r, hr, rfl⟩ := List.mem_map.1 hx
    exact (hs ω r).1
  have hne : NonEmpty use ((List.range (R + 1)).map (smp ω)) := by
    intro x hx
    obtain ⟨r, hr, rfl⟩ := List.mem_map.1 hx
    exact (hs ω r).2.1
  have hpool : pooled use ((List.range (R + 1)).map (smp ω)) c =
      (List.range ((R + 1) * N)).map fun k => v ω (k / N) ⟨k % N, Nat.mod_lt k hN⟩ := by
    rw [← flatMap_runs hN, pooled, List.flatMap_map]
    exact List.flatMap_congr fun r _ => (hs ω r).2.2
  rw [List.range_succ_eq_map, List.map_cons] at h hu hne hpool
  exact ⟨_, _, h, hu, hne, hpool⟩

/-- Means and standard errors, computed by `montecarlo` with any `use`, of values that are independent and of the same law. -/
theorem montecarlo_use {σ : Type} {n : ℕ} [MeasurableSpace σ] {μ : Measure σ} [IsProbabilityMeasure μ] (hn : 0 < n)
    {U : ℕ → σ → Fin n → ℝ} (hp : ∀ p p' : ℕ × Fin n, IdentDistrib (fun s => U p.1 s p.2) (fun s => U p'.1 s p'.2) μ μ)
    (hi' : ∀ p p' : ℕ × Fin n, p ≠ p' → IndepFun (fun s => U p.1 s p.2) (fun s => U p'.1 s p'.2) μ) (j : Fin n)
    (k1 : MemLp (fun s => U 0 s j) 2 μ) {m w : ℝ} (k2 : ∫ s, U 0 s j ∂μ = m) (hw : w = Var[fun s => U 0 s j; μ])
    {auto : String → Option (ℝ × ℝ) → List ℝ → Py (List ℝ)} {bins : Bins ℝ} {range : Option (ℝ × ℝ)} {use : String}
    {vs c : List ℕ} {smp : σ → ℕ → Batch ℝ} (hau : AutoOk auto) (hc : InRange vs c)
    (hdata : ∀ s r, (smp s r).vshape = vs ∧ 0 < (smp s r).size use ∧ (smp s r).data use c = List.ofFn (U r s))
    {R : ℕ} (hR : R > 0) {mc : σ → MC ℝ} (hmc : ∀ s, McHistory auto bins range use ((List.range R).map (smp s)) (mc s)) :
    ∃ E : σ → ℝ, (∀ s, ∃ m, (mc s).mean = some m ∧ m.get c = some (E s)) ∧ MemLp E 2 μ ∧
      ∫ s, E s ∂μ = m ∧ (∀ x, ∫ s, (E s - x) ^ 2 ∂μ = w / (R * n) + (m - x) ^ 2) ∧
      (2 ≤ R * n → ∃ D : σ → ℝ, (∀ s, ∃ a, (mc s).stderr = .ok a ∧ a.get c = some (D s)) ∧
        ∫ s, D s ^ 2 ∂μ = w / (R * n)) := by
  let f : ℕ → ℕ × Fin n := fun k => (k / n, ⟨k % n, Nat.mod_lt k hn⟩)
  have hf : Function.Injective f := by
    intro k k' h
    rw [Prod.mk.injEq, Fin.mk.injEq] at h
    rw [← Nat.div_add_mod k n, ← Nat.div_add_mod k' n, h.1, h.2]
  let F : ℕ → σ → ℝ := fun k s => U (f k).1 s (f k).2
  have hI : Pairwise fun k k' => IndepFun (F k) (F k') μ := fun k k' hkk =>
    hi' _ _ fun h => hkk (hf h)
  have hid : ∀ k, IdentDistrib (F k) (fun s => U 0 s j) μ μ := fun k => hp (f k) (0, j)
  have hF0 : MemLp (F 0) 2 μ := (hid 0).memLp_iff.2 k1
  have hun := uncorrelated_of_iid (N := R * n) hF0 hI fun k => (hid k).trans (hid 0).symm
  have hm0 : ∫ s, F 0 s ∂μ = m := (hid 0).integral_eq.trans k2
  have hv0 : Var[F 0; μ] = w := (hid 0).variance_eq.trans hw.symm
  rw [hm0, hv0] at hun
  have hcum := cumulates_runs_use hc hn hR (v := fun s r => U r s) hdata hmc
  obtain ⟨u1, u2, u3, -⟩ := uncorrelated_mean (Nat.mul_pos hR hn) hun
  rw [Nat.cast_mul] at u1 u2 u3
  refine ⟨_, fun s => ?_, u1, u2, fun x => ?_, fun h2 => ?_⟩
  · have := (cumulates_values hau hcum s).2.2.1
    rw [Nat.cast_mul] at this
    exact this
  · rw [sq_error_eq x u1, u2, u3]
  · have := (C68_unbiased hau hcum hun).2 h2
    rw [Nat.cast_mul] at this
    exact this

/-- Averages of two variables of the same law. -/
theorem variance_average_le {σ : Type} [MeasurableSpace σ] {μ : Measure σ} [IsProbabilityMeasure μ] {A B : σ → ℝ}
    (hA : MemLp A 2 μ) (hAB : IdentDistrib B A μ μ) :
    MemLp (fun s => (A s + B s) / 2) 2 μ ∧ ∫ s, (A s + B s) / 2 ∂μ = ∫ s, A s ∂μ ∧
      Var[fun s => (A s + B s) / 2; μ] ≤ Var[A; μ] := by
  have hB : MemLp B 2 μ := hAB.memLp_iff.2 hA
  have h1 : MemLp (fun s => (A s + B s) / 2) 2 μ := by
    have := (hA.add hB).const_mul (1 / 2 : ℝ)
    refine this.congr_norm ?_ (ae_of_all _ fun s => ?_)
    · exact ((hA.add hB).aestronglyMeasurable.const_mul (1 / 2)).congr (ae_of_all _ fun s => by
        simp only [Pi.add_apply]; ring)
    · simp only [Pi.add_apply]; congr 1; ring
  have hm : ∫ s, (A s + B s) / 2 ∂μ = ∫ s, A s ∂μ := by
    rw [integral_div, integral_add (hA.integrable (by norm_num)) (hB.integrable (by norm_num)), hAB.integral_eq]
    ring
  refine ⟨h1, hm, ?_⟩
  set m := ∫ s, A s ∂μ
  have v1 := sq_error_eq m h1
  have v2 := sq_error_eq m hA
  have v3 := sq_error_eq m hB
  rw [hm, sub_self] at v1
  rw [sub_self] at v2
  rw [hAB.integral_eq, hAB.variance_eq, sub_self] at v3
  have i1 : Integrable (fun s => (A s - m) ^ 2) μ := (hA.sub (memLp_const m)).integrable_sq
  have i2 : Integrable (fun s => (B s - m) ^ 2) μ := (hB.sub (memLp_const m)).integrable_sq
  have i3 : Integrable (fun s => ((A s + B s) / 2 - m) ^ 2) μ := (h1.sub (memLp_const m)).integrable_sq
  have hle : ∫ s, ((A s + B s) / 2 - m) ^ 2 ∂μ ≤ ∫ s, ((A s - m) ^ 2 + (B s - m) ^ 2) / 2 ∂μ :=
    integral_mono i3 ((i1.add i2).div_const 2) fun s => by
      show ((A s + B s) / 2 - m) ^ 2 ≤ ((A s - m) ^ 2 + (B s - m) ^ 2) / 2
      nlinarith [sq_nonneg (A s - B s)]
  rw [integral_div, integral_add i1 i2] at hle
  linarith

/-- **C115** (`montecarlo`). The mean and the standard error computed by `montecarlo` with `use='even'`, in a component of
the samples cumulated, one for each run, with the values, for each path, of a function `φ` of the values simulated for all
times of the timeline. Let `m` and `v` be the mean and the variance of the function along any path `i`, and `w` the
variance of its average over any pair `j`: then `w` is at most `v`. The mean square error of the mean, as an estimate of
any number, is exactly `w` divided by the number of pairs in all runs, plus the square of its distance from `m`; the mean of
the square of the standard error is exactly the first of these. -/
theorem C115_montecarlo [Nonempty {id // id ∈ ids.erase idT}] {T L : ℝ} (hT : 0 ≤ T)
    (hL : LipschitzCoefs (a idT) (fun j : {id // id ∈ ids.erase idT} => a j.1) t0 T L) (y0 : κ → ℝ)
    {law : ℕ → ℝ → Measure (κ → ℝ)} (hpr : ∀ j ∈ ids.erase idT, ∀ h > 0, IsProbabilityMeasure (law j h))
    (hsym : ∀ j ∈ ids.erase idT, ∀ h > 0, SymmetricLaw (law j h))
    {Ω : Type} [MeasurableSpace Ω] {P : Measure Ω} [IsProbabilityMeasure P]
    {Z : ℝ → Ω → {id // id ∈ ids.erase idT} → κ → ℝ}
    (hZ : Increments P t0 (Set.Icc t0 (t0 + T)) (fun h => Measure.pi fun j : {id // id ∈ ids.erase idT} => law j.1 h) Z)
    {σ O : Type} {n : ℕ} [MeasurableSpace σ] {μ : Measure σ} [IsProbabilityMeasure μ]
    {S : SDE ℝ (Fin (2 * n) × κ → ℝ) O ℕ σ} {x0 : Fin (2 * n) × κ → ℝ} (hn : 0 < n)
    (hS : SDEOk S) (hdt : S.sources.lookup idT = some dtSource) (hids : (equation S).ids = ids)
    (hcoef : ∀ t x, (equation S).coef t x = .ok fun id c => a id t (fun k => x (c.1, k)) c.2)
    (hinit : S.init t0 = .ok x0) (hx0 : ∀ c, (if S.log then S.logX x0 else x0) c = y0 c.2)
    (hdraw : (equation S).DrawsNoise idT μ (fun j h => antitheticLaw n (law j.1 h)))
    {fuel : ℕ} {steps : Steps ℝ} {i0 : ℤ} {tl : TArr ℝ} {grid : List ℝ}
    (ha : Along fuel steps i0 tl grid t0) :
    ∃ (X : ℕ → ℝ → σ → Fin (2 * n) × κ → ℝ) (ss : ℕ → σ → σ), (∀ s, ss 0 s = s) ∧
      (∀ r s, S.call fuel steps i0 tl (ss r s) = .ok (tl.data.map fun t => some
        (if S.log then S.expO (S.letX t (X r t s)) else S.letX t (X r t s)), ss (r + 1) s)) ∧
      (∀ r i, AEMeasurable (fun s (t : {t : ℝ // t ∈ tl.data ∧ t ∈ Set.Icc t0 (t0 + T)}) k => X r t s (i, k)) μ) ∧
      ∀ (φ : ({t : ℝ // t ∈ tl.data ∧ t ∈ Set.Icc t0 (t0 + T)} → κ → ℝ) → ℝ), Measurable φ →
        ∀ (i : Fin (2 * n)) (j : Fin n), MemLp (fun s => φ fun t k => X 0 t s (i, k)) 2 μ → ∀ {m v w : ℝ},
        m = ∫ s, φ (fun t k => X 0 t s (i, k)) ∂μ → v = Var[fun s => φ fun t k => X 0 t s (i, k); μ] →
        w = Var[fun s => (φ (fun t k => X 0 t s (fstHalf j, k)) + φ (fun t k => X 0 t s (sndHalf j, k))) / 2; μ] →
        w ≤ v ∧ ∀ {auto : String → Option (ℝ × ℝ) → List ℝ → Py (List ℝ)} {bins : Bins ℝ} {range : Option (ℝ × ℝ)}
          {vs c : List ℕ} {smp : σ → ℕ → Batch ℝ}, AutoOk auto → InRange vs c →
          (∀ s r, (smp s r).vshape = vs ∧
            (smp s r).raw c = List.ofFn fun i => φ fun t k => X r t s (i, k)) →
          ∀ R > 0, ∀ {mc : σ → MC ℝ}, (∀ s, McHistory auto bins range "even" ((List.range R).map (smp s)) (mc s)) →
            ∃ E : σ → ℝ, (∀ s, ∃ m, (mc s).mean = some m ∧ m.get c = some (E s)) ∧ MemLp E 2 μ ∧
              ∫ s, E s ∂μ = m ∧ (∀ x, ∫ s, (E s - x) ^ 2 ∂μ = w / (R * n) + (m - x) ^ 2) ∧
              (2 ≤ R * n → ∃ D : σ → ℝ, (∀ s, ∃ a, (mc s).stderr = .ok a ∧ a.get c = some (D s)) ∧
                ∫ s, D s ^ 2 ∂μ = w / (R * n)) := by
  obtain ⟨X, ss, e0, e1, hd, hp, hi'⟩ := C115_paths hT hL y0 hpr hsym hZ hS hdt hids hcoef hinit hx0 hdraw ha
  refine ⟨X, ss, e0, e1, fun r i => (hd (r, i) (r, i)).aemeasurable_fst, ?_⟩
  intro φ hφ i j hi m v w hm hv hw
  have hAi : IdentDistrib (fun s => φ fun t k => X 0 t s (fstHalf j, k)) (fun s => φ fun t k => X 0 t s (i, k)) μ μ :=
    (hd (0, fstHalf j) (0, i)).comp hφ
  have hBA : IdentDistrib (fun s => φ fun t k => X 0 t s (sndHalf j, k))
      (fun s => φ fun t k => X 0 t s (fstHalf j, k)) μ μ := (hd (0, sndHalf j) (0, fstHalf j)).comp hφ
  obtain ⟨k1, k2, k3⟩ := variance_average_le (hAi.memLp_iff.2 hi) hBA
  rw [hAi.integral_eq, ← hm] at k2
  rw [hAi.variance_eq, ← hv, ← hw] at k3
  refine ⟨k3, ?_⟩
  intro auto bins range vs c smp hau hc hs R hR mc hmc
  -- averages over pairs
  let U : ℕ → σ → Fin n → ℝ := fun r s j =>
    (φ (fun t k => X r t s (fstHalf j, k)) + φ (fun t k => X r t s (sndHalf j, k))) / 2
  have hΦ : Measurable fun x : Bool → {t : ℝ // t ∈ tl.data ∧ t ∈ Set.Icc t0 (t0 + T)} → κ → ℝ =>
      (φ (x false) + φ (x true)) / 2 := by fun_prop
  have hdata : ∀ s r, (smp s r).vshape = vs ∧ 0 < (smp s r).size "even" ∧ (smp s r).data "even" c = List.ofFn (U r s) := by
    intro s r
    obtain ⟨h1, h2⟩ := hs s r
    refine ⟨h1, ?_, ?_⟩
    · have h3 := congrArg List.length h2
      rw [List.length_ofFn] at h3
      have : ((smp s r).raw c).length = (smp s r).rawSize := by
        unfold Batch.raw Batch.rawSize
        split <;> simp
      have h4 : (smp s r).size "even" = (smp s r).rawSize / 2 := by simp [Batch.size]
      omega
    · have h3 : (smp s r).raw c = (List.range (2 * n)).map fun i =>
          if h : i < 2 * n then φ (fun t k => X r t s (⟨i, h⟩, k)) else 0 := by
        rw [h2]
        apply List.ext_getElem
        · simp
        · intro i h1 h2
          have : i < 2 * n := by simpa using h1
          simp [this]
      rw [(C38_values _ c h3).1]
      apply List.ext_getElem
      · simp
      · intro i h1 h2
        have : i < n := by simpa using h1
        simp only [List.getElem_map, List.getElem_range, List.getElem_ofFn, U, fstHalf, sndHalf]
        rw [dif_pos (by omega), dif_pos (by omega)]
  exact montecarlo_use hn (U := U) (fun p p' => (hp p p').comp hΦ) (fun p p' h => (hi'.indepFun h).comp hΦ hΦ) j k1 k2 hw
    hau hc hdata hR hmc

/-- **C115** (`use='odd'`). The mean computed by `montecarlo` with `use='odd'`, in the same setting, is zero in the mean, and
its mean square is the variance `w` of half differences over any pair `j`, divided by the number of pairs in all runs; the
mean of the square of the standard error is the same. -/
theorem C115_odd [Nonempty {id // id ∈ ids.erase idT}] {T L : ℝ} (hT : 0 ≤ T)
    (hL : LipschitzCoefs (a idT) (fun j : {id // id ∈ ids.erase idT} => a j.1) t0 T L) (y0 : κ → ℝ)
    {law : ℕ → ℝ → Measure (κ → ℝ)} (hpr : ∀ j ∈ ids.erase idT, ∀ h > 0, IsProbabilityMeasure (law j h))
    (hsym : ∀ j ∈ ids.erase idT, ∀ h > 0, SymmetricLaw (law j h))
    {Ω : Type} [MeasurableSpace Ω] {P : Measure Ω} [IsProbabilityMeasure P]
    {Z : ℝ → Ω → {id // id ∈ ids.erase idT} → κ → ℝ}
    (hZ : Increments P t0 (Set.Icc t0 (t0 + T)) (fun h => Measure.pi fun j : {id // id ∈ ids.erase idT} => law j.1 h) Z)
    {σ O : Type} {n : ℕ} [MeasurableSpace σ] {μ : Measure σ} [IsProbabilityMeasure μ]
    {S : SDE ℝ (Fin (2 * n) × κ → ℝ) O ℕ σ} {x0 : Fin (2 * n) × κ → ℝ} (hn : 0 < n)
    (hS : SDEOk S) (hdt : S.sources.lookup idT = some dtSource) (hids : (equation S).ids = ids)
    (hcoef : ∀ t x, (equation S).coef t x = .ok fun id c => a id t (fun k => x (c.1, k)) c.2)
    (hinit : S.init t0 = .ok x0) (hx0 : ∀ c, (if S.log then S.logX x0 else x0) c = y0 c.2)
    (hdraw : (equation S).DrawsNoise idT μ (fun j h => antitheticLaw n (law j.1 h)))
    {fuel : ℕ} {steps : Steps ℝ} {i0 : ℤ} {tl : TArr ℝ} {grid : List ℝ}
    (ha : Along fuel steps i0 tl grid t0) :
    ∃ (X : ℕ → ℝ → σ → Fin (2 * n) × κ → ℝ) (ss : ℕ → σ → σ), (∀ s, ss 0 s = s) ∧
      (∀ r s, S.call fuel steps i0 tl (ss r s) = .ok (tl.data.map fun t => some
        (if S.log then S.expO (S.letX t (X r t s)) else S.letX t (X r t s)), ss (r + 1) s)) ∧
      (∀ r i, AEMeasurable (fun s (t : {t : ℝ // t ∈ tl.data ∧ t ∈ Set.Icc t0 (t0 + T)}) k => X r t s (i, k)) μ) ∧
      ∀ (φ : ({t : ℝ // t ∈ tl.data ∧ t ∈ Set.Icc t0 (t0 + T)} → κ → ℝ) → ℝ), Measurable φ →
        ∀ (j : Fin n), MemLp (fun s => φ fun t k => X 0 t s (fstHalf j, k)) 2 μ → ∀ {w : ℝ},
        w = Var[fun s => (φ (fun t k => X 0 t s (fstHalf j, k)) - φ (fun t k => X 0 t s (sndHalf j, k))) / 2; μ] →
        ∀ {auto : String → Option (ℝ × ℝ) → List ℝ → Py (List ℝ)} {bins : Bins ℝ} {range : Option (ℝ × ℝ)}
          {vs c : List ℕ} {smp : σ → ℕ → Batch ℝ}, AutoOk auto → InRange vs c →
          (∀ s r, (smp s r).vshape = vs ∧
            (smp s r).raw c = List.ofFn fun i => φ fun t k => X r t s (i, k)) →
          ∀ R > 0, ∀ {mc : σ → MC ℝ}, (∀ s, McHistory auto bins range "odd" ((List.range R).map (smp s)) (mc s)) →
            ∃ E : σ → ℝ, (∀ s, ∃ m, (mc s).mean = some m ∧ m.get c = some (E s)) ∧ MemLp E 2 μ ∧
              ∫ s, E s ∂μ = 0 ∧ ∫ s, E s ^ 2 ∂μ = w / (R * n) ∧
              (2 ≤ R * n → ∃ D : σ → ℝ, (∀ s, ∃ a, (mc s).stderr = .ok a ∧ a.get c = some (D s)) ∧
                ∫ s, D s ^ 2 ∂μ = w / (R * n)) := by
  obtain ⟨X, ss, e0, e1, hd, hp, hi'⟩ := C115_paths hT hL y0 hpr hsym hZ hS hdt hids hcoef hinit hx0 hdraw ha
  refine ⟨X, ss, e0, e1, fun r i => (hd (r, i) (r, i)).aemeasurable_fst, ?_⟩
  intro φ hφ j hA w hw auto bins range vs c smp hau hc hs R hR mc hmc
  have hBA : IdentDistrib (fun s => φ fun t k => X 0 t s (sndHalf j, k))
      (fun s => φ fun t k => X 0 t s (fstHalf j, k)) μ μ := (hd (0, sndHalf j) (0, fstHalf j)).comp hφ
  have hB := hBA.memLp_iff.2 hA
  have k1 : MemLp (fun s => (φ (fun t k => X 0 t s (fstHalf j, k)) - φ (fun t k => X 0 t s (sndHalf j, k))) / 2) 2 μ := by
    simp only [div_eq_mul_inv]
    exact (hA.sub hB).mul_const _
  have k2 : ∫ s, (φ (fun t k => X 0 t s (fstHalf j, k)) - φ (fun t k => X 0 t s (sndHalf j, k))) / 2 ∂μ = 0 := by
    rw [integral_div, integral_sub (hA.integrable (by norm_num)) (hB.integrable (by norm_num)), hBA.integral_eq]
    simp
  -- half differences
  let U : ℕ → σ → Fin n → ℝ := fun r s j =>
    (φ (fun t k => X r t s (fstHalf j, k)) - φ (fun t k => X r t s (sndHalf j, k))) / 2
  have hΦ : Measurable fun x : Bool → {t : ℝ // t ∈ tl.data ∧ t ∈ Set.Icc t0 (t0 + T)} → κ → ℝ =>
      (φ (x false) - φ (x true)) / 2 := by fun_prop
  have hdata : ∀ s r, (smp s r).vshape = vs ∧ 0 < (smp s r).size "odd" ∧ (smp s r).data "odd" c = List.ofFn (U r s) := by
    intro s r
    obtain ⟨h1, h2⟩ := hs s r
    refine ⟨h1, ?_, ?_⟩
    · have h3 := congrArg List.length h2
      rw [List.length_ofFn] at h3
      have : ((smp s r).raw c).length = (smp s r).rawSize := by
        unfold Batch.raw Batch.rawSize
        split <;> simp
      have h4 : (smp s r).size "odd" = (smp s r).rawSize / 2 := by simp [Batch.size]
      omega
    · have h3 : (smp s r).raw c = (List.range (2 * n)).map fun i =>
          if h : i < 2 * n then φ (fun t k => X r t s (⟨i, h⟩, k)) else 0 := by
        rw [h2]
        apply List.ext_getElem
        · simp
        · intro i h1 h2
          have : i < 2 * n := by simpa using h1
          simp [this]
      rw [(C38_values _ c h3).2]
      apply List.ext_getElem
      · simp
      · intro i h1 h2
        have : i < n := by simpa using h1
        simp only [List.getElem_map, List.getElem_range, List.getElem_ofFn, U, fstHalf, sndHalf]
        rw [dif_pos (by omega), dif_pos (by omega)]
  obtain ⟨E, f1, f2, f3, f4, f5⟩ := montecarlo_use hn (U := U) (fun p p' => (hp p p').comp hΦ) (fun p p' h => (hi'.indepFun h).comp hΦ hΦ) j k1 k2 hw
    hau hc hdata hR hmc
  refine ⟨E, f1, f2, f3, ?_, f5⟩
  have := f4 0
  simpa using this

end

/-! ### `odd_wiener_source` -/

/-- **C115** (sources). The increments of `odd_wiener_source`, without correlations, over a time step `dt`, along `2*n`
paths: along the first `n` they are independent and normal, with mean zero and variance `|dt|`, along the others they
are the opposite. -/
theorem C115_odd_wiener {σ : Type} [MeasurableSpace σ] {μ : Measure σ} [IsProbabilityMeasure μ] {rng : Rng σ}
    (hr : NormalDraws μ rng) {vshape : List ℕ} {n N : ℕ} {anti : Arr ℝ → Arr ℝ → σ → Py (Arr ℝ × σ)}
    (h : antithetics (fun k => wienerNew k vshape .none .none) WienerSrc.paths (fun W => wienerCall W rng)
      (fun z => -z) (2 * n) = .ok (N, anti)) (t dt : ℝ) :
    DrawsLaw μ (antitheticLaw n (Measure.pi fun _ : Cells vshape => gaussianReal 0 |dt|.toNNReal))
      (cellsSource (N := 2 * n) (fun k : Cells vshape => k.1) anti t dt) := by
  obtain ⟨-, -, hok⟩ := C22_odd_wiener vshape .none .none rng n
  obtain ⟨anti', h1, h2⟩ := hok ⟨n, vshape, .none⟩ rfl
  rw [h1] at h
  simp only [Except.ok.injEq, Prod.mk.injEq] at h
  obtain ⟨-, rfl⟩ := h
  let φ : (Cells (vshape ++ [n]) → ℝ) → Fin (2 * n) × Cells vshape → ℝ := fun z c =>
    if h : c.1.1 < n then z ((cellPath vshape n).symm (⟨c.1, h⟩, c.2))
    else -z ((cellPath vshape n).symm (⟨c.1 - n, by omega⟩, c.2))
  have hφ : Measurable φ := by
    refine measurable_pi_lambda _ fun c => ?_
    by_cases h : c.1.1 < n
    · simp only [φ, h, dif_pos]; fun_prop
    · simp only [φ, h, dif_neg, not_false_eq_true]; fun_prop
  have hw : DrawsLaw μ (Measure.pi fun _ : Cells (vshape ++ [n]) => gaussianReal 0 |dt|.toNNReal)
      (wienerCells (vshape ++ [n]) ⟨n, vshape, .none⟩ rng t dt) := by
    convert C66_noise (W := ⟨n, vshape, .none⟩) rfl hr t dt
  have hd := hw.map hφ
  have hlaw : (Measure.pi fun _ : Cells (vshape ++ [n]) => gaussianReal 0 |dt|.toNNReal).map φ =
      antitheticLaw n (Measure.pi fun _ : Cells vshape => gaussianReal 0 |dt|.toNNReal) := by
    rw [pi_paths (cellPath vshape n), pathsLaw, Measure.map_map hφ (by fun_prop), antitheticLaw]
    congr 1
    funext z c
    simp only [Function.comp_apply, φ, Equiv.apply_symm_apply]
  rw [hlaw] at hd
  refine (congrArg (DrawsLaw μ _) ?_).mp hd
  funext s
  obtain ⟨h3, h4⟩ := h2 (.scalar t) (.scalar dt) s
  unfold cellsSource wienerCells
  cases hz : wienerCall ⟨n, vshape, .none⟩ rng (.scalar t) (.scalar dt) s with
  | error e => rw [h3 e hz]; rfl
  | ok r =>
    obtain ⟨x, sh, hx, -, -, hxv⟩ := h4 r.1 r.2 hz
    rw [hx]
    simp only [Except.map, Except.ok.injEq, Prod.mk.injEq, and_true]
    funext c
    simp only [φ]
    split
    · next hc => exact ((hxv c.2.1).1 c.1.1 hc).1.symm
    · next hc =>
      obtain ⟨e1, e2⟩ := (hxv c.2.1).1 (c.1.1 - n) (by omega)
      have e3 : n + (c.1.1 - n) = c.1.1 := by omega
      rw [e3, e1] at e2
      exact e2.symm

/-- Normal variates have symmetric laws. -/
theorem symmetric_normal {κ : Type} [Fintype κ] (v : NNReal) :
    SymmetricLaw (Measure.pi fun _ : κ => gaussianReal 0 v) := by
  have h : (gaussianReal 0 v).map (fun x => -x) = gaussianReal 0 v := by
    rw [gaussianReal_map_neg, neg_zero]
  have : IsProbabilityMeasure ((gaussianReal 0 v).map fun x => -x) := by rw [h]; infer_instance
  have h1 := Measure.pi_map_pi (μ := fun _ : κ => gaussianReal 0 v) (f := fun _ x => -x)
    fun _ => measurable_neg.aemeasurable
  simp only [h] at h1
  exact h1

/-! ### Example -/

/-- The call of an `odd_wiener_source` with six paths and two components. -/
theorem exOddNormal : ∃ anti, antithetics (fun k => wienerNew k [2] .none .none) WienerSrc.paths
    (fun W => wienerCall W (itemRng ℝ)) (fun z => -z) (2 * 3) = .ok (2 * 3, anti) := by
  obtain ⟨-, -, hok⟩ := C22_odd_wiener [2] .none .none (itemRng ℝ) 3
  obtain ⟨anti, h, -⟩ := hok ⟨3, [2], .none⟩ rfl
  exact ⟨anti, h⟩

/-- Coefficients of a lognormal process, once logarithms are taken. -/
noncomputable def exLogCoef (id : ℕ) : ℝ := if id = idT then 1 / 20 - 1 / 5 * (1 / 5) / 2 else if id = idW then 1 / 5 else 0

instance : Nonempty {id // id ∈ ({idT, idW} : Finset ℕ).erase idT} := ⟨⟨idW, by simp [idT, idW]⟩⟩

/-- A lognormal process with six paths and two components. -/
noncomputable abbrev exLogOdd (anti : Arr ℝ → Arr ℝ → (ℕ → Item ℝ) → Py (Arr ℝ × (ℕ → Item ℝ))) :
    SDE ℝ (Fin (2 * 3) × Cells [2] → ℝ) (Fin (2 * 3) × Cells [2] → ℝ) ℕ (ℕ → Item ℝ) :=
  lognormSDE (fun _ => 10) (fun _ _ => 1 / 20) (fun _ _ => 1 / 5) (cellsSource (N := 2 * 3) (fun k : Cells [2] => k.1) anti)

section
variable {anti : Arr ℝ → Arr ℝ → (ℕ → Item ℝ) → Py (Arr ℝ × (ℕ → Item ℝ))}

theorem exLogOdd_ok : SDEOk (exLogOdd anti) :=
  ⟨by simp [DictOk, lognormSDE, idT, idW],
    by intro t x A hA; simp [lognormSDE] at hA; subst hA; simp [DictOk, idT, idW]⟩

theorem exLogOdd_coef (t : ℝ) (x : Fin (2 * 3) × Cells [2] → ℝ) :
    (equation (exLogOdd anti)).coef t x = .ok fun id _ => exLogCoef id := by
  have : ¬ ∃ a ∈ [idT, idW], a ∉ [idT, idW] := by simp
  simp only [equation, lognormSDE, Bind.bind, Except.bind, Pure.pure, Except.pure, List.map_cons, List.map_nil, this, if_false]
  congr 1
  funext id c
  unfold exLogCoef
  by_cases e : id = idT
  · subst e
    simp [entry, List.lookup]
  · have e1 : (id == idT) = false := by simpa using e
    by_cases e' : id = idW
    · subst e'
      simp [entry, List.lookup, idT, idW]
    · have e2 : (id == idW) = false := by simpa using e'
      simp [entry, List.lookup, e1, e2, e, e']

theorem exLogOdd_draws (hanti : antithetics (fun k => wienerNew k [2] .none .none) WienerSrc.paths
      (fun W => wienerCall W (itemRng ℝ)) (fun z => -z) (2 * 3) = .ok (2 * 3, anti)) :
    (equation (exLogOdd anti)).DrawsNoise idT exState
      (fun _ h => antitheticLaw 3 (Measure.pi fun _ : Cells [2] => gaussianReal 0 h.toNNReal)) := by
  rintro ⟨j, hj⟩ t dt hdt
  have hjw : j = idW := by
    simp [equation, lognormSDE] at hj
    tauto
  subst hjw
  refine ⟨_, C115_odd_wiener (itemRng_draws stdNormal) hanti t dt, fun hpos => ?_⟩
  rw [abs_of_pos hpos]

end

theorem exOddNoise : ∃ (Ω : Type) (_ : MeasurableSpace Ω) (P : Measure Ω)
    (Z : ℝ → Ω → {id // id ∈ ({idT, idW} : Finset ℕ).erase idT} → Cells [2] → ℝ), IsProbabilityMeasure P ∧
    Increments P 1 (Set.Icc 1 (1 + 1)) (fun h => Measure.pi fun _ : {id // id ∈ ({idT, idW} : Finset ℕ).erase idT} =>
      Measure.pi fun _ : Cells [2] => gaussianReal 0 h.toNNReal) Z := by
  obtain ⟨Ω, mΩ, P, Z, hP, hI, -⟩ := exists_noise_paths (ι := Cells [2]) (({idT, idW} : Finset ℕ).erase idT)
    (by norm_num : (0 : ℝ) ≤ 3) exJumpLaw (memLp_id_gaussianReal 2)
  have hlaw : ∀ h, (Measure.pi fun j : {id // id ∈ ({idT, idW} : Finset ℕ).erase idT} =>
      jumpNoise (ι := Cells [2]) idJ 3 exJumpLaw j h) =
      Measure.pi fun _ : {id // id ∈ ({idT, idW} : Finset ℕ).erase idT} =>
        Measure.pi fun _ : Cells [2] => gaussianReal 0 h.toNNReal := by
    intro h
    congr 1
    funext ⟨j, hj⟩
    have : j ≠ idJ := by
      rintro rfl
      revert hj
      decide
    simp only [jumpNoise, if_neg this]
  simp only [hlaw] at hI
  exact ⟨Ω, mΩ, P, Z, hP, hI⟩

/-- The process with the increments of `odd_wiener_source`: values of all paths have the same law. -/
example : ∃ (anti : Arr ℝ → Arr ℝ → (ℕ → Item ℝ) → Py (Arr ℝ × (ℕ → Item ℝ)))
    (X : ℕ → ℝ → (ℕ → Item ℝ) → Fin (2 * 3) × Cells [2] → ℝ) (ss : ℕ → (ℕ → Item ℝ) → ℕ → Item ℝ),
    antithetics (fun k => wienerNew k [2] .none .none) WienerSrc.paths
      (fun W => wienerCall W (itemRng ℝ)) (fun z => -z) (2 * 3) = .ok (2 * 3, anti) ∧
    (∀ r s, (exLogOdd anti).call 10 .none 0 ⟨[3], [1, 3 / 2, 2]⟩ (ss r s) =
      .ok ([some (npExp (X r 1 s)), some (npExp (X r (3 / 2) s)), some (npExp (X r 2 s))], ss (r + 1) s)) ∧
    (∀ p p' : ℕ × Fin (2 * 3), IdentDistrib (fun s => X p.1 2 s (p.2, ⟨[1], by decide⟩))
      (fun s => X p'.1 2 s (p'.2, ⟨[1], by decide⟩)) exState exState) := by
  obtain ⟨anti, hanti⟩ := exOddNormal
  obtain ⟨Ω, mΩ, P, Z, hP, hI⟩ := exOddNoise
  obtain ⟨X, ss, -, e1, e2, -⟩ := C115_paths (n := 3) (ids := {idT, idW}) (a := fun id _ _ _ => exLogCoef id) (t0 := 1) (T := 1)
    (L := 0) zero_le_one (by intro t _ u _ x y; simp) (fun _ : Cells [2] => Real.log 10)
    (law := fun _ h => Measure.pi fun _ => gaussianReal 0 h.toNNReal) (fun _ _ _ _ => inferInstance)
    (fun _ _ h _ => symmetric_normal h.toNNReal) hI (S := exLogOdd anti) (μ := exState) exLogOdd_ok rfl
    (by simp [equation, lognormSDE]) exLogOdd_coef rfl (fun c => rfl) (exLogOdd_draws hanti) exAlongS
  refine ⟨anti, X, ss, hanti, e1, fun p p' => ?_⟩
  exact (e2 p p').comp (u := fun w : {t : ℝ // t ∈ [1, 3 / 2, 2] ∧ t ∈ Set.Icc (1 : ℝ) (1 + 1)} → Cells [2] → ℝ =>
    w ⟨2, by simp, by norm_num⟩ ⟨[1], by decide⟩) (by fun_prop)

/-- A sample of six values. -/
noncomputable def exSix (v : Fin (2 * 3) → ℝ) : Batch ℝ :=
  ⟨⟨[6], fun c => if h : c.getD 0 0 < 2 * 3 then v ⟨c.getD 0 0, h⟩ else 0⟩, 0⟩

/-- The same process: the frequency, by `montecarlo` with `use='even'`, with which the logarithm of the second component is
greater at 2 than at 3/2. -/
example : ∃ (anti : Arr ℝ → Arr ℝ → (ℕ → Item ℝ) → Py (Arr ℝ × (ℕ → Item ℝ)))
    (X : ℕ → ℝ → (ℕ → Item ℝ) → Fin (2 * 3) × Cells [2] → ℝ) (mc : (ℕ → Item ℝ) → MC ℝ) (E : (ℕ → Item ℝ) → ℝ),
    (∀ s, McHistory exAuto .none none "even" ((List.range 1).map fun r => exSix fun i =>
      if X r (3 / 2) s (i, ⟨[1], by decide⟩) < X r 2 s (i, ⟨[1], by decide⟩) then 1 else 0) (mc s)) ∧
    (∀ s, ∃ s', (exLogOdd anti).call 10 .none 0 ⟨[3], [1, 3 / 2, 2]⟩ s =
      .ok ([some (npExp (X 0 1 s)), some (npExp (X 0 (3 / 2) s)), some (npExp (X 0 2 s))], s')) ∧
    (∀ s, ∃ m, (mc s).mean = some m ∧ m.get [] = some (E s)) ∧
    ∫ s, E s ∂exState = ∫ s, (if X 0 (3 / 2) s (0, ⟨[1], by decide⟩) < X 0 2 s (0, ⟨[1], by decide⟩) then 1 else 0) ∂exState := by
  obtain ⟨anti, hanti⟩ := exOddNormal
  obtain ⟨Ω, mΩ, P, Z, hP, hI⟩ := exOddNoise
  obtain ⟨X, ss, e0, e1, e2, e3⟩ := C115_montecarlo (n := 3) (ids := {idT, idW}) (a := fun id _ _ _ => exLogCoef id)
    (t0 := 1) (T := 1) (L := 0) zero_le_one (by intro t _ u _ x y; simp) (fun _ : Cells [2] => Real.log 10)
    (law := fun _ h => Measure.pi fun _ => gaussianReal 0 h.toNNReal) (fun _ _ _ _ => inferInstance)
    (fun _ _ h _ => symmetric_normal h.toNNReal) hI (S := exLogOdd anti) (μ := exState) (by norm_num) exLogOdd_ok rfl
    (by simp [equation, lognormSDE]) exLogOdd_coef rfl (fun c => rfl) (exLogOdd_draws hanti) exAlongS
  have hφ : Measurable fun w : {t : ℝ // t ∈ [1, 3 / 2, 2] ∧ t ∈ Set.Icc (1 : ℝ) (1 + 1)} → Cells [2] → ℝ =>
      if w ⟨3 / 2, by norm_num⟩ ⟨[1], by decide⟩ < w ⟨2, by norm_num⟩ ⟨[1], by decide⟩ then (1 : ℝ) else 0 :=
    Measurable.ite (measurableSet_lt (by fun_prop) (by fun_prop)) measurable_const measurable_const
  choose mc hmc using fun s => C36_accepts_first exAuto_ok (bins := .none) (range := none) (use := "even") (.inl rfl) (by simp)
    (b := exSix fun i => if X 0 (3 / 2) s (i, ⟨[1], by decide⟩) < X 0 2 s (i, ⟨[1], by decide⟩) then 1 else 0)
    (by simp [Batch.Valid, Batch.rawSize, exSix, Batch.ax])
  have hh : ∀ s, McHistory exAuto .none none "even" ((List.range 1).map fun r => exSix fun i =>
      if X r (3 / 2) s (i, ⟨[1], by decide⟩) < X r 2 s (i, ⟨[1], by decide⟩) then 1 else 0) (mc s) :=
    fun s => .update (l := []) .new (hmc s)
  obtain ⟨E, f1, -, f2, -⟩ := (e3 _ hφ 0 0 (MemLp.of_bound
    (hφ.comp_aemeasurable (e2 0 0)).aestronglyMeasurable 1 (ae_of_all _ fun s => by
      simp only [Function.comp_apply]
      split_ifs <;> simp)) rfl rfl rfl).2 exAuto_ok (vs := []) (c := []) (by simp [InRange])
    (smp := fun s r => exSix fun i =>
      if X r (3 / 2) s (i, ⟨[1], by decide⟩) < X r 2 s (i, ⟨[1], by decide⟩) then 1 else 0) (fun s r => ⟨rfl, by
        simp [exSix, Batch.raw, Batch.ax, List.ofFn_succ, List.range_succ]⟩) 1 (by norm_num) hh
  refine ⟨anti, X, mc, E, hh, fun s => ⟨ss 1 s, ?_⟩, f1, f2⟩
  have := e1 0 s
  rw [e0] at this
  exact this

/-- The same, with `use='odd'`. -/
example : ∃ (anti : Arr ℝ → Arr ℝ → (ℕ → Item ℝ) → Py (Arr ℝ × (ℕ → Item ℝ)))
    (X : ℕ → ℝ → (ℕ → Item ℝ) → Fin (2 * 3) × Cells [2] → ℝ) (mc : (ℕ → Item ℝ) → MC ℝ) (E : (ℕ → Item ℝ) → ℝ),
    (∀ s, McHistory exAuto .none none "odd" ((List.range 1).map fun r => exSix fun i =>
      if X r (3 / 2) s (i, ⟨[1], by decide⟩) < X r 2 s (i, ⟨[1], by decide⟩) then 1 else 0) (mc s)) ∧
    (∀ s, ∃ s', (exLogOdd anti).call 10 .none 0 ⟨[3], [1, 3 / 2, 2]⟩ s =
      .ok ([some (npExp (X 0 1 s)), some (npExp (X 0 (3 / 2) s)), some (npExp (X 0 2 s))], s')) ∧
    (∀ s, ∃ m, (mc s).mean = some m ∧ m.get [] = some (E s)) ∧
    ∫ s, E s ∂exState = 0 := by
  obtain ⟨anti, hanti⟩ := exOddNormal
  obtain ⟨Ω, mΩ, P, Z, hP, hI⟩ := exOddNoise
  obtain ⟨X, ss, e0, e1, e2, e3⟩ := C115_odd (n := 3) (ids := {idT, idW}) (a := fun id _ _ _ => exLogCoef id)
    (t0 := 1) (T := 1) (L := 0) zero_le_one (by intro t _ u _ x y; simp) (fun _ : Cells [2] => Real.log 10)
    (law := fun _ h => Measure.pi fun _ => gaussianReal 0 h.toNNReal) (fun _ _ _ _ => inferInstance)
    (fun _ _ h _ => symmetric_normal h.toNNReal) hI (S := exLogOdd anti) (μ := exState) (by norm_num) exLogOdd_ok rfl
    (by simp [equation, lognormSDE]) exLogOdd_coef rfl (fun c => rfl) (exLogOdd_draws hanti) exAlongS
  have hφ : Measurable fun w : {t : ℝ // t ∈ [1, 3 / 2, 2] ∧ t ∈ Set.Icc (1 : ℝ) (1 + 1)} → Cells [2] → ℝ =>
      if w ⟨3 / 2, by norm_num⟩ ⟨[1], by decide⟩ < w ⟨2, by norm_num⟩ ⟨[1], by decide⟩ then (1 : ℝ) else 0 :=
    Measurable.ite (measurableSet_lt (by fun_prop) (by fun_prop)) measurable_const measurable_const
  choose mc hmc using fun s => C36_accepts_first exAuto_ok (bins := .none) (range := none) (use := "odd") (.inl rfl) (by simp)
    (b := exSix fun i => if X 0 (3 / 2) s (i, ⟨[1], by decide⟩) < X 0 2 s (i, ⟨[1], by decide⟩) then 1 else 0)
    (by simp [Batch.Valid, Batch.rawSize, exSix, Batch.ax])
  have hh : ∀ s, McHistory exAuto .none none "odd" ((List.range 1).map fun r => exSix fun i =>
      if X r (3 / 2) s (i, ⟨[1], by decide⟩) < X r 2 s (i, ⟨[1], by decide⟩) then 1 else 0) (mc s) :=
    fun s => .update (l := []) .new (hmc s)
  obtain ⟨E, f1, -, f2, -⟩ := e3 _ hφ 0 (MemLp.of_bound
    (hφ.comp_aemeasurable (e2 0 0)).aestronglyMeasurable 1 (ae_of_all _ fun s => by
      simp only [Function.comp_apply]
      split_ifs <;> simp)) rfl exAuto_ok (vs := []) (c := []) (by simp [InRange])
    (smp := fun s r => exSix fun i =>
      if X r (3 / 2) s (i, ⟨[1], by decide⟩) < X r 2 s (i, ⟨[1], by decide⟩) then 1 else 0) (fun s r => ⟨rfl, by
        simp [exSix, Batch.raw, Batch.ax, List.ofFn_succ, List.range_succ]⟩) 1 (by norm_num) hh
  refine ⟨anti, X, mc, E, hh, fun s => ⟨ss 1 s, ?_⟩, f1, f2⟩
  have := e1 0 s
  rw [e0] at this
  exact this

end Sdepy
