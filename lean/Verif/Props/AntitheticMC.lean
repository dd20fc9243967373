import Verif.Props.Antithetic
import Verif.Props.MonteCarlo
import Mathlib.Tactic.FinCases

/-!
# Property C113: `montecarlo` and antithetic paths
-/

open BigOperators

namespace Sdepy

namespace Spec

/-- The value `x` is one that a call returns for time `t` of the timeline, for some state of generators. -/
def Simulated {K X Id σ : Type} [Field K] [LinearOrder K] [CommRing X] [LinearOrder Id]
    (S : SDE K X X Id σ) (fuel : ℕ) (steps : Steps K) (i0 : ℤ) (tl : TArr K) (t : K) (x : X) : Prop :=
  ∃ (s : σ) (xx : List (Option X)) (s' : σ) (j : ℕ), S.call fuel steps i0 tl s = .ok (xx, s') ∧ tl.data[j]? = some t ∧ xx[j]? = some (some x)

end Spec

open Spec

section
variable {K κ σ Id : Type} [LinearOrder Id] [Field K] [LinearOrder K] [IsStrictOrderedRing K] [Fintype κ] {n : ℕ}

omit [LinearOrder K] [IsStrictOrderedRing K] in
theorem sum_flatMap_eq {β : Type} {f : β → List K} {m : K} {l : List β} (h : ∀ b ∈ l, (f b).sum = (f b).length * m) :
    (l.flatMap f).sum = (l.flatMap f).length * m := by
  induction l with
  | nil => simp
  | cons b l ih =>
    simp only [List.flatMap_cons, List.sum_append, List.length_append, Nat.cast_add]
    rw [h b (by simp), ih fun c hc => h c (by simp [hc])]
    ring

theorem avg_eq_of_sum {l : List K} {m : K} (h : l.sum = l.length * m) (hl : l ≠ []) : avg l = m := by
  have : (l.length : K) ≠ 0 := by
    rw [Nat.cast_ne_zero]; simpa using hl
  rw [avg, h]; field_simp

theorem cmom_const {l : List K} {m : K} (h : ∀ a ∈ l, a = m) (hl : l ≠ []) : avg l = m ∧ cmom 2 l = 0 := by
  have e : l = List.replicate l.length m := List.eq_replicate_of_mem h
  have h1 : avg l = m := avg_eq_of_sum (by rw [e]; simp) hl
  refine ⟨h1, ?_⟩
  have : (l.map fun x => (x - avg l) ^ 2) = l.map fun _ => 0 :=
    List.map_congr_left fun a ha => by rw [h1, h a ha]; simp
  rw [cmom, this]
  simp [avg]

/-- **C113.** Let a process be as in C111: paired paths with opposite increments of noise, affine drift, coefficients of noise
that only depend on time, and initial values that average to `y0` over each pair. Let `montecarlo` be updated with values simulated in any
number of runs, for the same time `t` of the timeline. Then whatever is drawn, the mean reported for a component is
exactly the value `m` given by Euler's method for the differential equation without noise, and with `use='even'`
the variance reported is zero. `c` is the index of the component `k` in the samples. -/
theorem C113_montecarlo {S : SDE K (Fin (2 * n) × κ → K) (Fin (2 * n) × κ → K) Id σ} {k0 : Id} {p : K → κ → K}
    {Q : K → κ → κ → K} {b : Id → K → κ → K} (hS : SDEOk S) (hdt : S.sources.lookup k0 = some dtSource)
    (hodd : ∀ id z, id ≠ k0 → S.sources.lookup id = some z → OddSource z)
    (hcoef : ∀ t x, (equation S).coef t x = .ok fun id c =>
      if id = k0 then p t c.2 + ∑ l, Q t c.2 l * x (c.1, l) else b id t c.2)
    (hlog : S.log = false) (hlet : ∀ t x, S.letX t x = x)
    {fuel : ℕ} {steps : Steps K} {i0 : ℤ} {tl : TArr K} {grid : List K} {t0 : K}
    (ha : Along fuel steps i0 tl grid t0) {x0 : Fin (2 * n) × κ → K} (hinit : S.init t0 = .ok x0) {y0 : κ → K}
    (hx0 : ∀ i k, x0 (fstHalf i, k) + x0 (sndHalf i, k) = 2 * y0 k) :
    ∃ m : K → κ → K, m t0 = y0 ∧ NoiseFreeEuler p Q m (grid.filter (t0 ≤ ·)) ∧
      NoiseFreeEuler p Q m (grid.filter (· ≤ t0)).reverse ∧
      ∀ {auto : String → Option (K × K) → List K → Py (List K)} {bins : Bins K} {range : Option (K × K)} {use : String}
        {vs c : List ℕ} {b0 : Batch K} {l : List (Batch K)} {mc : MC K} {t : K} {k : κ}, AutoOk auto → InRange vs c →
        McHistory auto bins range use (b0 :: l) mc →
        (∀ b ∈ b0 :: l, b.vshape = vs ∧ 0 < b.size use ∧ ∃ x, Simulated S fuel steps i0 tl t x ∧
          b.raw c = List.ofFn fun i => x (i, k)) →
        (use = "all" ∨ use = "even" → ∃ a, mc.mean = some a ∧ a.get c = some (m t k)) ∧
        (use = "even" → ∃ a, mc.var = .ok a ∧ a.get c = some 0) := by
  obtain ⟨m, h0, h1, h2, h3⟩ := C111_pairs hS hdt hodd hcoef ha hinit (y0 := y0) (by simpa [hlog] using hx0)
  refine ⟨m, h0, h1, h2, ?_⟩
  intro auto bins range use vs c b0 l mc t k hau hc hmc hb
  have hu : Uniform vs (b0 :: l) := fun b hb' => (hb b hb').1
  have hne : NonEmpty use (b0 :: l) := fun b hb' => (hb b hb').2.1
  obtain ⟨hp, hlen, a, ha1, -, ha2⟩ := C35_mean hau hmc hu hne
  obtain ⟨a', hv1, -, hv2⟩ := C35_var hau hmc hu hne
  have hsim : ∀ x, Simulated S fuel steps i0 tl t x →
      (∀ i k, x (fstHalf i, k) + x (sndHalf i, k) = 2 * m t k) ∧ ∀ k, ∑ i, x (i, k) = (2 * n : ℕ) * m t k := by
    rintro x ⟨s, xx, s', j, hcall, hj, hxj⟩
    obtain ⟨X, hX, hXm⟩ := h3 s xx s' hcall
    rw [hX, List.getElem?_map, hj] at hxj
    simp only [Option.map_some, Option.some.injEq, hlog, Bool.false_eq_true, if_false, hlet] at hxj
    rw [← hxj]
    exact hXm t (List.mem_of_getElem? hj)
  have hpos : pooled use (b0 :: l) c ≠ [] := by
    have : 0 < mc.paths := hp ▸ hne.pos
    rw [hlen c hc] at this
    exact List.length_pos_iff.1 this
  have hall : ∀ b ∈ b0 :: l, (b.raw c).sum = (b.raw c).length * m t k := by
    intro b hb'
    obtain ⟨x, hx, hr⟩ := (hb b hb').2.2
    rw [hr, List.sum_ofFn, List.length_ofFn]
    exact (hsim x hx).2 k
  have heven : use = "even" → ∀ v ∈ pooled use (b0 :: l) c, v = m t k := by
    rintro rfl v hv
    obtain ⟨b, hb', hv⟩ := List.mem_flatMap.1 hv
    obtain ⟨x, hx, hr⟩ := (hb b hb').2.2
    have hr' : b.raw c = (List.range (2 * n)).map fun i => if h : i < 2 * n then x (⟨i, h⟩, k) else 0 := by
      rw [hr]
      apply List.ext_getElem
      · simp
      · intro i h1 h2
        have : i < 2 * n := by simpa using h1
        simp [this]
    rw [(C38_values b c hr').1] at hv
    obtain ⟨i, hi, rfl⟩ := List.mem_map.1 hv
    have hi' : i < n := by simpa using hi
    have := (hsim x hx).1 ⟨i, hi'⟩ k
    simp only [fstHalf, sndHalf] at this
    rw [dif_pos (by omega), dif_pos (by omega), this]
    ring
  refine ⟨?_, fun he => ?_⟩
  · rintro (rfl | he)
    · refine ⟨a, ha1, ?_⟩
      rw [ha2 c hc, avg_eq_of_sum _ hpos]
      exact sum_flatMap_eq fun b hb' => hall b hb'
    · exact ⟨a, ha1, by rw [ha2 c hc, (cmom_const (heven he) hpos).1]⟩
  · exact ⟨a', hv1, by rw [hv2 c hc, (cmom_const (heven he) hpos).2]⟩

end

/-- **C113**, standard errors: they are zero, with `use='even'`, as soon as there are two pairs. -/
theorem C113_stderr {auto : String → Option (ℝ × ℝ) → List ℝ → Py (List ℝ)} (ha : AutoOk auto) {bins : Bins ℝ}
    {range : Option (ℝ × ℝ)} {use : String} {vs c : List ℕ} {b0 : Batch ℝ} {l : List (Batch ℝ)} {mc : MC ℝ}
    (hc : InRange vs c) (h : McHistory auto bins range use (b0 :: l) mc)
    (hb : ∀ b ∈ b0 :: l, b.vshape = vs ∧ 0 < b.size use) {a : Arr (Option ℝ)} (hv : mc.var = .ok a)
    (h0 : a.get c = some 0) (h2 : 2 ≤ mc.paths) :
    (∃ a, mc.std = .ok a ∧ a.get c = some 0) ∧ ∃ a, mc.stderr = .ok a ∧ a.get c = some 0 := by
  obtain ⟨a', hv', -, hv2⟩ := C35_var ha h (fun b hb' => (hb b hb').1) fun b hb' => (hb b hb').2
  rw [hv] at hv'
  cases hv'
  rw [hv2 c hc] at h0
  obtain ⟨⟨a1, e1, -, e2⟩, -, h3⟩ := C35_std_stderr ha h (fun b hb' => (hb b hb').1) fun b hb' => (hb b hb').2
  obtain ⟨a2, e3, -, e4⟩ := h3 h2
  simp only [Option.some.injEq] at h0
  exact ⟨⟨a1, e1, by rw [e2 c hc, h0]; simp⟩, a2, e3, by rw [e4 c hc, h0]; simp⟩

/-! ### Examples -/

/-- Values of the two paths. -/
def exPair (a b : ℚ) : Fin (2 * 1) × Unit → ℚ := fun c => if c.1 = 0 then a else b

/-- Samples from two runs of the process `exOddSDE`, at time `4`. -/
def exPair0 : Batch ℚ := ⟨arrOf [2] [7, -5], -1⟩
def exPair1 : Batch ℚ := ⟨arrOf [2] [4/3, 2/3], -1⟩
def exPairMC : MC ℚ := ((MC.new .none none "even").update noAuto exPair0.x exPair0.axis).1
def exPairMC' : MC ℚ := (exPairMC.update noAuto exPair1.x exPair1.axis).1

theorem exPair_of {s : List ℚ} {a b : ℚ}
    (h : okVal ((exOddSDE.call 10 (.iter [2]) 1 ⟨[3], [0, 1, 4]⟩ s).map fun r =>
      r.1[2]?.map fun x => x.map fun x => (x (0, ()), x (1, ()))) = some (some (some (a, b)))) :
    Simulated exOddSDE 10 (.iter [2]) 1 ⟨[3], [0, 1, 4]⟩ 4 (exPair a b) := by
  cases hc : exOddSDE.call 10 (.iter [2]) 1 ⟨[3], [0, 1, 4]⟩ s with
  | error e => simp [hc, okVal, Except.map] at h
  | ok r =>
    simp only [hc, okVal, Except.map, Option.some.injEq, Option.map_eq_some_iff, Prod.mk.injEq] at h
    obtain ⟨_, hx, x, rfl, rfl, rfl⟩ := h
    refine ⟨s, r.1, r.2, 2, hc, rfl, ?_⟩
    rw [hx]
    congr 2
    funext ⟨i, u⟩
    fin_cases i <;> rfl

theorem exPair_simulated : Simulated exOddSDE 10 (.iter [2]) 1 ⟨[3], [0, 1, 4]⟩ 4 (exPair 7 (-5)) ∧
    Simulated exOddSDE 10 (.iter [2]) 1 ⟨[3], [0, 1, 4]⟩ 4 (exPair (4/3) (2/3)) :=
  ⟨exPair_of (s := [7, -1, 3]) (by decide +kernel), exPair_of (s := [1/2, 2, 1/6]) (by decide +kernel)⟩

-- hypotheses of `C113_montecarlo` on samples, and what is reported: the mean `1` of all values, and variance zero
example : McHistory noAuto .none none "even" [exPair0, exPair1] exPairMC' ∧
    (∀ b ∈ [exPair0, exPair1], b.vshape = [] ∧ 0 < b.size "even" ∧
      ∃ x, Simulated exOddSDE 10 (.iter [2]) 1 ⟨[3], [0, 1, 4]⟩ 4 x ∧ b.raw [] = List.ofFn fun i => x (i, ())) ∧
    exOddSDE.log = false ∧ (∀ t x, exOddSDE.letX t x = x) ∧
    (exPairMC'.mean.map fun a => a.get []) = some (some 1) ∧
    (exPairMC'.var.toOption.map fun a => a.get []) = some (some 0) := by
  refine ⟨.update (l := [exPair0]) (.update (l := []) .new (update_eta (mc := MC.new .none none "even") (by decide +kernel)))
    (update_eta (mc := exPairMC) (by decide +kernel)), ?_, rfl, fun _ _ => rfl, by decide +kernel, by decide +kernel⟩
  intro b hb
  simp only [List.mem_cons, List.not_mem_nil, or_false] at hb
  rcases hb with rfl | rfl
  · exact ⟨by decide +kernel, by decide +kernel, _, exPair_simulated.1, by decide +kernel⟩
  · exact ⟨by decide +kernel, by decide +kernel, _, exPair_simulated.2, by decide +kernel⟩

/-- Two pairs of values with the same average. -/
noncomputable def exPairs : Batch ℝ := ⟨⟨[4], fun i => [7, 2, -5, 0].getD (i.headD 0) 0⟩, -1⟩

-- hypotheses of `C113_stderr`
example : ∃ mc, McHistory (fun _ _ _ => .error .valueError) .none none "even" [exPairs] mc ∧
    (∀ b ∈ [exPairs], b.vshape = [] ∧ 0 < b.size "even") ∧ 2 ≤ mc.paths ∧
    ∃ a, mc.var = .ok a ∧ a.get [] = some 0 := by
  have ha : AutoOk (K := ℝ) (fun _ _ _ => .error .valueError) := fun _ _ _ _ h => by cases h
  have hsz : ∀ b ∈ [exPairs], b.vshape = [] ∧ 0 < b.size "even" := by
    intro b hb
    simp only [List.mem_cons, List.not_mem_nil, or_false] at hb
    subst hb
    simp [Batch.size, Batch.rawSize, exPairs, Batch.ax, Batch.vshape]
  obtain ⟨mc, hmc⟩ := C36_accepts_first ha (bins := .none) (range := none) (use := "even") (.inl rfl) (by simp)
    (b := exPairs) (by simp [Batch.Valid, Batch.rawSize, exPairs, Batch.ax])
  have h : McHistory (fun _ _ _ => .error .valueError) .none none "even" [exPairs] mc := .update (l := []) .new hmc
  obtain ⟨hp, -⟩ := C35_mean ha h (vs := []) (fun b hb => (hsz b hb).1) fun b hb => (hsz b hb).2
  obtain ⟨a, h1, -, h2⟩ := C35_var ha h (vs := []) (fun b hb => (hsz b hb).1) fun b hb => (hsz b hb).2
  have hd : pooled "even" [exPairs] [] = [1, 1] := by
    simp [pooled, Batch.data, halves, Batch.raw, exPairs, Batch.ax, List.range, List.range.loop]
    norm_num
  refine ⟨mc, h, hsz, ?_, a, h1, ?_⟩
  · rw [hp]; simp [Batch.size, Batch.rawSize, exPairs, Batch.ax]
  · rw [h2 [] .nil, hd]; simp [cmom, avg]

end Sdepy
