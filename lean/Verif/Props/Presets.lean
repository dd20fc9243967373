import Verif.Lemmas.Presets

/-!
# Properties C14, C15, C16, C18: preset processes
-/

set_option linter.unusedSectionVars false
set_option linter.unusedSimpArgs false

namespace Sdepy

open Spec BigOperators

section
variable {K ι σ O X : Type} [Field K] [LinearOrder K] [IsStrictOrderedRing K]

theorem call_along [CommRing X] (S : SDE K X O ℕ σ) (hS : SDEOk S) {fuel : ℕ} {steps : Steps K}
    {i0 : ℤ} {tl : TArr K} {grid : List K} {t0 : K} (h : Along fuel steps i0 tl grid t0) (s : σ) :
    S.call fuel steps i0 tl s =
      (do let x0 ← S.init t0
          let (ps, s) ← (equation S).solution t0 (if S.log then S.logX x0 else x0) grid s
          pure (tl.data.map fun t => (ps.lookup t).map fun x =>
            if S.log then S.expO (S.letX t x) else S.letX t x, s)) := by
  obtain ⟨i, hi, h0⟩ := h.start
  exact C02_euler S hS fuel steps i0 tl s h.valid hi h.nsteps h.isGrid h0 h.hfuel

theorem along_mem {fuel : ℕ} {steps : Steps K}
    {i0 : ℤ} {tl : TArr K} {grid : List K} {t0 : K} (h : Along fuel steps i0 tl grid t0) :
    t0 ∈ tl.data ∧ t0 ∈ grid ∧ ∀ t ∈ tl.data, t ∈ grid := by
  obtain ⟨i, _, h0⟩ := h.start
  have := List.mem_of_getElem? h0
  exact ⟨this, (h.isGrid.2 t0).2 (.inl this), fun t ht => (h.isGrid.2 t).2 (.inl ht)⟩

theorem lookup_isSome_of_times {V : Type} {t : K} {ps : List (K × V)} (h : t ∈ ps.map Prod.fst) :
    ∃ x, ps.lookup t = some x := by
  cases hl : ps.lookup t with
  | some x => exact ⟨x, rfl⟩
  | none => exact absurd h ((lookup_eq_none_iff' ps t).1 hl)

/-! ### C14 -/

/-- **C14** (Wiener process). With constant parameters, the values at each time of the timeline are
`x0 + mu*(t - t0) + sigma*w`, `w` being the sum of the increments realised between `t0` and `t`. -/
theorem C14_wiener (x0 mu sigma : ι → K) (dw : Src K ι σ) {fuel : ℕ} {steps : Steps K} {i0 : ℤ}
    {tl : TArr K} {grid : List K} {t0 : K} (h : Along fuel steps i0 tl grid t0) (s : σ) :
    (wienerSDE x0 (fun _ => mu) (fun _ => sigma) dw).call fuel steps i0 tl s =
      (do let (ws, s) ← cumulated dw t0 grid s
          pure (tl.data.map fun t => (ws.lookup t).map fun w i =>
            x0 i + mu i * (t - t0) + sigma i * w i, s)) := by
  set S := wienerSDE x0 (fun _ => mu) (fun _ => sigma) dw with hS
  have hsde : ∀ t x, S.sde t x = .ok (some [(idT, (fun _ _ => mu) t x),
    (idW, (fun _ _ => sigma) t x)]) := fun _ _ => rfl
  rw [call_along S (two_sources_ok rfl hsde) h s]
  have hinit : S.init t0 = .ok x0 := rfl
  have hlog : S.log = false := rfl
  have hlet : ∀ t x, S.letX t x = x := fun _ _ => rfl
  rw [hinit]
  simp only [hlog, bind, Except.bind, hlet, Bool.false_eq_true, if_false]
  have hF := solution_of_cumulated (equation S) dw
    (fun t w i => x0 i + mu i * (t - t0) + sigma i * w i)
    (by
      intro t w t' s
      rw [step_two rfl hsde]
      congr 1
      funext r
      simp only [Prod.mk.injEq, and_true]
      funext i
      simp only [Pi.add_apply]
      ring) t0 grid s
  have e0 : (fun i => x0 i + mu i * (t0 - t0) + sigma i * (0 : ι → K) i) = x0 := by
    funext i; simp
  rw [e0] at hF
  rw [hF]
  cases cumulated dw t0 grid s with
  | error e => rfl
  | ok r =>
    simp only [Except.map, pure, Except.pure, lookup_map_fst (fun t (w : ι → K) i =>
      x0 i + mu i * (t - t0) + sigma i * w i)]
    simp [Function.comp_def]

/-- **C14** (Wiener process, grid independence). With a source of noise with memory, the values
only depend on time: neither the grid of integration steps, nor the timeline, nor the state matter. -/
theorem C14_wiener_memory (x0 mu sigma : ι → K) (dw : Src K ι σ) {P : σ → Prop} {D : K → Prop}
    {W : K → ι → K} (hm : Memory P D dw W) {fuel : ℕ} {steps : Steps K} {i0 : ℤ}
    {tl : TArr K} {grid : List K} {t0 : K} (h : Along fuel steps i0 tl grid t0)
    (hD : ∀ t ∈ grid, D t) (s : σ) (hs : P s) :
    ∃ s', (wienerSDE x0 (fun _ => mu) (fun _ => sigma) dw).call fuel steps i0 tl s =
      .ok (tl.data.map fun t => some fun i =>
        x0 i + mu i * (t - t0) + sigma i * (W t i - W t0 i), s') ∧ P s' := by
  obtain ⟨h1, h2, h3⟩ := along_mem h
  obtain ⟨s', he, hs'⟩ := cumulated_memory hm h.isGrid.1 h2 hD s hs
  refine ⟨s', ?_, hs'⟩
  rw [C14_wiener x0 mu sigma dw h s, he]
  simp only [bind, Except.bind, pure, Except.pure, Except.ok.injEq, Prod.mk.injEq, and_true]
  apply List.map_congr_left
  intro t ht
  rw [lookup_map_self (fun u => W u - W t0) (h3 t ht)]
  rfl

end

section
variable {ι σ : Type}

/-- **C14** (lognormal process). With constant parameters and positive initial values, the values at
each time of the timeline are `x0*exp((mu - sigma²/2)*(t - t0) + sigma*w)`, `w` being the sum of the
increments realised between `t0` and `t`. -/
theorem C14_lognorm (x0 mu sigma : ι → ℝ) (hx : ∀ i, 0 < x0 i) (dw : Src ℝ ι σ) {fuel : ℕ}
    {steps : Steps ℝ} {i0 : ℤ} {tl : TArr ℝ} {grid : List ℝ} {t0 : ℝ}
    (h : Along fuel steps i0 tl grid t0) (s : σ) :
    (lognormSDE x0 (fun _ => mu) (fun _ => sigma) dw).call fuel steps i0 tl s =
      (do let (ws, s) ← cumulated dw t0 grid s
          pure (tl.data.map fun t => (ws.lookup t).map fun w i =>
            x0 i * Real.exp ((mu i - sigma i ^ 2 / 2) * (t - t0) + sigma i * w i), s)) := by
  set S := lognormSDE x0 (fun _ => mu) (fun _ => sigma) dw with hS
  have hsde : ∀ t x, S.sde t x = .ok (some [(idT, (fun _ _ => mu - sigma * sigma / 2) t x),
    (idW, (fun _ _ => sigma) t x)]) := fun _ _ => rfl
  rw [call_along S (two_sources_ok rfl hsde) h s]
  have hinit : S.init t0 = .ok x0 := rfl
  have hlog : S.log = true := rfl
  have hlet : ∀ t x, S.letX t x = x := fun _ _ => rfl
  have hl : S.logX = npLog := rfl
  have he : S.expO = npExp := rfl
  rw [hinit]
  simp only [hlog, bind, Except.bind, hlet, if_true, hl, he]
  have hF := solution_of_cumulated (equation S) dw
    (fun t w i => Real.log (x0 i) + (mu i - sigma i ^ 2 / 2) * (t - t0) + sigma i * w i)
    (by
      intro t w t' s
      rw [step_two rfl hsde]
      congr 1
      funext r
      simp only [Prod.mk.injEq, and_true]
      funext i
      simp only [Pi.add_apply, Pi.sub_apply, Pi.mul_apply, Pi.div_apply, Pi.ofNat_apply]
      ring) t0 grid s
  have e0 : (fun i => Real.log (x0 i) + (mu i - sigma i ^ 2 / 2) * (t0 - t0) +
      sigma i * (0 : ι → ℝ) i) = npLog x0 := by
    funext i; simp [npLog]
  rw [e0] at hF
  rw [hF]
  cases cumulated dw t0 grid s with
  | error e => rfl
  | ok r =>
    simp only [Except.map, pure, Except.pure, lookup_map_fst (fun t (w : ι → ℝ) i =>
      Real.log (x0 i) + (mu i - sigma i ^ 2 / 2) * (t - t0) + sigma i * w i), Except.ok.injEq,
      Prod.mk.injEq, and_true]
    apply List.map_congr_left
    intro t _
    rw [Option.map_map]
    congr 1
    funext w i
    simp only [Function.comp, npExp]
    rw [add_assoc, Real.exp_add, Real.exp_log (hx i)]

/-- **C14** (lognormal process, grid independence). -/
theorem C14_lognorm_memory (x0 mu sigma : ι → ℝ) (hx : ∀ i, 0 < x0 i) (dw : Src ℝ ι σ)
    {P : σ → Prop} {D : ℝ → Prop} {W : ℝ → ι → ℝ} (hm : Memory P D dw W) {fuel : ℕ}
    {steps : Steps ℝ} {i0 : ℤ} {tl : TArr ℝ} {grid : List ℝ} {t0 : ℝ}
    (h : Along fuel steps i0 tl grid t0) (hD : ∀ t ∈ grid, D t) (s : σ) (hs : P s) :
    ∃ s', (lognormSDE x0 (fun _ => mu) (fun _ => sigma) dw).call fuel steps i0 tl s =
      .ok (tl.data.map fun t => some fun i =>
        x0 i * Real.exp ((mu i - sigma i ^ 2 / 2) * (t - t0) + sigma i * (W t i - W t0 i)), s') ∧
      P s' := by
  obtain ⟨h1, h2, h3⟩ := along_mem h
  obtain ⟨s', he, hs'⟩ := cumulated_memory hm h.isGrid.1 h2 hD s hs
  refine ⟨s', ?_, hs'⟩
  rw [C14_lognorm x0 mu sigma hx dw h s, he]
  simp only [bind, Except.bind, pure, Except.pure, Except.ok.injEq, Prod.mk.injEq, and_true]
  apply List.map_congr_left
  intro t ht
  rw [lookup_map_self (fun u => W u - W t0) (h3 t ht)]
  rfl

/-- **C14** (jump-diffusion process). With constant parameters and positive initial values, the
values at each time of the timeline are `x0*exp((mu - sigma²/2)*(t - t0) + sigma*w + j)`, `w` and `j`
being the sums of the noise and of the jumps realised between `t0` and `t`. -/
theorem C14_jumpdiff (x0 mu sigma : ι → ℝ) (hx : ∀ i, 0 < x0 i) (dw dj : Src ℝ ι σ) {fuel : ℕ}
    {steps : Steps ℝ} {i0 : ℤ} {tl : TArr ℝ} {grid : List ℝ} {t0 : ℝ}
    (h : Along fuel steps i0 tl grid t0) (s : σ) :
    (jumpdiffSDE x0 (fun _ => mu) (fun _ => sigma) dw dj).call fuel steps i0 tl s =
      (do let (ws, s) ← cumulated (both dj dw) t0 grid s
          pure (tl.data.map fun t => (ws.lookup t).map fun (j, w) i =>
            x0 i * Real.exp ((mu i - sigma i ^ 2 / 2) * (t - t0) + sigma i * w i + j i), s)) := by
  set S := jumpdiffSDE x0 (fun _ => mu) (fun _ => sigma) dw dj with hS
  have hsde : ∀ t x, S.sde t x = .ok (some [(idT, (fun _ _ => mu - sigma * sigma / 2) t x),
    (idW, (fun _ _ => sigma) t x), (idJ, (fun _ _ => 1) t x)]) := fun _ _ => rfl
  have hok : SDEOk S := {
    sources := by simp [hS, DictOk, jumpdiffSDE, idT, idW, idJ]
    sde := by
      intro t x A hA
      rw [hsde] at hA
      simp only [Except.ok.injEq, Option.some.injEq] at hA
      rw [← hA]; simp [DictOk, idT, idW, idJ] }
  rw [call_along S hok h s]
  have hinit : S.init t0 = .ok x0 := rfl
  have hlog : S.log = true := rfl
  have hlet : ∀ t x, S.letX t x = x := fun _ _ => rfl
  have hl : S.logX = npLog := rfl
  have he : S.expO = npExp := rfl
  rw [hinit]
  simp only [hlog, bind, Except.bind, hlet, if_true, hl, he]
  have hF := solution_of_cumulated (equation S) (both dj dw)
    (fun t p i => Real.log (x0 i) + (mu i - sigma i ^ 2 / 2) * (t - t0) + sigma i * p.2 i + p.1 i)
    (by
      intro t w t' s
      rw [step_three (dj := dj) (dw := dw) rfl hsde]
      simp only [both, bind, Except.bind, pure, Except.pure]
      cases dj t (t' - t) s with
      | error e => rfl
      | ok r =>
        simp only
        cases dw t (t' - t) r.2 with
        | error e => rfl
        | ok r' =>
          simp only [Except.map, Except.ok.injEq, Prod.mk.injEq, and_true]
          funext i
          simp only [Pi.add_apply, Pi.sub_apply, Pi.mul_apply, Pi.div_apply, Pi.ofNat_apply,
            Prod.fst_add, Prod.snd_add]
          ring) t0 grid s
  have e0 : (fun i => Real.log (x0 i) + (mu i - sigma i ^ 2 / 2) * (t0 - t0) +
      sigma i * (0 : (ι → ℝ) × (ι → ℝ)).2 i + (0 : (ι → ℝ) × (ι → ℝ)).1 i) = npLog x0 := by
    funext i; simp [npLog]
  rw [e0] at hF
  rw [hF]
  cases cumulated (both dj dw) t0 grid s with
  | error e => rfl
  | ok r =>
    simp only [Except.map, pure, Except.pure, lookup_map_fst (fun t (p : (ι → ℝ) × (ι → ℝ)) i =>
      Real.log (x0 i) + (mu i - sigma i ^ 2 / 2) * (t - t0) + sigma i * p.2 i + p.1 i),
      Except.ok.injEq, Prod.mk.injEq, and_true]
    apply List.map_congr_left
    intro t _
    rw [Option.map_map]
    congr 1
    funext w i
    simp only [Function.comp, npExp]
    rw [add_assoc, add_assoc, Real.exp_add, Real.exp_log (hx i), ← add_assoc]

end

/-! A run: `t0 = 2` in the middle of the timeline, one intermediate step, a source that draws
increments from a list of numbers. -/

/-- source reading off a list -/
def listSource : Src ℚ (Fin 2) (List ℚ) := fun _ dt s =>
  match s with
  | [] => .error .runtimeError
  | a :: s => .ok (fun i => if i = 0 then a else 2 * a * dt, s)

theorem exAlong : Along 10 (.iter [3]) 1 ⟨[3], [1, 2, 5]⟩ [1, 2, 3, (5 : ℚ)] 2 where
  valid := ⟨rfl, by decide +kernel⟩
  start := ⟨1, ⟨by decide, .inl rfl⟩, rfl⟩
  nsteps := by rintro n ⟨⟩
  isGrid := by
    refine ⟨by decide +kernel, ?_⟩
    intro t
    simp only [List.mem_cons, List.not_mem_nil, or_false, Requested]
    constructor
    · rintro (h | h | h | h)
      · exact .inl (.inl h)
      · exact .inl (.inr (.inl h))
      · subst h; exact .inr ⟨rfl, ⟨1, by simp, by norm_num⟩, ⟨5, by simp, by norm_num⟩⟩
      · exact .inl (.inr (.inr h))
    · rintro ((h | h | h) | ⟨h, -⟩)
      · exact .inl h
      · exact .inr (.inl h)
      · exact .inr (.inr (.inr h))
      · exact .inr (.inr (.inl h))
  hfuel := by simp

/-- values of a result at a cell -/
def readAt {ι σ : Type} (i : ι) : Py (List (Option (ι → ℚ)) × σ) → List (Option ℚ)
  | .error _ => []
  | .ok r => r.1.map (Option.map fun x => x i)

-- at `t = 1`: 10 + 3*(-1) + 2*7 = 21; at `t = 5`: 10 + 3*3 + 2*(8 + 9) = 53
example : readAt 0 ((wienerSDE (fun _ => 10) (fun _ _ => 3) (fun _ _ => 2) listSource).call 10
    (.iter [3]) 1 ⟨[3], [1, 2, 5]⟩ [7, 8, 9, 100]) = [some 21, some 10, some 53] := by
  decide +kernel

example := C14_wiener (fun _ => 10) (fun _ => 3) (fun _ => 2) listSource exAlong [7, 8, 9, 100]

/-- a source with memory: `W(t) = t³` -/
example := C14_wiener_memory (σ := Unit) (ι := Unit) (fun _ => (10 : ℚ)) (fun _ => 3) (fun _ => 2)
  (fun t dt s => .ok (fun _ => (t + dt) * (t + dt) * (t + dt) - t * t * t, s))
  (P := fun _ => True) (D := fun _ => True) (W := fun t _ => t * t * t)
  (fun t dt s _ _ _ => ⟨s, rfl, trivial⟩) exAlong (fun _ _ => trivial) () trivial

theorem exAlongR : Along 10 .none 0 ⟨[2], [1, 2]⟩ [1, (2 : ℝ)] 1 where
  valid := ⟨rfl, by simp⟩
  start := ⟨0, ⟨by simp, .inl rfl⟩, rfl⟩
  nsteps := by rintro n ⟨⟩
  isGrid := by
    refine ⟨by simp, ?_⟩
    intro t
    simp [Requested]
  hfuel := by simp

example := C14_lognorm (ι := Unit) (σ := Unit) (fun _ => 10) (fun _ => 3) (fun _ => 2)
  (fun _ => by norm_num) (fun _ dt s => .ok (fun _ => dt / 2, s)) exAlongR ()

example := C14_lognorm_memory (ι := Unit) (σ := Unit) (fun _ => 10) (fun _ => 3) (fun _ => 2)
  (fun _ => by norm_num) (fun _ dt s => .ok (fun _ => dt / 2, s)) (P := fun _ => True)
  (D := fun _ => True) (W := fun t _ => t / 2)
  (fun t dt s _ _ _ => ⟨s, by simp only [Except.ok.injEq, Prod.mk.injEq, and_true]; funext i;
                              simp only [Pi.sub_apply]; ring, trivial⟩)
  exAlongR (fun _ _ => trivial) () trivial

example := C14_jumpdiff (ι := Unit) (σ := Unit) (fun _ => 10) (fun _ => 3) (fun _ => 2)
  (fun _ => by norm_num) (fun _ dt s => .ok (fun _ => dt / 2, s))
  (fun _ _ s => .ok (fun _ => -7, s)) exAlongR ()

/-! ### C15 -/

section
variable {ι σ : Type}

/-- An SDE integrated in logarithms has positive values. -/
theorem positive_of_log {X : Type} [CommRing X] (S : SDE ℝ X (ι → ℝ) ℕ σ) (hS : SDEOk S)
    (hlog : S.log = true) (hexp : S.expO = npExp) {fuel : ℕ} {steps : Steps ℝ} {i0 : ℤ}
    {tl : TArr ℝ} {grid : List ℝ} {t0 : ℝ} (h : Along fuel steps i0 tl grid t0) {s s' : σ}
    {xx : List (Option (ι → ℝ))} (hc : S.call fuel steps i0 tl s = .ok (xx, s')) :
    xx.length = tl.data.length ∧ ∀ x ∈ xx, ∃ v : ι → ℝ, x = some v ∧ ∀ i, 0 < v i := by
  rw [call_along S hS h s] at hc
  simp only [bind, Except.bind, pure, Except.pure, hlog, hexp, if_true] at hc
  cases hi : S.init t0 with
  | error e => rw [hi] at hc; simp at hc
  | ok x0 =>
    rw [hi] at hc
    simp only at hc
    cases hs : (equation S).solution t0 (S.logX x0) grid s with
    | error e => rw [hs] at hc; simp at hc
    | ok r =>
      rw [hs] at hc
      simp only [Except.ok.injEq, Prod.mk.injEq] at hc
      obtain ⟨h1, h2, h3⟩ := along_mem h
      have ht := solution_times (equation S) h.isGrid.1 h2 (ps := r.1) (s' := r.2) hs
      rw [← hc.1]
      refine ⟨by simp, ?_⟩
      intro x hx
      obtain ⟨t, htm, rfl⟩ := List.mem_map.1 hx
      obtain ⟨y, hy⟩ := lookup_isSome_of_times (ps := r.1) (t := t) (by rw [ht]; exact h3 t htm)
      exact ⟨_, by rw [hy]; rfl, fun i => Real.exp_pos _⟩

/-- **C15** (lognormal). All values returned are positive, whatever the parameters, the noise and
the grid. -/
theorem C15_lognorm_positive (x0 : ι → ℝ) (mu sigma : ℝ → ι → ℝ) (dw : Src ℝ ι σ) {fuel : ℕ}
    {steps : Steps ℝ} {i0 : ℤ} {tl : TArr ℝ} {grid : List ℝ} {t0 : ℝ}
    (h : Along fuel steps i0 tl grid t0) {s s' : σ} {xx : List (Option (ι → ℝ))}
    (hc : (lognormSDE x0 mu sigma dw).call fuel steps i0 tl s = .ok (xx, s')) :
    xx.length = tl.data.length ∧ ∀ x ∈ xx, ∃ v : ι → ℝ, x = some v ∧ ∀ i, 0 < v i :=
  positive_of_log _ (two_sources_ok rfl (a := fun t _ => mu t - sigma t * sigma t / 2)
    (b := fun t _ => sigma t) fun _ _ => rfl) rfl rfl h hc

/-- **C15** (jump-diffusion; the Merton and Kou processes are the case of their `dj` sources). -/
theorem C15_jumpdiff_positive (x0 : ι → ℝ) (mu sigma : ℝ → ι → ℝ) (dw dj : Src ℝ ι σ) {fuel : ℕ}
    {steps : Steps ℝ} {i0 : ℤ} {tl : TArr ℝ} {grid : List ℝ} {t0 : ℝ}
    (h : Along fuel steps i0 tl grid t0) {s s' : σ} {xx : List (Option (ι → ℝ))}
    (hc : (jumpdiffSDE x0 mu sigma dw dj).call fuel steps i0 tl s = .ok (xx, s')) :
    xx.length = tl.data.length ∧ ∀ x ∈ xx, ∃ v : ι → ℝ, x = some v ∧ ∀ i, 0 < v i := by
  refine positive_of_log _ ⟨?_, ?_⟩ rfl rfl h hc
  · simp [DictOk, jumpdiffSDE, idT, idW, idJ]
  · intro t x A hA
    simp only [jumpdiffSDE, Except.ok.injEq, Option.some.injEq] at hA
    rw [← hA]; simp [DictOk, idT, idW, idJ]

/-- test process -/
noncomputable def exJD : SDE ℝ (Unit → ℝ) (Unit → ℝ) ℕ Unit :=
  jumpdiffSDE (fun _ => 10) (fun _ _ => 3) (fun _ _ => 2)
    (fun _ dt s => .ok (fun _ => -dt, s)) (fun _ dt s => .ok (fun _ => -5, s))

/-- A run succeeds, so that the hypotheses above can be met. -/
example : ∃ xx s', exJD.call 10 .none 0 ⟨[2], [1, 2]⟩ () = .ok (xx, s') ∧
    xx.length = 2 ∧ ∀ x ∈ xx, ∃ v : Unit → ℝ, x = some v ∧ ∀ i, 0 < v i := by
  have hs : ∃ r, exJD.call 10 .none 0 ⟨[2], [1, 2]⟩ () = .ok r := by
    rw [call_along _ ?_ exAlongR]
    · have hst : ∀ x, (equation exJD).step 1 x 2 () =
          .ok (fun i => x i + (3 - 2 * 2 / 2) * (2 - 1) + 2 * (-(2 - 1)) + 1 * (-5), ()) := by
        intro x
        rw [step_three (a := fun _ _ _ => 3 - 2 * 2 / 2) (b := fun _ _ _ => 2)
          (c := fun _ _ _ => 1)
          (dw := fun _ dt s => .ok (fun _ => -dt, s)) (dj := fun _ dt s => .ok (fun _ => -5, s))
          rfl (fun _ _ => rfl)]
        rfl
      have e1 : ([1, 2] : List ℝ).filter (· < 1) = [] := by simp
      have e2 : ([1, 2] : List ℝ).filter (1 < ·) = [2] := by simp
      have hi : exJD.init 1 = .ok fun _ => 10 := rfl
      simp only [Equation.solution, e1, e2, List.reverse_nil, Equation.path, bind, Except.bind,
        pure, Except.pure, hst, hi]
      exact ⟨_, rfl⟩
    · refine ⟨by simp [DictOk, exJD, jumpdiffSDE, idT, idW, idJ], ?_⟩
      intro t x A hA
      simp only [exJD, jumpdiffSDE, Except.ok.injEq, Option.some.injEq] at hA
      rw [← hA]; simp [DictOk, idT, idW, idJ]
  obtain ⟨⟨xx, s'⟩, hr⟩ := hs
  exact ⟨xx, s', hr, C15_jumpdiff_positive _ _ _ _ _ exAlongR hr⟩

end

/-! ### C16 -/

section
variable {K ι σ : Type} [Field K] [LinearOrder K] [IsStrictOrderedRing K]

/-- **C16** (Ornstein-Uhlenbeck step): the distance from `theta` shrinks by the factor `1 - k*dt`,
plus noise. -/
theorem C16_ou_step (x0 : ι → K) (theta k sigma : K → ι → K) (dw : Src K ι σ) (t : K) (x : ι → K)
    (t' : K) (s : σ) :
    (equation (ouSDE x0 theta k sigma dw)).step t x t' s =
      (do let (w, s) ← dw t (t' - t) s
          pure (fun i => theta t i + (1 - k t i * (t' - t)) * (x i - theta t i) + sigma t i * w i,
            s)) := by
  rw [step_two (a := fun t x => k t * (theta t - x)) (b := fun t _ => sigma t) (dw := dw) rfl
    (fun _ _ => rfl)]
  simp only [bind, Except.bind, pure, Except.pure]
  cases dw t (t' - t) s with
  | error e => rfl
  | ok r =>
    simp only [Except.map, Except.ok.injEq, Prod.mk.injEq, and_true]
    funext i
    simp only [Pi.mul_apply, Pi.sub_apply]
    ring

/-- restriction to a factor -/
def factorHom {F : ℕ} (f : Fin F) : (ι × Fin F → K) →+* (ι → K) where
  toFun x i := x (i, f)
  map_one' := rfl
  map_mul' _ _ := rfl
  map_zero' := rfl
  map_add' _ _ := rfl

theorem hw_hom {F : ℕ} (x0 : ι × Fin F → K) (theta k sigma : K → ι × Fin F → K)
    (dw : Src K (ι × Fin F) σ) (f : Fin F) :
    EqHom (factorHom f) (equation (hullWhiteSDE x0 theta k sigma dw))
      (equation (ouSDE (fun i => x0 (i, f)) (fun t i => theta t (i, f)) (fun t i => k t (i, f))
        (fun t i => sigma t (i, f)) (factor dw f))) where
  ids := rfl
  noise id t dt s := by
    simp only [equation, hullWhiteSDE, ouSDE, List.lookup, idT, idW]
    by_cases h2 : id = 2
    · subst h2; rfl
    · have e2 : (id == 2) = false := by simpa using h2
      rw [e2]
      by_cases h3 : id = 3
      · subst h3
        simp only [beq_self_eq_true, factor, bind, Except.bind, pure, Except.pure]
        cases dw t dt s <;> rfl
      · have e3 : (id == 3) = false := by simpa using h3
        rw [e3]; rfl
  coef t x := by
    simp only [equation, hullWhiteSDE, ouSDE, bind, Except.bind, pure, Except.pure, idT, idW]
    simp only [List.map_cons, List.map_nil]
    rw [if_neg (by simp), if_neg (by simp)]
    simp only [Except.map, Except.ok.injEq]
    funext id
    simp only [entry, List.lookup]
    by_cases h2 : id = 2
    · subst h2; rfl
    · have e2 : (id == 2) = false := by simpa using h2
      rw [e2]
      by_cases h3 : id = 3
      · subst h3; rfl
      · have e3 : (id == 3) = false := by simpa using h3
        rw [e3]; rfl

/-- **C16** (Hull-White). If the process is computed, then each of the `F` Ornstein-Uhlenbeck
processes driven by the corresponding component of the noise is computed as well, and the values of
the former are the sums of the values of the latter. -/
theorem C16_hull_white {F : ℕ} (x0 : ι × Fin F → K) (theta k sigma : K → ι × Fin F → K)
    (dw : Src K (ι × Fin F) σ) {fuel : ℕ} {steps : Steps K} {i0 : ℤ} {tl : TArr K} {grid : List K}
    {t0 : K} (h : Along fuel steps i0 tl grid t0) {s s' : σ} {xx : List (Option (ι → K))}
    (hc : (hullWhiteSDE x0 theta k sigma dw).call fuel steps i0 tl s = .ok (xx, s')) :
    ∃ yy : Fin F → List (ι → K),
      (∀ f, (ouSDE (fun i => x0 (i, f)) (fun t i => theta t (i, f)) (fun t i => k t (i, f))
        (fun t i => sigma t (i, f)) (factor dw f)).call fuel steps i0 tl s =
          .ok ((yy f).map some, s')) ∧
      (∀ f, (yy f).length = tl.data.length) ∧
      xx = (List.range tl.data.length).map fun n =>
        some fun i => ∑ f : Fin F, ((yy f)[n]?.getD 0) i := by
  have hou := two_sources_ok (S := hullWhiteSDE x0 theta k sigma dw) (dw := dw)
    (a := fun t x => k t * (theta t - x)) (b := fun t _ => sigma t) rfl (fun _ _ => rfl)
  rw [call_along _ hou h s] at hc
  set S := hullWhiteSDE x0 theta k sigma dw with hS
  have hinit : S.init t0 = .ok x0 := rfl
  have hlog : S.log = false := rfl
  have hlet : ∀ t x, S.letX t x = fun i => ∑ f : Fin F, x (i, f) := fun _ _ => rfl
  simp only [hinit, hlog, hlet, bind, Except.bind, pure, Except.pure, Bool.false_eq_true,
    if_false] at hc
  cases hs : (equation S).solution t0 x0 grid s with
  | error e => rw [hs] at hc; simp at hc
  | ok r =>
    obtain ⟨ps, s1⟩ := r
    rw [hs] at hc
    simp only [Except.ok.injEq, Prod.mk.injEq] at hc
    obtain ⟨hxx, rfl⟩ := hc
    obtain ⟨h1, h2, h3⟩ := along_mem h
    have ht := solution_times (equation S) h.isGrid.1 h2 hs
    have hl : ∀ t ∈ tl.data, ∃ y, ps.lookup t = some y := fun t htm =>
      lookup_isSome_of_times (by rw [ht]; exact h3 t htm)
    refine ⟨fun f => tl.data.map fun t => factorHom f ((ps.lookup t).getD 0), ?_, by simp, ?_⟩
    · intro f
      rw [call_along _ (two_sources_ok (dw := factor dw f)
        (a := fun t x => (fun i => k t (i, f)) * ((fun i => theta t (i, f)) - x))
        (b := fun t _ i => sigma t (i, f)) rfl (fun _ _ => rfl)) h s]
      have he := (hw_hom x0 theta k sigma dw f).solution t0 x0 grid s
      rw [← hS, hs] at he
      have hinit' : ∀ t, (ouSDE (fun i => x0 (i, f)) (fun t i => theta t (i, f))
        (fun t i => k t (i, f)) (fun t i => sigma t (i, f)) (factor dw f)).init t =
          .ok (factorHom f x0) := fun _ => rfl
      have hlog' : (ouSDE (fun i => x0 (i, f)) (fun t i => theta t (i, f))
        (fun t i => k t (i, f)) (fun t i => sigma t (i, f)) (factor dw f)).log = false := rfl
      have hlet' : ∀ t x, (ouSDE (fun i => x0 (i, f)) (fun t i => theta t (i, f))
        (fun t i => k t (i, f)) (fun t i => sigma t (i, f)) (factor dw f)).letX t x = x :=
          fun _ _ => rfl
      simp only [hinit', hlog', hlet', bind, Except.bind, pure, Except.pure, Bool.false_eq_true,
        if_false, he, Except.map, Except.ok.injEq, Prod.mk.injEq, and_true, List.map_map]
      apply List.map_congr_left
      intro t htm
      obtain ⟨y, hy⟩ := hl t htm
      rw [lookup_map_snd]
      simp [Function.comp, hy]
    · rw [← hxx]
      apply List.ext_getElem (by simp)
      intro n hn1 hn2
      have hn : n < tl.data.length := by simpa using hn1
      obtain ⟨y, hy⟩ := hl tl.data[n] (List.getElem_mem hn)
      simp only [List.getElem_map, List.getElem_range, hy, Option.map_some, List.getElem?_map,
        List.getElem?_eq_getElem hn, Option.getD_some]
      rfl

/-- The converse of `C16_hull_white` as to exceptions: if the Hull-White process raises one, so do
all the Ornstein-Uhlenbeck processes. -/
theorem C16_hull_white_error {F : ℕ} (x0 : ι × Fin F → K) (theta k sigma : K → ι × Fin F → K)
    (dw : Src K (ι × Fin F) σ) {fuel : ℕ} {steps : Steps K} {i0 : ℤ} {tl : TArr K} {grid : List K}
    {t0 : K} (h : Along fuel steps i0 tl grid t0) {s : σ} {e : PyErr}
    (hc : (hullWhiteSDE x0 theta k sigma dw).call fuel steps i0 tl s = .error e) (f : Fin F) :
    (ouSDE (fun i => x0 (i, f)) (fun t i => theta t (i, f)) (fun t i => k t (i, f))
        (fun t i => sigma t (i, f)) (factor dw f)).call fuel steps i0 tl s = .error e := by
  have hou := two_sources_ok (S := hullWhiteSDE x0 theta k sigma dw) (dw := dw)
    (a := fun t x => k t * (theta t - x)) (b := fun t _ => sigma t) rfl (fun _ _ => rfl)
  rw [call_along _ hou h s] at hc
  set S := hullWhiteSDE x0 theta k sigma dw with hS
  have hinit : S.init t0 = .ok x0 := rfl
  have hlog : S.log = false := rfl
  simp only [hinit, hlog, bind, Except.bind, pure, Except.pure, Bool.false_eq_true,
    if_false] at hc
  cases hs : (equation S).solution t0 x0 grid s with
  | ok r => rw [hs] at hc; simp at hc
  | error e' =>
    rw [hs] at hc
    simp only [Except.error.injEq] at hc
    subst hc
    rw [call_along _ (two_sources_ok (dw := factor dw f)
        (a := fun t x => (fun i => k t (i, f)) * ((fun i => theta t (i, f)) - x))
        (b := fun t _ i => sigma t (i, f)) rfl (fun _ _ => rfl)) h s]
    have he := (hw_hom x0 theta k sigma dw f).solution t0 x0 grid s
    rw [← hS, hs] at he
    have hinit' : ∀ t, (ouSDE (fun i => x0 (i, f)) (fun t i => theta t (i, f))
      (fun t i => k t (i, f)) (fun t i => sigma t (i, f)) (factor dw f)).init t =
        .ok (factorHom f x0) := fun _ => rfl
    have hlog' : (ouSDE (fun i => x0 (i, f)) (fun t i => theta t (i, f))
      (fun t i => k t (i, f)) (fun t i => sigma t (i, f)) (factor dw f)).log = false := rfl
    simp only [hinit', hlog', bind, Except.bind, pure, Except.pure, Bool.false_eq_true,
      if_false, he, Except.map]

/-- **C16** (one factor): Hull-White with `factors = 1` is Ornstein-Uhlenbeck. -/
theorem C16_one_factor (x0 : ι × Fin 1 → K) (theta k sigma : K → ι × Fin 1 → K)
    (dw : Src K (ι × Fin 1) σ) {fuel : ℕ} {steps : Steps K} {i0 : ℤ} {tl : TArr K} {grid : List K}
    {t0 : K} (h : Along fuel steps i0 tl grid t0) (s : σ) :
    (hullWhiteSDE x0 theta k sigma dw).call fuel steps i0 tl s =
    (ouSDE (fun i => x0 (i, 0)) (fun t i => theta t (i, 0)) (fun t i => k t (i, 0))
        (fun t i => sigma t (i, 0)) (factor dw 0)).call fuel steps i0 tl s := by
  cases hc : (hullWhiteSDE x0 theta k sigma dw).call fuel steps i0 tl s with
  | error e => rw [C16_hull_white_error x0 theta k sigma dw h hc 0]
  | ok r =>
    obtain ⟨yy, h1, h2, h3⟩ := C16_hull_white x0 theta k sigma dw h (xx := r.1) (s' := r.2) hc
    rw [h1 0]
    obtain ⟨xx, s'⟩ := r
    simp only [Except.ok.injEq, Prod.mk.injEq, and_true]
    simp only at h3
    rw [h3]
    apply List.ext_getElem (by simp [h2])
    intro n hn1 hn2
    have : n < (yy 0).length := by simpa using hn2
    simp [List.getElem?_eq_getElem this]

/-- noise for two factors, read off a list -/
def hwNoise : Src ℚ (Unit × Fin 2) (List ℚ) := fun _ _ s =>
  match s with
  | [] => .error .runtimeError
  | a :: s => .ok (fun i => if i.2 = 0 then a else 2 * a, s)

/-- test process -/
def exHW : SDE ℚ (Unit × Fin 2 → ℚ) (Unit → ℚ) ℕ (List ℚ) :=
  hullWhiteSDE (fun i => if i.2 = 0 then 1 else 2) (fun _ _ => 5) (fun _ i => if i.2 = 0 then 1/2 else 1)
    (fun _ _ => 3) hwNoise

-- step to 1: 1 + (1/2)*4*(-1) + 3*7 = 20, 2 + 3*(-1) + 3*14 = 41
example : readAt () (exHW.call 10 (.iter [3]) 1 ⟨[3], [1, 2, 5]⟩ [7, 8, 9, 100]) =
    [some 61, some 3, some 43] := by
  decide +kernel

example : ∃ xx s', exHW.call 10 (.iter [3]) 1 ⟨[3], [1, 2, 5]⟩ [7, 8, 9, 100] = .ok (xx, s') := by
  cases h : exHW.call 10 (.iter [3]) 1 ⟨[3], [1, 2, 5]⟩ [7, 8, 9, 100] with
  | ok r => exact ⟨r.1, r.2, rfl⟩
  | error e =>
    have : readAt () (exHW.call 10 (.iter [3]) 1 ⟨[3], [1, 2, 5]⟩ [7, 8, 9, 100]) ≠ [] := by
      decide +kernel
    rw [h] at this
    exact absurd rfl this

example := C16_one_factor (fun _ : Unit × Fin 1 => (1 : ℚ)) (fun _ _ => 5) (fun _ _ => 1)
  (fun _ _ => 3) (fun _ _ s => .ok (fun _ => 4, s)) exAlong ()

end

/-! ### C18: the Cox-Ingersoll-Ross process -/

section
variable {ι σ : Type}

theorem npSqrt_npPlus (x : ι → ℝ) : npSqrt (npPlus x) = .ok fun i => Real.sqrt (max (x i) 0) := by
  unfold npSqrt
  rw [if_pos (show ∀ i, 0 ≤ npPlus x i from fun i => le_max_right _ _)]
  rfl

/-- **C18** (Cox-Ingersoll-Ross). The square root is always defined, and one step is the one of the
stated equation where `x > 0`, of `dx = k*theta*dt` elsewhere. -/
theorem C18_cir_step (x0 : ι → ℝ) (theta k xi : ℝ → ι → ℝ) (dw : Src ℝ ι σ) (t : ℝ) (x : ι → ℝ)
    (t' : ℝ) (s : σ) :
    (equation (cirSDE x0 theta k xi dw)).step t x t' s =
      (do let (w, s) ← dw t (t' - t) s
          pure (fun i =>
            if 0 < x i then
              x i + k t i * (theta t i - x i) * (t' - t) + xi t i * Real.sqrt (x i) * w i
            else x i + k t i * theta t i * (t' - t), s)) := by
  rw [step_two (a := fun t x => k t * (theta t - npPlus x))
    (b := fun t x => xi t * fun i => Real.sqrt (max (x i) 0)) (dw := dw) rfl
    (fun t x => by simp only [cirSDE, cirCoef, npSqrt_npPlus])]
  simp only [bind, Except.bind, pure, Except.pure]
  cases dw t (t' - t) s with
  | error e => rfl
  | ok r =>
    simp only [Except.map, Except.ok.injEq, Prod.mk.injEq, and_true]
    funext i
    simp only [Pi.mul_apply, Pi.sub_apply, npPlus]
    by_cases hx : 0 < x i
    · rw [if_pos hx, max_eq_left hx.le]
    · rw [if_neg hx, max_eq_right (not_lt.1 hx)]
      simp

/-- The coefficients of the Cox-Ingersoll-Ross equation never fail: an integration fails only if
the source of noise does. -/
theorem C18_cir_never_nan (x0 : ι → ℝ) (theta k xi : ℝ → ι → ℝ) (dw : Src ℝ ι σ)
    (hdw : ∀ t dt s, ∃ r, dw t dt s = .ok r) {fuel : ℕ} {steps : Steps ℝ} {i0 : ℤ}
    {tl : TArr ℝ} {grid : List ℝ} {t0 : ℝ} (h : Along fuel steps i0 tl grid t0) (s : σ) :
    ∃ xx s', (cirSDE x0 theta k xi dw).call fuel steps i0 tl s = .ok (xx, s') ∧
      ∀ x ∈ xx, x ≠ none := by
  have hsde : ∀ t x, (cirSDE x0 theta k xi dw).sde t x =
      .ok (some [(idT, (fun t x => k t * (theta t - npPlus x)) t x),
        (idW, (fun t x => xi t * fun i => Real.sqrt (max (x i) 0)) t x)]) :=
    fun t x => by simp only [cirSDE, cirCoef, npSqrt_npPlus]
  have hok := two_sources_ok (dw := dw) rfl hsde
  have hstep : ∀ t x t' s, ∃ r, (equation (cirSDE x0 theta k xi dw)).step t x t' s = .ok r := by
    intro t x t' s
    rw [step_two rfl hsde]
    obtain ⟨r, hr⟩ := hdw t (t' - t) s
    rw [hr]; exact ⟨_, rfl⟩
  have hpath : ∀ ts t x s, ∃ r, (equation (cirSDE x0 theta k xi dw)).path t x ts s = .ok r := by
    intro ts
    induction ts with
    | nil => intro t x s; exact ⟨_, rfl⟩
    | cons t' ts ih =>
      intro t x s
      obtain ⟨r, hr⟩ := hstep t x t' s
      obtain ⟨r', hr'⟩ := ih t' r.1 r.2
      simp only [Equation.path, bind, Except.bind, pure, Except.pure, hr, hr']
      exact ⟨_, rfl⟩
  have hsol : ∃ r, (equation (cirSDE x0 theta k xi dw)).solution t0 x0 grid s = .ok r := by
    obtain ⟨r, hr⟩ := hpath (grid.filter (· < t0)).reverse t0 x0 s
    obtain ⟨r', hr'⟩ := hpath (grid.filter (t0 < ·)) t0 x0 r.2
    simp only [Equation.solution, bind, Except.bind, pure, Except.pure, hr, hr']
    exact ⟨_, rfl⟩
  obtain ⟨⟨ps, s'⟩, hr⟩ := hsol
  rw [call_along _ hok h s]
  have hinit : (cirSDE x0 theta k xi dw).init t0 = .ok x0 := rfl
  have hlog : (cirSDE x0 theta k xi dw).log = false := rfl
  simp only [hinit, hlog, bind, Except.bind, pure, Except.pure, Bool.false_eq_true, if_false, hr]
  refine ⟨_, _, rfl, ?_⟩
  intro x hx
  obtain ⟨h1, h2, h3⟩ := along_mem h
  have ht := solution_times _ h.isGrid.1 h2 hr
  obtain ⟨t, htm, rfl⟩ := List.mem_map.1 hx
  obtain ⟨y, hy⟩ := lookup_isSome_of_times (ps := ps) (t := t) (by rw [ht]; exact h3 t htm)
  rw [hy]; simp

example := C18_cir_never_nan (ι := Unit) (σ := Unit) (fun _ => 1) (fun _ _ => 3) (fun _ _ => 2)
  (fun _ _ => 1) (fun _ _ s => .ok (fun _ => -100, s)) (fun _ _ s => ⟨_, rfl⟩) exAlongR ()

end

end Sdepy
