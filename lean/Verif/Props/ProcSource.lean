import Verif.Model.ProcSource
import Verif.Props.ProcessInterp
import Verif.Props.ArrSDE
import Verif.Props.Presets
import Verif.Props.Params
import Verif.Lemmas.ArrRv

/-!
# Processes given as stochasticity sources or as parameters
-/

namespace Sdepy

/-- The function of time (and of the component) that a process stands for: it passes through the values of
the process, it is linear between any two times, and constant before the first and after the last one. -/
structure Spec.Joins {K : Type} [Field K] [LinearOrder K] (p : Proc K K) (f : K → List ℕ → K) : Prop where
  node : ∀ k t r, p.t[k]? = some t → f t r = p.x.get (k :: r)
  line : ∀ k a b c r, p.t[k]? = some a → p.t[k + 1]? = some b → 0 ≤ c → c ≤ 1 →
    f (a + c * (b - a)) r = p.x.get (k :: r) + c * (p.x.get ((k + 1) :: r) - p.x.get (k :: r))
  before : ∀ a t r, p.t.head? = some a → t ≤ a → f t r = p.x.get (0 :: r)
  after : ∀ b t r, p.t.getLast? = some b → b ≤ t → f t r = p.x.get ((p.t.length - 1) :: r)

open Spec

section
variable {K σ : Type} [Field K] [LinearOrder K] [IsStrictOrderedRing K]

theorem joins_at {p : Proc K K} (hp : IsProc p) (hs : Increasing p) : Joins p (p.at id .linear) where
  node k t r := (C44_values_partial p hp hs r).1 k t
  line k a b c r := (C44_values_partial p hp hs r).2.1 k a b c
  before a t r := (C44_values_partial p hp hs r).2.2.1 a t
  after b t r := (C44_values_partial p hp hs r).2.2.2 b t

/-- There is one such function only. -/
theorem joins_unique {p : Proc K K} (hp : IsProc p) (hs : Increasing p) {f g : K → List ℕ → K}
    (hf : Joins p f) (hg : Joins p g) : f = g := by
  funext t r
  have hne := hp.1
  obtain ⟨a, ha⟩ : ∃ a, p.t.head? = some a := by
    cases h : p.t with
    | nil => exact absurd h hne
    | cons a l => exact ⟨a, rfl⟩
  obtain ⟨b, hb⟩ : ∃ b, p.t.getLast? = some b := ⟨_, List.getLast?_eq_some_getLast hne⟩
  rcases le_or_gt t a with h | h
  · rw [hf.before a t r ha h, hg.before a t r ha h]
  rcases le_or_gt b t with h' | h'
  · rw [hf.after b t r hb h', hg.after b t r hb h']
  -- the last time before `t`
  have key : ∀ n, (∀ (k : ℕ) u, p.t[k]? = some u → k ≤ n → u ≤ t) ∨
      ∃ (k : ℕ) (u v : K), p.t[k]? = some u ∧ p.t[k + 1]? = some v ∧ u ≤ t ∧ t ≤ v := by
    intro n
    induction n with
    | zero =>
      left
      intro k u hk h0
      have : k = 0 := by omega
      subst this
      rw [← List.head?_eq_getElem?, ha] at hk
      cases hk
      exact h.le
    | succ n ih =>
      rcases ih with ih | ih
      · cases hn : p.t[n + 1]? with
        | none =>
          left
          intro k u hk hkn
          rcases Nat.lt_or_ge k (n + 1) with h1 | h1
          · exact ih k u hk (by omega)
          · have : k = n + 1 := by omega
            subst this
            rw [hn] at hk
            cases hk
        | some v =>
          rcases le_or_gt v t with hv | hv
          · left
            intro k u hk hkn
            rcases Nat.lt_or_ge k (n + 1) with h1 | h1
            · exact ih k u hk (by omega)
            · have : k = n + 1 := by omega
              subst this
              rw [hn] at hk
              cases hk
              exact hv
          · right
            obtain ⟨hlt, -⟩ := List.getElem?_eq_some_iff.1 hn
            exact ⟨n, _, v, List.getElem?_eq_getElem (by omega), hn,
              ih n _ (List.getElem?_eq_getElem (by omega)) le_rfl, hv.le⟩
      · exact .inr ih
  rcases key p.t.length with h1 | ⟨k, u, v, hu, hv, h1, h2⟩
  · have := h1 _ b (by rw [← List.getLast?_eq_getElem?]; exact hb) (by omega)
    exact absurd this (not_le.2 h')
  · have huv : u < v := by
      obtain ⟨h3, rfl⟩ := List.getElem?_eq_some_iff.1 hu
      obtain ⟨h4, rfl⟩ := List.getElem?_eq_some_iff.1 hv
      exact List.pairwise_iff_getElem.1 hs _ _ h3 h4 (by omega)
    have hd : 0 < v - u := sub_pos.2 huv
    have e : t = u + (t - u) / (v - u) * (v - u) := by field_simp; ring
    have c0 : 0 ≤ (t - u) / (v - u) := div_nonneg (sub_nonneg.2 h1) hd.le
    have c1 : (t - u) / (v - u) ≤ 1 := by rw [div_le_one hd]; linarith
    rw [e, hf.line k u v _ r hu hv c0 c1, hg.line k u v _ r hu hv c0 c1]

omit [IsStrictOrderedRing K] in
theorem proc_tail {p : Proc K K} (h2 : 2 ≤ p.x.shape.length) : p.x.shape.tail = p.vshape ++ [p.paths] := by
  have := (C44_call id .linear p (.scalar 0) h2).1
  simpa [Proc.call, Arr.scalar] using this

/-- Outcome of the source: the difference of two values. -/
theorem source_eq (p : Proc K K) (cast : K → K) (kind : Kind) (t dt : K) (s : σ) :
    ∃ v, p.source cast kind t dt s = .ok (v, s) ∧ v.shape = p.x.shape.tail ∧
      ∀ r, InRange p.x.shape.tail r → v.get r = p.at cast kind (t + dt) r - p.at cast kind t r := by
  obtain ⟨v, h1, h2, h3⟩ := (C44_increment cast kind p (.scalar t) (.scalar dt)).1 [] rfl
  refine ⟨v, ?_, h2, fun r hr => h3 [] r .nil hr⟩
  unfold Proc.source
  rw [h1]

theorem bcOk_fits {v w : List ℕ} (h : BcOk v w) (n : ℕ) : Fits (v ++ [n]) (w ++ [n]) := by
  rw [fits_iff]
  apply fitsRev_of_bcOk
  simpa using bcOkRev_append [n] h

/-- **C77** (sources accepted). A process is accepted as a source exactly if it has as many paths as the
equation (not one path only) and its values can be repeated to the shape required; then it is used as it is,
it is never rejected later on, and its realisations can be given to the cells of the equation. -/
theorem C77_accepted {C : Type} (p : Proc K K) (h2 : 2 ≤ p.x.shape.length) (default : C)
    (make : C → ℕ → List ℕ → Py (Proc K K)) (paths : ℕ) (vshape : List ℕ) :
    ((p.paths = paths ∧ ∃ b, (Arr.mk p.vshape fun _ => (0 : K)).broadcastTo vshape = .ok b) →
      sourceSetup p.rawSource default make paths vshape = .ok p ∧
      Realises (vshape ++ [paths]) (p.source id .linear : K → K → σ → Py (Arr K × σ)) ∧
      ∀ t dt (s : σ), ∃ v, p.source id .linear t dt s = .ok (v, s)) ∧
    (¬ (p.paths = paths ∧ ∃ b, (Arr.mk p.vshape fun _ => (0 : K)).broadcastTo vshape = .ok b) →
      sourceSetup p.rawSource default make paths vshape = .error .valueError) := by
  have hb : (∃ b, (Arr.mk p.vshape fun _ => (0 : K)).broadcastTo vshape = .ok b) ↔ BcOk p.vshape vshape := by
    unfold Arr.broadcastTo
    simp only
    split <;> simp_all
  rw [hb]
  refine ⟨?_, ?_⟩
  · rintro ⟨rfl, h⟩
    refine ⟨by simp [sourceSetup, Proc.rawSource, checkSource, h], ?_, fun t dt s => ?_⟩
    · intro t dt s v s' hv
      obtain ⟨v', e1, e2, -⟩ := source_eq p id .linear t dt s
      rw [e1] at hv
      cases hv
      rw [e2, proc_tail h2]
      exact bcOk_fits h _
    · obtain ⟨v', e1, -⟩ := source_eq p id .linear t dt s
      exact ⟨v', e1⟩
  · intro h
    have : p.paths ≠ paths ∨ ¬ BcOk p.vshape vshape := by
      by_contra hc
      push Not at hc
      exact h hc
    simp [sourceSetup, Proc.rawSource, checkSource, this]

/-- What a process gives to the cells of an equation, at each time. -/
def Spec.procCell (p : Proc K K) (f : K → List ℕ → K) {shape : List ℕ} (t : K) (c : Cells shape) : K :=
  f t (cellIndex (p.vshape ++ [p.paths]) c.1)

/-- The source realises the increments of one function of time, whatever the state and the times. -/
theorem source_memory {p : Proc K K} (h2 : 2 ≤ p.x.shape.length) {W : List ℕ}
    (hW : Fits (p.vshape ++ [p.paths]) W) (s0 : σ) :
    Memory (· = s0) (fun _ => True) (cellSource W (p.source id .linear))
      (fun t c => procCell p (p.at id .linear) t c) := by
  rintro t dt s rfl - -
  obtain ⟨v, e1, e2, e3⟩ := source_eq p id .linear t dt s
  refine ⟨s, ?_, rfl⟩
  unfold cellSource
  rw [e1]
  simp only [Except.map, Except.ok.injEq, Prod.mk.injEq, and_true]
  funext c
  have hc : InRange p.x.shape.tail (cellIndex p.x.shape.tail c.1) :=
    cellIndex_inRange (by rw [proc_tail h2]; exact hW) c.2
  simp only [cellsOf, cellValue, e2, e3 _ hc, Pi.sub_apply, procCell]
  rw [proc_tail h2]

/-- **C77** (Wiener process driven by a process). Let `f` be the function of time that the process `p`
stands for. With `p` as the source of noise, whatever the steps, the timeline and the initial time
(synchronised with those of `p` or not), the value of each cell at time `t` is
`x0 + mu*(t - t0) + sigma*(f(t) - f(t0))`; no random numbers are drawn. -/
theorem C77_wiener {p : Proc K K} (hp : IsProc p) (h2 : 2 ≤ p.x.shape.length) (hs : Increasing p)
    {vshape : List ℕ} {paths : ℕ} {x0 mu sigma : Arr K}
    (h0 : Fits x0.shape (vshape ++ [paths])) (hm : Fits mu.shape (vshape ++ [paths]))
    (hv : Fits sigma.shape (vshape ++ [paths])) (hW : Fits (p.vshape ++ [p.paths]) (vshape ++ [paths]))
    {f : K → List ℕ → K} (hf : Joins p f) {fuel : ℕ} {steps : Steps K} {i0 : ℤ} {tl : TArr K}
    {grid : List K} {t0 : K} (h : Along fuel steps i0 tl grid t0) (s : σ) :
    onCells (vshape ++ [paths]) ((wienerArr vshape paths x0 (RawParam.arr mu).setup
        (RawParam.arr sigma).setup (p.source id .linear)).call fuel steps i0 tl s) =
      .ok (tl.data.map fun t => some fun c => cellValue x0 c.1 + cellValue mu c.1 * (t - t0) +
        cellValue sigma c.1 * (procCell p f t c - procCell p f t0 c), s) := by
  rw [joins_unique hp hs hf (joins_at hp hs)]
  have hR : Realises (vshape ++ [paths]) (p.source id .linear : K → K → σ → Py (Arr K × σ)) := by
    intro t dt s v s' hv
    obtain ⟨v', e1, e2, -⟩ := source_eq p id .linear t dt s
    rw [e1] at hv
    cases hv
    rw [e2, proc_tail h2]
    exact hW
  rw [C67_wiener (mu := (RawParam.arr mu).setup) (sigma := (RawParam.arr sigma).setup) (m := fun _ => mu) (v := fun _ => sigma) h0 ⟨.inl ⟨mu, rfl, fun _ => rfl⟩, fun _ => hm⟩
    ⟨.inl ⟨sigma, rfl, fun _ => rfl⟩, fun _ => hv⟩ hR]
  obtain ⟨s', e, rfl⟩ := C14_wiener_memory (cellsOf _ x0) (cellsOf _ mu) (cellsOf _ sigma) _
    (source_memory h2 hW s) h (fun _ _ => trivial) s rfl
  exact e

/-- **C77** (replay). A Wiener process of unit volatility and no drift, with `p` as the source of noise and
the value of `p` at `t0` as initial value, is `p`: its value at any time `t` is the one of `p`, whatever the
steps. In particular, along the timeline of `p` its values are those of `p`. -/
theorem C77_replay {p : Proc K K} (hp : IsProc p) (h2 : 2 ≤ p.x.shape.length) (hs : Increasing p)
    {f : K → List ℕ → K} (hf : Joins p f) {fuel : ℕ} {steps : Steps K} {i0 : ℤ} {tl : TArr K}
    {grid : List K} {t0 : K} (h : Along fuel steps i0 tl grid t0) (s : σ) :
    onCells (p.vshape ++ [p.paths]) ((wienerArr p.vshape p.paths (p.call id .linear (.scalar t0))
        (RawParam.arr (.scalar 0)).setup (RawParam.arr (.scalar 1)).setup (p.source id .linear)).call
          fuel steps i0 tl s) =
      .ok (tl.data.map fun t => some fun c => f t c.1, s) ∧
    (tl.data = p.t → onCells (p.vshape ++ [p.paths])
      ((wienerArr p.vshape p.paths (p.call id .linear (.scalar t0)) (RawParam.arr (.scalar 0)).setup
        (RawParam.arr (.scalar 1)).setup (p.source id .linear)).call fuel steps i0 tl s) =
      .ok ((List.range p.t.length).map fun k => some fun c => p.x.get (k :: c.1), s)) := by
  have hx : (p.call id .linear (.scalar t0)).shape = p.vshape ++ [p.paths] := by
    rw [(C44_call id .linear p (.scalar t0) h2).1]
    rfl
  have h1 := C77_wiener hp h2 hs (vshape := p.vshape) (paths := p.paths)
    (x0 := p.call id .linear (.scalar t0)) (mu := .scalar 0) (sigma := .scalar 1)
    (by rw [hx]; exact fitsRev_refl _) (scalar_fits _ _) (scalar_fits _ _) (fitsRev_refl _) hf h s
  have hci : ∀ c : Cells (p.vshape ++ [p.paths]), cellIndex (p.vshape ++ [p.paths]) c.1 = c.1 := by
    intro c
    rw [cellIndex_eq (fitsRev_refl _) c.2, bcIdxRev_self' (by
      have := c.2; unfold InRange at *; exact List.rel_reverse this), List.reverse_reverse]
  have hval : ∀ t (c : Cells (p.vshape ++ [p.paths])), cellValue (p.call id .linear (.scalar t0)) c.1 +
      cellValue (.scalar 0) c.1 * (t - t0) + cellValue (.scalar 1) c.1 * (procCell p f t c - procCell p f t0 c) =
        f t c.1 := by
    intro t c
    have e1 : cellValue (p.call id .linear (.scalar t0)) c.1 = f t0 c.1 := by
      unfold cellValue
      rw [hx, hci, joins_unique hp hs hf (joins_at hp hs)]
      exact (C44_call id .linear p (.scalar t0) h2).2 [] c.1 .nil
    have e2 : ∀ (a : K) l, cellValue (.scalar a) l = a := fun _ _ => rfl
    simp only [e1, e2, procCell, hci]
    ring
  have h3 : onCells (p.vshape ++ [p.paths]) ((wienerArr p.vshape p.paths (p.call id .linear (.scalar t0))
        (RawParam.arr (.scalar 0)).setup (RawParam.arr (.scalar 1)).setup (p.source id .linear)).call
          fuel steps i0 tl s) = .ok (tl.data.map fun t => some fun c => f t c.1, s) := by
    rw [h1]
    simp only [hval]
  refine ⟨h3, fun ht => ?_⟩
  rw [h3, ht]
  congr 2
  apply List.ext_getElem
  · simp
  · intro k hk hk'
    simp only [List.getElem_map, List.getElem_range, Option.some.injEq]
    funext c
    exact hf.node k _ c.1 (List.getElem?_eq_getElem (by simpa using hk))

/-- A process as a parameter. -/
theorem given_proc {p : Proc K K} (h2 : 2 ≤ p.x.shape.length) {W : List ℕ}
    (hW : Fits (p.vshape ++ [p.paths]) W) :
    Given W (p.rawParam id .linear).setup fun t => p.call id .linear (.scalar t) := by
  refine ⟨.inr ⟨_, _, rfl, fun _ => rfl⟩, fun t => ?_⟩
  rw [(C44_call id .linear p (.scalar t) h2).1]
  exact hW

theorem cellsOf_call {p : Proc K K} (h2 : 2 ≤ p.x.shape.length) {W : List ℕ}
    (hW : Fits (p.vshape ++ [p.paths]) W) (t : K) :
    cellsOf W (p.call id .linear (.scalar t)) = fun c => procCell p (p.at id .linear) t c := by
  funext c
  unfold cellsOf cellValue procCell
  have e : (p.call id .linear (.scalar t)).shape = p.vshape ++ [p.paths] := by
    rw [(C44_call id .linear p (.scalar t) h2).1]; rfl
  rw [e]
  exact (C44_call id .linear p (.scalar t) h2).2 [] _ .nil

/-- **C77** (processes as parameters). With processes `a` and `b` as drift and volatility of a Wiener
process, the equation integrated in each cell is the one with drift and volatility, at each time of the
grid, given by the functions of time that the processes stand for, path by path if they have as many paths,
for all paths if they have one. The source of noise is arbitrary. -/
theorem C77_parameters {a b : Proc K K} (ha : IsProc a) (h2a : 2 ≤ a.x.shape.length) (hsa : Increasing a)
    (hb : IsProc b) (h2b : 2 ≤ b.x.shape.length) (hsb : Increasing b) {vshape : List ℕ} {paths : ℕ}
    (hWa : Fits (a.vshape ++ [a.paths]) (vshape ++ [paths]))
    (hWb : Fits (b.vshape ++ [b.paths]) (vshape ++ [paths])) {f g : K → List ℕ → K} (hf : Joins a f)
    (hg : Joins b g) {x0 : Arr K} (h0 : Fits x0.shape (vshape ++ [paths]))
    {dw : K → K → σ → Py (Arr K × σ)} (hdw : Realises (vshape ++ [paths]) dw)
    (fuel : ℕ) (steps : Steps K) (i0 : ℤ) (tl : TArr K) (s : σ) :
    onCells (vshape ++ [paths]) ((wienerArr vshape paths x0 (a.rawParam id .linear).setup
        (b.rawParam id .linear).setup dw).call fuel steps i0 tl s) =
      (wienerSDE (cellsOf _ x0) (fun t c => procCell a f t c) (fun t c => procCell b g t c)
        (cellSource (vshape ++ [paths]) dw)).call fuel steps i0 tl s := by
  rw [C67_wiener h0 (given_proc h2a hWa) (given_proc h2b hWb) hdw]
  simp only [cellsOf_call h2a hWa, cellsOf_call h2b hWb, joins_unique ha hsa hf (joins_at ha hsa),
    joins_unique hb hsb hg (joins_at hb hsb)]

end

/-- **C77** (processes as intensities). A process is accepted as the intensity of a source of Poisson variates exactly if
its values, path by path, can be repeated to the shape of the values of the source. -/
theorem C77_intensity {K : Type} [Field K] [LinearOrder K] [IsStrictOrderedRing K] (p : Proc K K)
    (h2 : 2 ≤ p.x.shape.length) (paths : ℕ) (vshape : List ℕ) :
    ((∃ b, (p.call id .linear (.scalar 0)).broadcastTo (vshape ++ [paths]) = .ok b) →
      ∃ S, poissonNew paths vshape (p.rawParam id .linear) = .ok S) ∧
    ((¬ ∃ b, (p.call id .linear (.scalar 0)).broadcastTo (vshape ++ [paths]) = .ok b) →
      poissonNew paths vshape (p.rawParam id .linear) = .error .valueError) := by
  have e : (p.call id .linear (.scalar 0)).shape = p.vshape ++ [p.paths] := by
    rw [(C44_call id .linear p (.scalar 0) h2).1]; rfl
  have hb : (∃ b, (p.call id .linear (.scalar 0)).broadcastTo (vshape ++ [paths]) = .ok b) ↔
      BcOk (p.vshape ++ [p.paths]) (vshape ++ [paths]) := by
    unfold Arr.broadcastTo
    rw [e]
    split <;> simp_all
  rw [hb]
  refine ⟨fun h => ⟨_, if_pos h⟩, fun h => if_neg h⟩

/-- **C77** (lognormal process driven by a process). -/
theorem C77_lognorm {σ : Type} {p : Proc ℝ ℝ} (hp : IsProc p) (h2 : 2 ≤ p.x.shape.length)
    (hs : Increasing p) {vshape : List ℕ} {paths : ℕ} {x0 mu sigma : Arr ℝ}
    (h0 : Fits x0.shape (vshape ++ [paths])) (hpos : ∀ c : Cells (vshape ++ [paths]), 0 < cellValue x0 c.1)
    (hm : Fits mu.shape (vshape ++ [paths]))
    (hv : Fits sigma.shape (vshape ++ [paths])) (hW : Fits (p.vshape ++ [p.paths]) (vshape ++ [paths]))
    {f : ℝ → List ℕ → ℝ} (hf : Joins p f) {fuel : ℕ} {steps : Steps ℝ} {i0 : ℤ} {tl : TArr ℝ}
    {grid : List ℝ} {t0 : ℝ} (h : Along fuel steps i0 tl grid t0) (s : σ) :
    onCells (vshape ++ [paths]) ((lognormArr vshape paths x0 (RawParam.arr mu).setup
        (RawParam.arr sigma).setup (p.source id .linear)).call fuel steps i0 tl s) =
      .ok (tl.data.map fun t => some fun c => cellValue x0 c.1 *
        Real.exp ((cellValue mu c.1 - cellValue sigma c.1 ^ 2 / 2) * (t - t0) +
          cellValue sigma c.1 * (procCell p f t c - procCell p f t0 c)), s) := by
  rw [joins_unique hp hs hf (joins_at hp hs)]
  have hR : Realises (vshape ++ [paths]) (p.source id .linear : ℝ → ℝ → σ → Py (Arr ℝ × σ)) := by
    intro t dt s v s' hv
    obtain ⟨v', e1, e2, -⟩ := source_eq p id .linear t dt s
    rw [e1] at hv
    cases hv
    rw [e2, proc_tail h2]
    exact hW
  rw [C67_lognorm (mu := (RawParam.arr mu).setup) (sigma := (RawParam.arr sigma).setup) (m := fun _ => mu) (v := fun _ => sigma) h0 ⟨.inl ⟨mu, rfl, fun _ => rfl⟩, fun _ => hm⟩
    ⟨.inl ⟨sigma, rfl, fun _ => rfl⟩, fun _ => hv⟩ hR]
  obtain ⟨s', e, rfl⟩ := C14_lognorm_memory (cellsOf _ x0) (cellsOf _ mu) (cellsOf _ sigma) hpos _
    (source_memory h2 hW s) h (fun _ _ => trivial) s rfl
  exact e

/-! ### examples -/

theorem exProc_fits : Fits (exProc.vshape ++ [exProc.paths]) ([2, 3] ++ [4]) := by
  intro j
  match j with
  | 0 => exact .inr rfl
  | 1 => exact .inr rfl
  | 2 => exact .inl rfl
  | j + 3 => exact .inl rfl

example := (C77_accepted (σ := ℕ) exProc (by simp [exProc]) () (fun _ _ _ => .error .typeError) 4 [2, 3]).1
  ⟨rfl, _, rfl⟩
example := (C77_accepted (σ := ℕ) exProc (by simp [exProc]) () (fun _ _ _ => .error .typeError) 5 [2, 3]).2
  (by rintro ⟨h, -⟩; exact absurd h (by decide))

example := (C77_intensity exProc (by simp [exProc]) 4 [5, 2, 3]).1 ⟨_, rfl⟩
example := (C77_intensity exProc (by simp [exProc]) 5 [2, 3]).2 (by
  rintro ⟨b, h⟩
  exact absurd (h.symm.trans (if_neg (show ¬ BcOk [3, 4] [2, 3, 5] by decide))) (by simp))

/-- Integration steps and timeline are not those of the process, whose last time is `1/2`. -/
example := C77_wiener exProc_isProc (by simp [exProc]) exProc_increasing (vshape := [2, 3]) (paths := 4)
  (x0 := .scalar 5) (mu := .scalar 2) (sigma := vecArr [1, 2, 3, 4]) (scalar_fits _ _) (scalar_fits _ _)
  (by intro j; match j with
    | 0 => exact .inr rfl
    | j + 1 => exact .inl rfl)
  exProc_fits (joins_at exProc_isProc exProc_increasing) exAlong (7 : ℕ)

example := C77_replay exProc_isProc (by simp [exProc]) exProc_increasing
  (joins_at exProc_isProc exProc_increasing) exAlong (7 : ℕ)

example := C77_parameters exProc_isProc (by simp [exProc]) exProc_increasing exProc_isProc (by simp [exProc])
  exProc_increasing exProc_fits exProc_fits (joins_at exProc_isProc exProc_increasing)
  (joins_at exProc_isProc exProc_increasing) (x0 := .scalar 5) (scalar_fits _ _) (dw := dtArr (σ := ℕ))
  (dtArr_fits _) 10 .none 0 ⟨[2], [0, 1]⟩ 7

/-- In cell `(1, 2, 3)`, with the value 23 of the process at time 0 and 123 at time `1/2` and later: after
`1/4`, `5 + 2/4 + 3*50`; after 1, `5 + 2 + 3*100`. -/
example : ((wienerArr [2, 3] 4 (.scalar 5) (RawParam.arr (.scalar 2)).setup (RawParam.arr (.scalar 3)).setup
    (exProc.source id .linear)).call 10 (.iter [1/8, 3/4]) 0 ⟨[3], [0, 1/4, 1]⟩ (7 : ℕ)).map (fun r =>
      (r.1.map fun o => o.map fun a => (a.shape, a.get [1, 2, 3]), r.2)) =
    .ok ([some ([2, 3, 4], 5), some ([2, 3, 4], 311/2), some ([2, 3, 4], 307)], 7) := by decide +kernel

/-- A process of real numbers with one component and two paths. -/
def exProcR : Proc ℝ ℝ := ⟨[0, 2], ⟨[2, 1, 2], fun i => (i.headD 0 : ℕ)⟩⟩

example := C77_lognorm (p := exProcR) ⟨by simp [exProcR], rfl⟩ (by simp [exProcR])
  (by simp [Increasing, exProcR]) (vshape := [3]) (paths := 2) (x0 := .scalar 5) (mu := .scalar 2)
  (sigma := .scalar 3) (scalar_fits _ _) (fun _ => by show (0 : ℝ) < 5; norm_num) (scalar_fits _ _)
  (scalar_fits _ _)
  (by intro j; match j with
    | 0 => exact .inr rfl
    | 1 => exact .inl rfl
    | j + 2 => exact .inl rfl)
  (joins_at ⟨by simp [exProcR], rfl⟩ (by simp [Increasing, exProcR])) exAlongR (7 : ℕ)

end Sdepy
