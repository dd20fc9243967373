import Verif.Lemmas.SDEs
import Verif.Props.SDE

/-!
# Properties C13, and C09 for systems of equations
-/

set_option linter.unusedSectionVars false
set_option linter.unusedSimpArgs false

namespace Sdepy

open Spec BigOperators

variable {T K Id σ : Type} [Field T] [LinearOrder T] [IsStrictOrderedRing T] [CommRing K]
  [LinearOrder Id]

/-! ### C13 -/

theorem cellIdx_inRange {L : Layout} (hL : GoodLayout L) {i : ℕ} {c : List ℕ} {p : ℕ} (hi : i < L.q)
    (hc : InRange L.vshape c) (hp : p < L.paths) :
    InRange (L.wshape ++ [L.paths]) (cellIdx L i c p) := by
  unfold cellIdx Layout.wshape
  by_cases ha : L.addaxis = true
  · rw [if_pos ha, if_pos ha, List.append_assoc, inRange_append hc.length]
    exact ⟨hc, inRange_pair.2 ⟨_, _, rfl, hi, hp⟩⟩
  · have ha' : L.addaxis = false := by simpa using ha
    rw [if_neg ha, if_neg ha]
    obtain ⟨v, N, hv⟩ := vshape_split hL ha'
    rw [hv] at hc
    obtain ⟨kk, h', rfl, hkk, hh⟩ := hc.of_append
    obtain ⟨h, rfl, hN⟩ := inRange_singleton.1 hh
    rw [hv, List.dropLast_concat, List.dropLast_concat, List.append_assoc,
      inRange_append hkk.length]
    refine ⟨hkk, inRange_pair.2 ⟨_, _, rfl, ?_, hp⟩⟩
    simp only [List.getLastD_concat]
    calc i * N + h < i * N + N := by omega
      _ = (i + 1) * N := by ring
      _ ≤ L.q * N := Nat.mul_le_mul_right _ hi
      _ = N * L.q := Nat.mul_comm _ _

theorem lookup_map_snd {V W : Type} (f : V → W) (t : T) : ∀ ps : List (T × V),
    (ps.map (fun p => (p.1, f p.2))).lookup t = (ps.lookup t).map f := by
  intro ps
  induction ps with
  | nil => rfl
  | cons p ps ih =>
    obtain ⟨k, v⟩ := p
    simp only [List.map_cons, List.lookup_cons, ih]
    cases (t == k) <;> rfl

/-- Initial conditions: those that fit are imposed on each equation. -/
theorem C13_initial_condition (S : SDEs T K Id σ) (hS : SDEsOk S) (h0 : InitOk S) :
    ∃ x, S.init = .ok x ∧ cells S x = systemInit S := by
  have key : ∀ xs : List (Arr K), xs.length = S.L.q →
      (∀ x ∈ xs, BcOk x.shape (S.L.vshape ++ [S.L.paths])) →
      (S.L.pack xs = S.L.pack (if S.x0.shape = [] then List.replicate S.L.q S.x0 else S.x0.iter0)) →
      (∀ y : Cell S.L, ∀ x, xs[y.1.1]? = some x →
        bcAt x (y.1.2.1 ++ [y.1.2.2]) = systemInit S y) →
      ∃ x, S.init = .ok x ∧ cells S x = systemInit S := by
    intro xs h1 h2 h3 h4
    obtain ⟨X, hX1, hX2, hX3⟩ := pack_cells S hS.layout xs h1 h2
    obtain ⟨b, hb1, hb2⟩ := broadcastTo_self X
    rw [hX2] at hb1
    refine ⟨b.get, by simp only [SDEs.init, ← h3, hX1, hb1], ?_⟩
    funext y
    obtain ⟨x, hx1, hx2⟩ := hX3 y
    rw [← h4 y x hx1, ← hx2]
    have : InRange b.shape (cellIdx S.L y.1.1 y.1.2.1 y.1.2.2) := by
      rw [hb2.1, hX2]; exact cellIdx_inRange hS.layout y.2.1 y.2.2.1 y.2.2.2
    exact hb2.2 _ this
  rcases h0 with h0 | ⟨s, hs1, hs2⟩
  · refine key (List.replicate S.L.q S.x0) (by simp) ?_ (by rw [if_pos h0]) ?_
    · intro x hx
      rw [List.mem_replicate] at hx
      rw [hx.2, h0]; simp [BcOk, bcOkRev]
    · intro y x hx
      rw [List.getElem?_replicate, if_pos y.2.1] at hx
      simp only [Option.some.injEq] at hx
      rw [← hx]
      simp only [systemInit]; rw [if_pos h0]
  · have hne : ¬ S.x0.shape = [] := by rw [hs1]; simp
    have hit : S.x0.iter0 = (List.range S.L.q).map fun k =>
        (⟨s, fun i => S.x0.get (k :: i)⟩ : Arr K) := by
      unfold Arr.iter0; rw [hs1]
    refine key S.x0.iter0 (by rw [hit]; simp) ?_ (by rw [if_neg hne]) ?_
    · intro x hx
      rw [hit] at hx
      obtain ⟨k, -, rfl⟩ := List.mem_map.1 hx
      exact hs2
    · intro y x hx
      rw [hit, List.getElem?_map, List.getElem?_range y.2.1] at hx
      simp only [Option.map_some, Option.some.injEq] at hx
      rw [← hx]
      simp only [systemInit]; rw [if_neg hne, hs1]; rfl

/-- Values of a system as they come out: see `C09_systems` for the exponentials. -/
theorem call_system (S : SDEs T K Id σ) (hS : SDEsOk S) (h0 : InitOk S) (fuel : ℕ)
    (steps : Steps T) (i0 : ℤ) (tl : TArr T) (s : σ) (hv : ValidTimeline tl) {i : ℕ}
    (hi : Designates tl.data.length i0 i) (hst : ∀ n : ℤ, steps = .int n → 0 ≤ n) {grid : List T}
    (hg : IsGrid steps tl.data grid) {t0 : T} (ht0 : tl.data[i]? = some t0)
    (hfuel : grid.length ≤ fuel) :
    S.call fuel steps i0 tl s =
      (do let (ps, s) ← (system S).solution t0
            (fun y => if S.log then S.logK (systemInit S y) else systemInit S y) grid s
          pure (tl.data.map fun t => (ps.lookup t).map fun x => (List.range S.L.q).map
            (eqArr S.L fun y => if S.log then S.expK (S.expK (x y)) else x y), s)) := by
  obtain ⟨x0, hx0, hx0'⟩ := C13_initial_condition S hS h0
  have h2 := C02_euler S.toSDE (toSDE_ok S hS) fuel steps i0 tl s hv hi hst hg ht0 hfuel
  have hinit : S.toSDE.init t0 = .ok x0 := hx0
  have hstart : (fun y => if S.log then S.logK (systemInit S y) else systemInit S y) =
      cells S (if S.toSDE.log then S.toSDE.logX x0 else x0) := by
    have hl : S.toSDE.log = S.log := rfl
    rw [hl, ← hx0']
    funext y
    by_cases h : S.log = true
    · simp only [h, if_true]; rfl
    · simp only [h]; rfl
  rw [hstart, (system_hom S hS).solution]
  unfold SDEs.call
  rw [h2, hinit]
  simp only [bind, Except.bind]
  cases (equation S.toSDE).solution t0 (if S.toSDE.log then S.toSDE.logX x0 else x0) grid s with
  | error e => rfl
  | ok r =>
    simp only [pure, Except.pure, Except.map]
    have hlk : ∀ t, (r.1.map (fun p => (p.1, cells S p.2))).lookup t =
        (r.1.lookup t).map (cells S) := by
      intro t; exact lookup_map_snd (cells S) t r.1
    rw [mapPy_ok _ (fun x : Option (List ℕ → K) => x.map fun x => (List.range S.L.q).map
      (eqArr S.L fun y => if S.log then S.expK (cells S x y) else cells S x y))]
    · simp only [List.map_map, Except.ok.injEq, Prod.mk.injEq, and_true]
      apply List.map_congr_left
      intro t _
      simp only [Function.comp, hlk, Option.map_map]
      congr 1
      funext x
      simp only [Function.comp]
      have hl : S.toSDE.log = S.log := rfl
      have hlet : ∀ t x, S.toSDE.letX t x = x := fun _ _ => rfl
      by_cases h : S.log = true
      · simp only [h, hl, hlet, if_true]; rfl
      · simp only [h, hl, hlet]; rfl
    · intro x _
      cases x with
      | none => rfl
      | some x => exact resultAt_ok S hS x

/-- **C13.** Integrating a system of equations (`log = False`) yields, for each time of the
timeline and each equation, an array of the values of the Euler-Maruyama solution of the system:
`q` equations for each component and path, driven by the corresponding components of the sources.
Coefficients are computed from the values of all the equations. -/
theorem C13_system (S : SDEs T K Id σ) (hS : SDEsOk S) (h0 : InitOk S) (hlog : S.log = false)
    (fuel : ℕ) (steps : Steps T) (i0 : ℤ) (tl : TArr T) (s : σ) (hv : ValidTimeline tl) {i : ℕ}
    (hi : Designates tl.data.length i0 i) (hst : ∀ n : ℤ, steps = .int n → 0 ≤ n) {grid : List T}
    (hg : IsGrid steps tl.data grid) {t0 : T} (ht0 : tl.data[i]? = some t0)
    (hfuel : grid.length ≤ fuel) :
    S.call fuel steps i0 tl s =
      (do let (ps, s) ← (system S).solution t0 (systemInit S) grid s
          pure (tl.data.map fun t => (ps.lookup t).map fun x =>
            (List.range S.L.q).map (eqArr S.L x), s)) := by
  have := call_system S hS h0 fuel steps i0 tl s hv hi hst hg ht0 hfuel
  rw [this, hlog]
  simp

/-- One step of the solution of the system, in full: each scalar equation moves by the sum of its
coefficients times the increments dispatched to it. -/
theorem C13_step (S : SDEs T K Id σ) (t : T) (x : Cell S.L → K) (t' : T) (s : σ)
    {x' : Cell S.L → K} {s' : σ} (h : (system S).step t x t' s = .ok (x', s')) :
    ∃ (As : List (List (Id × Arr K))) (dz : Id → Cell S.L → K),
      S.sde t ((List.range S.L.q).map (eqArr S.L x)) = .ok (some (As.map some)) ∧
      As.length = S.L.q ∧
      realise (system S).noise t (t' - t) ((S.sources.map Prod.fst).toFinset.sort (· ≤ ·)) s =
        .ok (dz, s') ∧
      ∀ y : Cell S.L, ∃ A, As[y.1.1]? = some A ∧
        x' y = x y + ∑ id ∈ (S.sources.map Prod.fst).toFinset,
          ((A.lookup id).elim 0 fun a => bcAt a (y.1.2.1 ++ [y.1.2.2])) * dz id y := by
  unfold Equation.step at h
  simp only [bind, Except.bind, pure, Except.pure] at h
  cases hc : (system S).coef t x with
  | error e => rw [hc] at h; simp at h
  | ok a =>
    rw [hc] at h
    simp only at h
    have hids : (system S).ids = (S.sources.map Prod.fst).toFinset := rfl
    rw [hids] at h
    cases hr : realise (system S).noise t (t' - t)
        ((S.sources.map Prod.fst).toFinset.sort (· ≤ ·)) s with
    | error e => rw [hr] at h; simp at h
    | ok r =>
      rw [hr] at h
      simp only [Except.ok.injEq, Prod.mk.injEq] at h
      simp only [system, bind, Except.bind] at hc
      cases hsde : S.sde t ((List.range S.L.q).map (eqArr S.L x)) with
      | error e => rw [hsde] at hc; simp at hc
      | ok As? =>
        rw [hsde] at hc
        cases As? with
        | none => simp at hc
        | some As =>
          simp only at hc
          by_cases hlen : As.length ≠ S.L.q
          · rw [if_pos hlen] at hc; simp at hc
          rw [if_neg hlen] at hc
          have hlen' : As.length = S.L.q := by simpa using hlen
          cases hm : mapPy (eqDict S) As with
          | error e => rw [hm] at hc; simp at hc
          | ok Bs =>
            rw [hm] at hc
            simp only at hc
            have hBl : Bs.length = S.L.q := by rw [mapPy_length hm, hlen']
            by_cases hbc : ∃ A ∈ Bs, ∃ p ∈ A, ¬ BcOk p.2.shape (S.L.vshape ++ [S.L.paths])
            · rw [if_pos hbc] at hc; simp at hc
            rw [if_neg hbc] at hc
            simp only [pure, Except.pure, Except.ok.injEq] at hc
            have hAB : As = Bs.map some := by
              apply List.ext_getElem (by simp; omega)
              intro j h1 h2
              have hj : j < Bs.length := by simpa using h2
              have := (List.forall₂_iff_get.1 ((mapPy_ok_iff _ _ _).1 hm)).2 j h1 hj
              simp only [List.get_eq_getElem] at this
              simp only [List.getElem_map]
              cases hA : As[j] with
              | none => rw [hA] at this; simp [eqDict] at this
              | some A =>
                rw [hA] at this
                simp only [eqDict] at this
                by_cases hk : ∃ k ∈ A.map Prod.fst, k ∉ S.sources.map Prod.fst
                · rw [if_pos hk] at this; simp at this
                · rw [if_neg hk] at this; simpa using this
            refine ⟨Bs, r.1, by rw [hAB], hBl, by rw [← h.2], ?_⟩
            intro y
            have hy : y.1.1 < Bs.length := by rw [hBl]; exact y.2.1
            refine ⟨Bs[y.1.1], List.getElem?_eq_getElem hy, ?_⟩
            rw [← h.1]
            simp only [Pi.add_apply, Finset.sum_apply, Pi.mul_apply]
            congr 1
            apply Finset.sum_congr rfl
            intro id _
            congr 1
            rw [← hc]
            simp only [List.getElem?_eq_getElem hy]
            cases Bs[y.1.1].lookup id <;> rfl

/-! Two equations with values of shape (2,), one path, stacked: `dx = y*dt + dw`, `dy = x*dt`,
`x0 = 1`, `y0 = (2, 3)`. Ids: 0 for `dt`, 1 for `dw`, whose components are 1/4, 1/3, 5, 7. -/

/-- test system -/
def exSys : SDEs ℚ ℚ ℕ Unit where
  L := ⟨2, false, [2], 1⟩
  sources := [(0, fun _ dt s => .ok (fun _ => dt, s)),
    (1, fun _ _ s => .ok (fun i => [1/4, 1/3, 5, 7].getD (i.headD 0) 0, s))]
  sde _ xs := match xs with
    | [x, y] => .ok (some [some [(0, y), (1, .scalar 1)], some [(0, x)]])
    | _ => .error .typeError
  x0 := ⟨[2, 2, 1], fun i => if i.headD 0 = 0 then 1 else [2, 3].getD (i.tail.headD 0) 0⟩
  log := false
  logK := id
  expK := id

theorem exSys_ok : SDEsOk exSys ∧ InitOk exSys where
  left :=
    { layout := ⟨by decide, by intro h; simp [exSys] at h⟩
      sources := by simp [DictOk, exSys]
      sde := by
        intro t xs As h A hA
        simp only [exSys] at h
        split at h
        · simp only [Except.ok.injEq, Option.some.injEq] at h
          rw [← h] at hA
          simp only [List.mem_cons, Option.some.injEq, List.not_mem_nil, or_false] at hA
          rcases hA with rfl | rfl <;> simp [DictOk]
        · simp at h }
  right := .inr ⟨[2, 1], rfl, by decide⟩

/-- Values of the components of arrays. -/
def readOut (r : Py (List (Option (List (Arr ℚ))) × Unit)) (idx : List (List ℕ)) :
    Option (List (Option (List (List ℚ)))) :=
  match r with
  | .ok (xx, _) => some (xx.map (Option.map fun ys => ys.map fun y => idx.map y.get))
  | .error _ => none

example : readOut (exSys.call 10 .none 0 ⟨[2], [0, 1]⟩ ()) [[0, 0], [1, 0]] =
    some [some [[1, 1], [2, 3]], some [[1 + 2 + 1/4, 1 + 3 + 1/3], [2 + 1, 3 + 1]]] := by
  decide +kernel

theorem mapPy_append_error {α β : Type} {f : α → Py β} {e : PyErr} {a : α} (ha : f a = .error e) (l' : List α) :
    ∀ l : List α, (∀ b ∈ l, ∃ c, f b = .ok c) → mapPy f (l ++ a :: l') = .error e
  | [], _ => by simp [mapPy, ha]
  | b :: l, h => by
    obtain ⟨c, hc⟩ := h b List.mem_cons_self
    simp only [List.cons_append, mapPy, hc, mapPy_append_error ha l' l fun b hb => h b (List.mem_cons_of_mem _ hb)]

/-- **C13**, rejections: a step of a system fails with `TypeError` if `sde` does not return a list
or tuple, and with `ValueError` if it does not return as many items as there are equations. Otherwise the first
item that is not a dictionary, or has a key that is not a declared source, decides: the step fails with `TypeError` in the
former case, and with `KeyError` in the latter. -/
theorem C13_bad_sde_values (S : SDEs T K Id σ) (hS : SDEsOk S) (t : T) (x : List ℕ → K) :
    (S.sde t ((List.range S.L.q).map (eqArr S.L (cells S x))) = .ok none →
      S.A t x = .error .typeError) ∧
    (∀ As, S.sde t ((List.range S.L.q).map (eqArr S.L (cells S x))) = .ok (some As) →
      As.length ≠ S.L.q → S.A t x = .error .valueError) ∧
    ∀ (As : List (List (Id × Arr K))) (b : Option (List (Id × Arr K))) (Bs : List (Option (List (Id × Arr K)))),
      S.sde t ((List.range S.L.q).map (eqArr S.L (cells S x))) = .ok (some (As.map some ++ b :: Bs)) →
      As.length + 1 + Bs.length = S.L.q → (∀ A ∈ As, ∀ k ∈ A.map Prod.fst, k ∈ S.sources.map Prod.fst) →
      (b = none → S.A t x = .error .typeError) ∧
      ∀ A k, b = some A → k ∈ A.map Prod.fst → k ∉ S.sources.map Prod.fst → S.A t x = .error .keyError := by
  obtain ⟨ys, h1, h2⟩ := unpack_canon S hS.layout x
  refine ⟨?_, ?_, ?_⟩
  · intro h; simp [SDEs.A, h1, h2, h, SDEs.checkValues]
  · intro As h hlen; simp only [SDEs.A, h1, h2, h, SDEs.checkValues]; rw [if_pos hlen]
  · intro As b Bs h hlen hAs
    have hok : ∀ b ∈ As.map some, ∃ c, S.checkOne b = .ok c := by
      intro b hb
      obtain ⟨A, hA, rfl⟩ := List.mem_map.1 hb
      exact ⟨A, if_pos (hAs A hA)⟩
    have hl : ¬ (As.map some ++ b :: Bs).length ≠ S.L.q := by simp; omega
    refine ⟨fun hb => ?_, fun A k hb hk hn => ?_⟩
    · simp only [SDEs.A, h1, h2, h, SDEs.checkValues]
      rw [if_neg hl, mapPy_append_error (e := .typeError) (by rw [hb]; rfl) Bs _ hok]
    · simp only [SDEs.A, h1, h2, h, SDEs.checkValues]
      rw [if_neg hl, mapPy_append_error (e := .keyError) (by rw [hb]; exact if_neg fun h => hn (h k hk)) Bs _ hok]

/-- The second equation is not a dictionary, or has a key that is not declared. -/
example :
    ({exSys with sde := fun _ _ => .ok (some [some [(0, .scalar 1)], none])} : SDEs ℚ ℚ ℕ Unit).A 0 (fun _ => 1) =
      .error .typeError ∧
    ({exSys with sde := fun _ _ => .ok (some [some [(0, .scalar 1)], some [(2, .scalar 1)]])} : SDEs ℚ ℚ ℕ Unit).A 0
      (fun _ => 1) = .error .keyError := by
  have ok : ∀ B : Option (List (ℕ × Arr ℚ)), (∀ A, B = some A → DictOk A) →
      SDEsOk ({exSys with sde := fun _ _ => .ok (some [some [(0, .scalar 1)], B])} : SDEs ℚ ℚ ℕ Unit) := by
    intro B hB
    refine ⟨exSys_ok.1.layout, exSys_ok.1.sources, fun t xs As h A hA => ?_⟩
    simp only [Except.ok.injEq, Option.some.injEq] at h
    rw [← h] at hA
    simp only [List.mem_cons, Option.some.injEq, List.not_mem_nil, or_false] at hA
    rcases hA with rfl | hA
    · simp [DictOk]
    · exact hB A hA.symm
  exact ⟨(((C13_bad_sde_values _ (ok none (by simp)) 0 fun _ => 1).2.2 [[(0, .scalar 1)]] none [] rfl rfl (by simp [exSys])).1 rfl),
    (((C13_bad_sde_values _ (ok (some _) (by simp [DictOk])) 0 fun _ => 1).2.2 [[(0, .scalar 1)]] (some [(2, .scalar 1)]) [] rfl rfl
      (by simp [exSys])).2 _ 2 rfl (by simp) (by simp [exSys]))⟩

/-! ### C09 for systems -/

/-- A system of real equations with the logarithm and exponential functions. -/
def RealSDEs (S : SDEs T ℝ Id σ) : Prop := S.logK = Real.log ∧ S.expK = Real.exp

/-- **C09** for systems, in so far as it holds: with `log = True` the system is solved starting
from the logarithm of `x0`. The result is however the exponential *of the exponential* of the
solution, since both `SDE.exit` and `SDEs.result` take it. What is missing to C09 is that the
result be `exp(x)`; see `C09_systems_false`. -/
theorem C09_systems_partial (S : SDEs T ℝ Id σ) (hS : SDEsOk S) (hr : RealSDEs S) (h0 : InitOk S)
    (hlog : S.log = true) (fuel : ℕ) (steps : Steps T) (i0 : ℤ) (tl : TArr T) (s : σ)
    (hv : ValidTimeline tl) {i : ℕ} (hi : Designates tl.data.length i0 i)
    (hst : ∀ n : ℤ, steps = .int n → 0 ≤ n) {grid : List T} (hg : IsGrid steps tl.data grid)
    {t0 : T} (ht0 : tl.data[i]? = some t0) (hfuel : grid.length ≤ fuel) :
    S.call fuel steps i0 tl s =
      (do let (ps, s) ← (system S).solution t0 (fun y => Real.log (systemInit S y)) grid s
          pure (tl.data.map fun t => (ps.lookup t).map fun x => (List.range S.L.q).map
            (eqArr S.L fun y => Real.exp (Real.exp (x y))), s)) := by
  have := call_system S hS h0 fuel steps i0 tl s hv hi hst hg ht0 hfuel
  rw [this, hlog, hr.1, hr.2]
  simp

/-- Two equations, `log = True`, `x0 = 1`. -/
noncomputable def exLogSys : SDEs ℚ ℝ ℕ Unit where
  L := ⟨2, true, [], 1⟩
  sources := [(0, fun _ _ s => .ok (fun _ => 1, s))]
  sde _ _ := .ok (some [some [], some []])
  x0 := .scalar 1
  log := true
  logK := Real.log
  expK := Real.exp

theorem exLogSys_ok : SDEsOk exLogSys ∧ RealSDEs exLogSys ∧ InitOk exLogSys where
  left :=
    { layout := ⟨by decide, by simp [exLogSys]⟩
      sources := by simp [DictOk, exLogSys]
      sde := by
        intro t xs As h A hA
        simp only [exLogSys, Except.ok.injEq, Option.some.injEq] at h
        rw [← h] at hA
        simp only [List.mem_cons, Option.some.injEq, List.not_mem_nil, or_false] at hA
        rcases hA with rfl | rfl <;> simp [DictOk] }
  right := ⟨⟨rfl, rfl⟩, .inl rfl⟩

/-- **C09 is violated by systems of equations**: two equations with `log = True` and `x0 = 1`,
called at the single time 0, do not return 1. -/
theorem C09_systems_false :
    ∃ ys s', exLogSys.call 10 .none 0 ⟨[1], [0]⟩ () = .ok ([some ys], s') ∧
      ∀ y ∈ ys, y.get [0] = Real.exp 1 ∧ y.get [0] ≠ 1 := by
  have hg : IsGrid .none [(0 : ℚ)] [0] := stepsTT_isGrid _ _ (by decide +kernel) (by decide +kernel)
  have h := C09_systems_partial exLogSys exLogSys_ok.1 exLogSys_ok.2.1 exLogSys_ok.2.2 rfl 10 .none 0
    ⟨[1], [0]⟩ () ⟨rfl, by simp⟩ (i := 0) ⟨by simp, .inl rfl⟩ (by intro n h; simp at h) hg
    (t0 := 0) rfl (by simp)
  have hsol : (system exLogSys).solution 0 (fun y => Real.log (systemInit exLogSys y)) [0] () =
      .ok ([(0, fun y => Real.log (systemInit exLogSys y))], ()) := by
    simp [Equation.solution, Equation.path, bind, Except.bind, pure, Except.pure]
  rw [hsol] at h
  simp only [bind, Except.bind, pure, Except.pure] at h
  refine ⟨_, _, h, ?_⟩
  have hval : ∀ y, Real.exp (Real.exp (Real.log (systemInit exLogSys y))) = Real.exp 1 := by
    intro y
    have : systemInit exLogSys y = 1 := by
      simp [systemInit, exLogSys, Arr.scalar, bcAt]
    rw [this]; simp
  intro y hy
  simp only [List.mem_map, List.mem_range] at hy
  obtain ⟨j, hj, rfl⟩ := hy
  have hj' : j < exLogSys.L.q := hj
  have e : (eqArr exLogSys.L (fun y => Real.exp (Real.exp (Real.log (systemInit exLogSys y)))) j).get [0]
      = Real.exp 1 := by
    simp only [hval, eqArr]
    rw [dif_pos]
    refine ⟨⟨hj', ?_, ?_⟩, by simp⟩
    · simp [exLogSys, InRange]
    · simp [exLogSys]
  refine ⟨e, ?_⟩
  rw [e]
  have := Real.add_one_lt_exp (x := 1) (by norm_num)
  linarith

end Sdepy
