import Verif.Model.Heston
import Verif.Props.Presets

/-!
# Properties C15, C17, C18: Heston processes
-/

set_option linter.unusedSectionVars false
set_option linter.unusedSimpArgs false

namespace Sdepy

open Spec BigOperators

variable {σ : Type}

namespace Spec

/-- Initial values of the two equations: `log(x0)` and `y0`, broadcast. -/
noncomputable def hestonStart {L : Layout} (x0 y0 : Arr ℝ) : Cell L → ℝ := fun c =>
  if c.1.1 = 0 then Real.log (bcAt x0 (c.1.2.1 ++ [c.1.2.2])) else bcAt y0 (c.1.2.1 ++ [c.1.2.2])

/-- Initial values that fit. -/
def HestonInitOk (vshape : List ℕ) (paths : ℕ) (x0 y0 : Arr ℝ) : Prop :=
  BcOk x0.shape (vshape ++ [paths]) ∧ BcOk y0.shape (vshape ++ [paths])

/-- The component of equation `y` that goes with a given cell. -/
def volCell {a : Bool} {v : List ℕ} {p : ℕ} (c : Cell ⟨2, a, v, p⟩) : Cell ⟨2, a, v, p⟩ :=
  ⟨(1, c.1.2), by constructor; exact Nat.one_lt_two; exact c.2.2⟩

end Spec

section
variable (a : Bool) (v : List ℕ) (p : ℕ) (P : HestonParams) (dw : Src ℝ (List ℕ) σ)

theorem hestonSde_eq (t : ℝ) (x y : Arr ℝ) : hestonSde P t [x, y] = .ok (some [
        some [(idT, ⟨y.shape, P.mu t - P.sigma t * P.sigma t * npPlus y.get / 2⟩),
          (idW, ⟨y.shape, P.sigma t * fun i => Real.sqrt (max (y.get i) 0)⟩)],
        some [(idT, ⟨y.shape, P.k t * (P.theta t - npPlus y.get)⟩),
          (idW, ⟨y.shape, P.xi t * fun i => Real.sqrt (max (y.get i) 0)⟩)]]) := by
  simp only [hestonSde, npSqrt_npPlus]

theorem heston_ok (hL : v = [] → a = true) : SDEsOk (hestonSys a v p P dw) where
  layout := ⟨by simp [hestonSys], hL⟩
  sources := by simp [hestonSys, DictOk, idT, idW]
  sde := by
    intro t xs As h A hA
    have h' : hestonSde P t xs = .ok (some As) := h
    match xs with
    | [x, y] =>
      rw [hestonSde_eq] at h'
      simp only [Except.ok.injEq, Option.some.injEq] at h'
      rw [← h'] at hA
      simp only [List.mem_cons, Option.some.injEq, List.not_mem_nil, or_false] at hA
      rcases hA with rfl | rfl <;> simp [DictOk, idT, idW]
    | [] => simp [hestonSde] at h'
    | [_] => simp [hestonSde] at h'
    | _ :: _ :: _ :: _ => simp [hestonSde] at h'

theorem canon_map {L : Layout} {b : Arr ℝ} {z : Cell L → ℝ} {i : ℕ} (f : ℝ → ℝ)
    (h : b.canon = eqArr L z i) (hi : i < L.q) :
    Arr.canon ⟨b.shape, fun j => f (b.get j)⟩ = eqArr L (fun c => f (z c)) i := by
  have hs : b.shape = L.vshape ++ [L.paths] := congrArg Arr.shape h
  have hg : ∀ idx, b.canon.get idx = (eqArr L z i).get idx := fun idx => by rw [h]
  unfold Arr.canon eqArr
  simp only [hs, Arr.mk.injEq, true_and]
  funext idx
  have hgi := hg idx
  simp only [Arr.canon, eqArr, hs] at hgi
  by_cases hr : InRange (L.vshape ++ [L.paths]) idx
  · rw [if_pos hr] at hgi ⊢
    obtain ⟨c, p', rfl, hc, hp⟩ := hr.of_append
    obtain ⟨q, rfl, hq⟩ := inRange_singleton.1 hp
    have hh : (i < L.q ∧ InRange L.vshape (c ++ [q]).dropLast ∧ (c ++ [q]).getLastD 0 < L.paths) ∧
        c ++ [q] ≠ [] := by simp [hi, hc, hq]
    rw [dif_pos hh] at hgi ⊢
    rw [hgi]
  · rw [if_neg hr, dif_neg]
    rintro ⟨⟨_, h2, h3⟩, h4⟩
    apply hr
    have : idx = idx.dropLast ++ [idx.getLastD 0] := by
      rw [List.getLastD_eq_getLast?, List.getLast?_eq_some_getLast h4]
      simp [List.dropLast_append_getLast]
    rw [this, inRange_append h2.length]
    exact ⟨h2, inRange_singleton.2 ⟨_, rfl, h3⟩⟩

theorem heston_unpack (hL : v = [] → a = true) (x : List ℕ → ℝ) :
    ∃ b₁ b₂ : Arr ℝ, (⟨2, a, v, p⟩ : Layout).unpack ⟨(⟨2, a, v, p⟩ : Layout).wshape ++ [p], x⟩ =
        .ok [b₁, b₂] ∧
      b₁.canon = eqArr _ (cells (hestonSys a v p P dw) x) 0 ∧
      b₂.canon = eqArr _ (cells (hestonSys a v p P dw) x) 1 := by
  obtain ⟨ys, h1, h2⟩ := unpack_canon (hestonSys a v p P dw) (heston_ok a v p P dw hL).layout x
  have h2' : ys.map Arr.canon = (List.range 2).map
      (eqArr _ (cells (hestonSys a v p P dw) x)) := h2
  have hr : List.range 2 = [0, 1] := rfl
  rw [hr] at h2'
  match ys with
  | [b₁, b₂] =>
    simp only [List.map_cons, List.map_nil, List.cons.injEq, and_true] at h2'
    exact ⟨b₁, b₂, h1, h2'.1, h2'.2⟩
  | [] => simp at h2'
  | [_] => simp at h2'
  | _ :: _ :: _ :: _ => simp at h2'

theorem fullHestonResult_eq (hL : v = [] → a = true) (x : List ℕ → ℝ) :
    fullHestonResult ⟨2, a, v, p⟩ (some x) = .ok (some
      (eqArr _ (fun c => Real.exp (cells (hestonSys a v p P dw) x c)) 0,
        eqArr _ (cells (hestonSys a v p P dw) x) 1)) := by
  obtain ⟨b₁, b₂, h1, h2, h3⟩ := heston_unpack a v p P dw hL x
  simp only [fullHestonResult, h1, h3, Except.ok.injEq, Option.some.injEq, Prod.mk.injEq, and_true]
  exact canon_map Real.exp h2 (Nat.zero_lt_two)

theorem hestonLet_eq (hL : v = [] → a = true) (x : List ℕ → ℝ) :
    Arr.canon ⟨v ++ [p], npExp (hestonLet ⟨2, a, v, p⟩ x)⟩ =
      eqArr _ (fun c => Real.exp (cells (hestonSys a v p P dw) x c)) 0 := by
  obtain ⟨b₁, b₂, h1, h2, h3⟩ := heston_unpack a v p P dw hL x
  have hs : b₁.shape = v ++ [p] := congrArg Arr.shape h2
  have hlet : hestonLet ⟨2, a, v, p⟩ x = b₁.get := by
    have hr : List.range 2 = [0, 1] := rfl
    unfold Layout.unpack at h1
    unfold hestonLet
    cases a with
    | true =>
      simp only [if_true, hr] at h1 ⊢
      rw [mapPy_ok_iff, List.forall₂_cons] at h1
      rw [h1.1]
    | false =>
      simp only [Bool.false_eq_true, if_false, hr] at h1 ⊢
      cases hv : v.getLast? with
      | none => rw [hv] at h1; simp at h1
      | some d =>
        rw [hv] at h1
        simp only at h1
        rw [mapPy_ok_iff, List.forall₂_cons] at h1
        have : v.getLastD 0 = d := by rw [List.getLastD_eq_getLast?, hv]; rfl
        rw [this]
        have h0 := h1.1
        simp only [Nat.zero_mul, Nat.zero_add, Nat.one_mul] at h0
        rw [h0]
  rw [hlet, ← hs]
  exact canon_map Real.exp h2 (Nat.zero_lt_two)

theorem bcAt_log (x0 : Arr ℝ) (i : List ℕ) :
    bcAt ⟨x0.shape, npLog x0.get⟩ i = Real.log (bcAt x0 i) := rfl

theorem hestonInit_eq (hL : v = [] → a = true) {x0 y0 : Arr ℝ} (h0 : HestonInitOk v p x0 y0) :
    ∃ X, hestonInit ⟨2, a, v, p⟩ x0 y0 = .ok X ∧
      cells (hestonSys a v p P dw) X = hestonStart x0 y0 := by
  obtain ⟨X, h1, h2, h3⟩ := pack_cells (hestonSys a v p P dw) (heston_ok a v p P dw hL).layout
    [⟨x0.shape, npLog x0.get⟩, y0] rfl (by
      intro x hx
      simp only [List.mem_cons, List.not_mem_nil, or_false] at hx
      rcases hx with rfl | rfl
      · exact h0.1
      · exact h0.2)
  refine ⟨X.get, ?_, ?_⟩
  · have h1' : (⟨2, a, v, p⟩ : Layout).pack [⟨x0.shape, npLog x0.get⟩, y0] = .ok X := h1
    simp only [hestonInit, h1']
  · funext c
    obtain ⟨x, hx1, hx2⟩ := h3 c
    rw [hx2]
    unfold hestonStart
    have hc : c.1.1 < 2 := c.2.1
    by_cases h : c.1.1 = 0
    · rw [if_pos h]
      rw [h] at hx1
      simp only [List.getElem?_cons_zero, Option.some.injEq] at hx1
      rw [← hx1]; rfl
    · have h' : c.1.1 = 1 := by omega
      rw [if_neg h]
      rw [h'] at hx1
      simp only [List.getElem?_cons_succ, List.getElem?_cons_zero, Option.some.injEq] at hx1
      rw [← hx1]

theorem fullHestonSDE_ok (hL : v = [] → a = true) (x0 y0 : Arr ℝ) :
    SDEOk (fullHestonSDE a v p P x0 y0 dw) :=
  have h := toSDE_ok _ (heston_ok a v p P dw hL)
  ⟨h.sources, h.sde⟩

/-- **C17** (what `full_heston_process` computes). The two processes returned are, at each time of
the timeline, the exponential of the solution of the first equation of the system and the solution
of the second one, started at `log(x0)` and `y0`. -/
theorem C17_full_heston (hL : v = [] → a = true) {x0 y0 : Arr ℝ} (h0 : HestonInitOk v p x0 y0)
    {fuel : ℕ} {steps : Steps ℝ} {i0 : ℤ} {tl : TArr ℝ} {grid : List ℝ} {t0 : ℝ}
    (h : Along fuel steps i0 tl grid t0) (s : σ) :
    fullHestonCall a v p P x0 y0 dw fuel steps i0 tl s =
      (do let (ps, s) ← (system (hestonSys a v p P dw)).solution t0 (hestonStart x0 y0) grid s
          pure (tl.data.map fun t => (ps.lookup t).map fun z =>
            (eqArr _ (fun c => Real.exp (z c)) 0, eqArr _ z 1), s)) := by
  obtain ⟨X, hX1, hX2⟩ := hestonInit_eq a v p P dw hL h0
  unfold fullHestonCall
  rw [call_along _ (fullHestonSDE_ok a v p P dw hL x0 y0) h s]
  have hinit : (fullHestonSDE a v p P x0 y0 dw).init t0 = .ok X := hX1
  have hlog : (fullHestonSDE a v p P x0 y0 dw).log = false := rfl
  have hlet : ∀ t x, (fullHestonSDE a v p P x0 y0 dw).letX t x = x := fun _ _ => rfl
  have heq : equation (fullHestonSDE a v p P x0 y0 dw) =
    equation (hestonSys a v p P dw).toSDE := rfl
  rw [← hX2, (system_hom _ (heston_ok a v p P dw hL)).solution, heq, hinit, hlog]
  simp only [hlet, bind, Except.bind, pure, Except.pure, Bool.false_eq_true, if_false]
  cases (equation (hestonSys a v p P dw).toSDE).solution t0 X grid s with
  | error e => rfl
  | ok r =>
    simp only [Except.map]
    rw [mapPy_ok _ (fun x : Option (List ℕ → ℝ) => x.map fun x =>
      (eqArr _ (fun c => Real.exp (cells (hestonSys a v p P dw) x c)) 0,
        eqArr _ (cells (hestonSys a v p P dw) x) 1))]
    · simp only [List.map_map, Except.ok.injEq, Prod.mk.injEq, and_true]
      apply List.map_congr_left
      intro t _
      simp only [Function.comp]
      rw [lookup_map_snd (cells (hestonSys a v p P dw)) t r.1, Option.map_map, Option.map_map]
      rfl
    · intro x _
      cases x with
      | none => rfl
      | some x => exact fullHestonResult_eq a v p P dw hL x

/-- **C17.** With the same parameters, sources of noise and state, `heston_process` returns exactly
the first process returned by `full_heston_process` (or the same exception), for both storage
layouts. -/
theorem C17_heston_component (hL : v = [] → a = true) {x0 y0 : Arr ℝ}
    {fuel : ℕ} {steps : Steps ℝ} {i0 : ℤ} {tl : TArr ℝ} {grid : List ℝ} {t0 : ℝ}
    (h : Along fuel steps i0 tl grid t0) (s : σ) :
    hestonCall a v p P x0 y0 dw fuel steps i0 tl s =
      (do let (r, s) ← fullHestonCall a v p P x0 y0 dw fuel steps i0 tl s
          pure (r.map (Option.map Prod.fst), s)) := by
  have hok := fullHestonSDE_ok a v p P dw hL x0 y0
  unfold fullHestonCall hestonCall
  rw [call_along _ hok h s, call_along (hestonSDE a v p P x0 y0 dw) ⟨hok.sources, hok.sde⟩ h s]
  have hlog : (fullHestonSDE a v p P x0 y0 dw).log = false := rfl
  have hlet : ∀ t x, (fullHestonSDE a v p P x0 y0 dw).letX t x = x := fun _ _ => rfl
  have hlog' : (hestonSDE a v p P x0 y0 dw).log = false := rfl
  have hlet' : ∀ t x, (hestonSDE a v p P x0 y0 dw).letX t x = hestonLet ⟨2, a, v, p⟩ x :=
    fun _ _ => rfl
  have hinit' : (hestonSDE a v p P x0 y0 dw).init = (fullHestonSDE a v p P x0 y0 dw).init := rfl
  have heq : equation (hestonSDE a v p P x0 y0 dw) =
    equation (fullHestonSDE a v p P x0 y0 dw) := rfl
  rw [heq, hinit', hlog, hlog']
  simp only [hlet, hlet', bind, Except.bind, pure, Except.pure, Bool.false_eq_true, if_false]
  cases (fullHestonSDE a v p P x0 y0 dw).init t0 with
  | error e => rfl
  | ok X =>
    simp only
    cases (equation (fullHestonSDE a v p P x0 y0 dw)).solution t0 X grid s with
    | error e => rfl
    | ok r =>
      simp only
      rw [mapPy_ok _ (fun x : Option (List ℕ → ℝ) => x.map fun x =>
        (eqArr _ (fun c => Real.exp (cells (hestonSys a v p P dw) x c)) 0,
          eqArr _ (cells (hestonSys a v p P dw) x) 1))]
      · simp only [List.map_map, Except.ok.injEq, Prod.mk.injEq, and_true]
        apply List.map_congr_left
        intro t _
        simp only [Function.comp, Option.map_map]
        congr 1
        funext x
        exact hestonLet_eq a v p P dw hL x
      · intro x _
        cases x with
        | none => rfl
        | some x => exact fullHestonResult_eq a v p P dw hL x

/-- **C15** (Heston): the values of the `x` process are positive at all components and paths. -/
theorem C15_heston_positive (hL : v = [] → a = true) {x0 y0 : Arr ℝ} (h0 : HestonInitOk v p x0 y0)
    {fuel : ℕ} {steps : Steps ℝ} {i0 : ℤ} {tl : TArr ℝ} {grid : List ℝ} {t0 : ℝ}
    (h : Along fuel steps i0 tl grid t0) {s s' : σ} {r : List (Option (Arr ℝ))}
    (hc : hestonCall a v p P x0 y0 dw fuel steps i0 tl s = .ok (r, s')) :
    r.length = tl.data.length ∧ ∀ x ∈ r, ∃ b : Arr ℝ, x = some b ∧ b.shape = v ++ [p] ∧
      ∀ i, InRange (v ++ [p]) i → 0 < b.get i := by
  rw [C17_heston_component a v p P dw hL h s, C17_full_heston a v p P dw hL h0 h s] at hc
  simp only [bind, Except.bind, pure, Except.pure] at hc
  cases hs : (system (hestonSys a v p P dw)).solution t0 (hestonStart x0 y0) grid s with
  | error e => rw [hs] at hc; simp at hc
  | ok r' =>
    rw [hs] at hc
    simp only [Except.ok.injEq, Prod.mk.injEq, List.map_map] at hc
    obtain ⟨h1, h2, h3⟩ := along_mem h
    have ht := solution_times _ h.isGrid.1 h2 (ps := r'.1) (s' := r'.2) hs
    rw [← hc.1]
    refine ⟨by simp, ?_⟩
    intro x hx
    obtain ⟨t, htm, rfl⟩ := List.mem_map.1 hx
    obtain ⟨z, hz⟩ := lookup_isSome_of_times (ps := r'.1) (t := t) (by rw [ht]; exact h3 t htm)
    refine ⟨_, by simp only [Function.comp, hz]; rfl, rfl, ?_⟩
    intro i hi
    obtain ⟨c, p', rfl, hcc, hp⟩ := hi.of_append
    obtain ⟨q, rfl, hq⟩ := inRange_singleton.1 hp
    simp only [eqArr]
    rw [dif_pos]
    · exact Real.exp_pos _
    · simpa using ⟨Nat.zero_lt_two, hcc, hq⟩

theorem bcAt_self {s : List ℕ} (f : List ℕ → ℝ) {i : List ℕ} (hi : InRange s i) :
    bcAt ⟨s, f⟩ i = f i := by
  obtain ⟨b, h1, h2⟩ := broadcastTo_self (⟨s, f⟩ : Arr ℝ)
  have hb : BcOk (⟨s, f⟩ : Arr ℝ).shape s := bcOkRev_self _
  rw [broadcastTo_eq _ _ hb] at h1
  simp only [Except.ok.injEq] at h1
  have := h2.2 i (by rw [h2.1]; exact hi)
  rw [← h1] at this
  exact this

theorem heston_coef (t : ℝ) (z : Cell (hestonSys a v p P dw).L → ℝ) :
    (system (hestonSys a v p P dw)).coef t z = .ok fun id c =>
      let i := c.1.2.1 ++ [c.1.2.2]
      let y := max (z (volCell c)) 0
      if id = idT then
        (if c.1.1 = 0 then P.mu t i - P.sigma t i * P.sigma t i * y / 2
          else P.k t i * (P.theta t i - y))
      else if id = idW then
        (if c.1.1 = 0 then P.sigma t i * Real.sqrt y else P.xi t i * Real.sqrt y)
      else 0 := by
  have hsde : (hestonSys a v p P dw).sde t ((List.range (hestonSys a v p P dw).L.q).map
      (eqArr (hestonSys a v p P dw).L z)) =
      hestonSde P t [eqArr (hestonSys a v p P dw).L z 0, eqArr (hestonSys a v p P dw).L z 1] := rfl
  simp only [system, bind, Except.bind, hsde, hestonSde_eq]
  rw [if_neg (by simp [hestonSys])]
  have hD : ∀ A : List (ℕ × Arr ℝ), A.map Prod.fst = [idT, idW] →
      eqDict (hestonSys a v p P dw) (some A) = .ok A := by
    intro A hA
    simp only [eqDict]
    rw [if_neg]
    rw [hA]
    simp [hestonSys, idT, idW]
  simp only [mapPy]
  rw [hD _ rfl, hD _ rfl]
  simp only
  have hsh : ∀ i, (eqArr (hestonSys a v p P dw).L z i).shape = v ++ [p] := fun _ => rfl
  have hb : BcOk (v ++ [p]) (v ++ [p]) := bcOkRev_self _
  rw [if_neg]
  · simp only [pure, Except.pure, Except.ok.injEq]
    funext id c
    have hc : c.1.1 < 2 := c.2.1
    have hir : InRange (v ++ [p]) (c.1.2.1 ++ [c.1.2.2]) := by
      have h1 : InRange v c.1.2.1 := c.2.2.1
      rw [inRange_append h1.length]
      exact ⟨h1, inRange_singleton.2 ⟨_, rfl, c.2.2.2⟩⟩
    have hy : (eqArr (hestonSys a v p P dw).L z 1).get (c.1.2.1 ++ [c.1.2.2]) = z (volCell c) := by
      simp only [eqArr]
      rw [dif_pos]
      · congr 1
        apply Subtype.ext
        simp [volCell]
      · simpa using ⟨Nat.one_lt_two, c.2.2.1, c.2.2.2⟩
    simp only [hsh]
    by_cases h : c.1.1 = 0
    · rw [h]
      simp only [List.getElem?_cons_zero, if_true]
      by_cases h2 : id = 2
      · subst h2
        simp only [idT, idW, List.lookup, beq_self_eq_true, if_true]
        rw [bcAt_self _ hir]
        simp only [Pi.sub_apply, Pi.mul_apply, Pi.div_apply, npPlus, hy, Pi.ofNat_apply]
      · have e2 : (id == 2) = false := by simpa using h2
        simp only [idT, idW, List.lookup, e2, if_neg h2]
        by_cases h3 : id = 3
        · subst h3
          simp only [beq_self_eq_true, if_true]
          rw [bcAt_self _ hir]
          simp only [Pi.mul_apply, hy]
        · have e3 : (id == 3) = false := by simpa using h3
          simp only [e3, if_neg h3]
    · have h' : c.1.1 = 1 := by omega
      rw [h']
      simp only [List.getElem?_cons_succ, List.getElem?_cons_zero, Nat.one_ne_zero, if_false]
      by_cases h2 : id = 2
      · subst h2
        simp only [idT, idW, List.lookup, beq_self_eq_true, if_true]
        rw [bcAt_self _ hir]
        simp only [Pi.sub_apply, Pi.mul_apply, Pi.div_apply, npPlus, hy]
      · have e2 : (id == 2) = false := by simpa using h2
        simp only [idT, idW, List.lookup, e2, if_neg h2]
        by_cases h3 : id = 3
        · subst h3
          simp only [beq_self_eq_true, if_true]
          rw [bcAt_self _ hir]
          simp only [Pi.mul_apply, hy]
        · have e3 : (id == 3) = false := by simpa using h3
          simp only [e3, if_neg h3]
  · rintro ⟨A, hA, q, hq, hn⟩
    apply hn
    simp only [List.mem_cons, List.not_mem_nil, or_false] at hA
    rcases hA with rfl | rfl <;>
    · simp only [List.mem_cons, List.not_mem_nil, or_false] at hq
      rcases hq with rfl | rfl <;> exact hb

/-- **C18** (Heston). One step of the system, at each component and path: the square root is
always defined, and where `y > 0` the step is the one of the stated equations for `log(x)` and `y`;
elsewhere `log(x)` moves by `mu*dt` and `y` by `k*theta*dt`. `w` is the realised noise. -/
theorem C18_heston_step (t : ℝ) (z : Cell (hestonSys a v p P dw).L → ℝ) (t' : ℝ) (s : σ) :
    (system (hestonSys a v p P dw)).step t z t' s =
      (do let (w, s) ← dw t (t' - t) s
          pure (fun c =>
            let i := c.1.2.1 ++ [c.1.2.2]
            let y := z (volCell c)
            let dt := t' - t
            let dwc := component (hestonSys a v p P dw).L ((hestonSys a v p P dw).packed w)
              c.1.1 c.1.2.1 c.1.2.2
            z c + (
              if c.1.1 = 0 then
                if 0 < y then (P.mu t i - P.sigma t i ^ 2 * y / 2) * dt +
                  P.sigma t i * Real.sqrt y * dwc
                else P.mu t i * dt
              else
                if 0 < y then P.k t i * (P.theta t i - y) * dt + P.xi t i * Real.sqrt y * dwc
                else P.k t i * P.theta t i * dt), s)) := by
  unfold Equation.step
  rw [heston_coef]
  simp only [bind, Except.bind]
  have hids : (system (hestonSys a v p P dw)).ids.sort (· ≤ ·) = [2, 3] := by
    have := sortedSources_keys (hestonSys a v p P dw).sources
      (by simp [hestonSys, DictOk, idT, idW])
    exact this.symm
  have hids' : (system (hestonSys a v p P dw)).ids = {2, 3} := rfl
  rw [hids, hids']
  have h2 : (system (hestonSys a v p P dw)).noise 2 t (t' - t) s =
    .ok (fun _ => t' - t, s) := by
    simp only [system, hestonSys, List.lookup, idT, beq_self_eq_true, dtSource, bind, Except.bind,
      pure, Except.pure, Except.ok.injEq, Prod.mk.injEq, and_true]
    funext c
    simp only [component, SDEs.packed]
    split <;> rfl
  have h3 : ∀ s, (system (hestonSys a v p P dw)).noise 3 t (t' - t) s =
      (dw t (t' - t) s).map fun r => (fun c => component (hestonSys a v p P dw).L
        ((hestonSys a v p P dw).packed r.1) c.1.1 c.1.2.1 c.1.2.2, r.2) := by
    intro s
    have hl : (hestonSys a v p P dw).sources.lookup 3 = some dw := rfl
    simp only [system, hl, bind, Except.bind, pure, Except.pure]
    cases dw t (t' - t) s <;> rfl
  simp only [realise, bind, Except.bind, h2, h3]
  cases dw t (t' - t) s with
  | error e => rfl
  | ok r =>
    simp only [Except.map, pure, Except.pure, Except.ok.injEq, Prod.mk.injEq, and_true]
    funext c
    rw [Finset.sum_pair (by decide)]
    simp only [Pi.add_apply, Pi.mul_apply, Function.update_self, idT, idW, if_true]
    rw [Function.update_of_ne (by decide), Function.update_self]
    simp only [show ¬ ((3 : ℕ) = 2) by decide, if_false]
    by_cases h : c.1.1 = 0
    · simp only [if_pos h]
      by_cases hy : 0 < z (volCell c)
      · simp only [if_pos hy, max_eq_left hy.le]
        ring
      · simp only [if_neg hy, max_eq_right (not_lt.1 hy), Real.sqrt_zero]
        ring
    · simp only [if_neg h]
      by_cases hy : 0 < z (volCell c)
      · simp only [if_pos hy, max_eq_left hy.le]
      · simp only [if_neg hy, max_eq_right (not_lt.1 hy), Real.sqrt_zero]
        ring

end

/-! A run of two paths of a process with two components, not adding an axis. -/

/-- test parameters -/
noncomputable def exParams : HestonParams :=
  ⟨fun _ _ => 1, fun _ _ => 2, fun _ _ => 3, fun _ _ => 4, fun _ _ => 5⟩

example := C17_full_heston (σ := Unit) false [2] 2 exParams
  (fun _ _ s => .ok (fun i => i.sum - 3, s)) (by simp) (x0 := .scalar 10)
  (y0 := ⟨[2, 1], fun i => i.headD 0⟩) (by unfold HestonInitOk; decide) exAlongR ()

example := C17_heston_component (σ := Unit) true [] 2 exParams
  (fun _ _ s => .ok (fun i => i.sum - 3, s)) (by simp) (x0 := .scalar 10)
  (y0 := .scalar 1) exAlongR ()

/-- A run of the Heston process that succeeds, and its first value: `x0`. -/
example : ∃ r s', hestonCall (σ := Unit) false [2] 2 exParams (.scalar 10) (.scalar 1)
    (fun _ _ s => .ok (fun i => i.sum - 3, s)) 10 .none 0 ⟨[2], [1, 2]⟩ () =
      .ok (r, s') := by
  rw [C17_heston_component false [2] 2 exParams _ (by simp) exAlongR,
    C17_full_heston false [2] 2 exParams _ (by simp) (by unfold HestonInitOk; decide) exAlongR]
  have e1 : ([1, 2] : List ℝ).filter (· < 1) = [] := by simp
  have e2 : ([1, 2] : List ℝ).filter (1 < ·) = [2] := by simp
  simp only [Equation.solution, e1, e2, List.reverse_nil, Equation.path, bind, Except.bind,
    pure, Except.pure, C18_heston_step]
  exact ⟨_, _, rfl⟩

end Sdepy
