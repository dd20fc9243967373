import Verif.Lemmas.ArrSDE
import Verif.Lemmas.SDEHom
import Verif.Model.ArrPresets
import Verif.Props.SDE

/-!
# C67: array parameters are broadcast, and each cell solves its own scalar equation
-/

set_option linter.unusedSectionVars false

namespace Sdepy

open Spec

section
variable {N K Id σ : Type} [DecidableEq N] [Field K] [LinearOrder K] [IsStrictOrderedRing K]
  [LinearOrder Id]

theorem slots_cells {shape : List ℕ} {l : List (Option (Arr K))} {m : List (Option (Cells shape → K))}
    (h : SlotRel (Holds shape) l m) :
    l.map (Option.map (cellsOf shape)) = m ∧ ∀ a, some a ∈ l → a.shape = shape := by
  induction h with
  | nil => simp
  | @cons a b l m hab _ ih =>
    cases hab with
    | none =>
      refine ⟨by simp [ih.1], fun c hc => ih.2 c ?_⟩
      simpa using hc
    | @some a f hf =>
      refine ⟨by simp [ih.1, cellsOf]; funext c; exact hf.cell c, fun c hc => ?_⟩
      rcases List.mem_cons.1 hc with h | h
      · cases h; exact hf.1
      · exact ih.2 c h

theorem slots_app {shape : List ℕ} (g : K → K) {l : List (Option (Arr K))}
    {m : List (Option (Cells shape → K))} (h : SlotRel (Holds shape) l m) :
    SlotRel (Holds shape) (l.map (Option.map (Arr.app g))) (m.map (Option.map fun f c => g (f c))) := by
  induction h with
  | nil => simp
  | @cons a b l m hab _ ih =>
    refine .cons ?_ ih
    cases hab with
    | none => exact .none
    | @some a f hf => exact .some ⟨hf.1, fun c => congrArg g (hf.2 c)⟩

theorem arr_call {shape : List ℕ} (S : ArrSDE N K Id σ)
    (out : (Cells (S.wshape ++ [S.paths]) → K) → Cells shape → K)
    (h0 : Fits S.x0.shape (S.wshape ++ [S.paths])) (hp : ∀ t, ParamsFit S t) (hs : SourcesFit S)
    (hl : ∀ x f, Holds (S.wshape ++ [S.paths]) x f → ∃ o, S.letX x = .ok o ∧ Holds shape o (out f))
    (fuel : ℕ) (steps : Steps K) (i0 : ℤ) (tl : TArr K) (s : σ) :
    onCells shape (S.call fuel steps i0 tl s) =
        (cellwise S out (fun f c => S.expK (f c))).call fuel steps i0 tl s ∧
      ∀ r, S.call fuel steps i0 tl s = .ok r → ∀ a, some a ∈ r.1 → a.shape = shape := by
  have h := callPG_sim (arr_sim S out (fun f c => S.expK (f c)) (Holds shape) h0 hp hs hl) fuel steps i0
    tl (s₁ := s) rfl
  unfold ArrSDE.call SDE.call
  rcases h.elim with ⟨e, e1, e2⟩ | ⟨a, b, e1, e2, h⟩
  · rw [e1, e2]
    exact ⟨rfl, by simp⟩
  · rw [e1, e2]
    have hx : SlotRel (Holds shape) (if S.log then a.xx.map (Option.map (Arr.app S.expK)) else a.xx)
        ((cellwise S out (fun f c => S.expK (f c))).exitX b.xx) := by
      unfold SDE.exitX
      have : (cellwise S out (fun f c => S.expK (f c))).log = S.log := rfl
      rw [this]
      by_cases hlog : S.log
      · rw [if_pos hlog, if_pos hlog]; exact slots_app S.expK h.1
      · rw [if_neg hlog, if_neg hlog]; exact h.1
    obtain ⟨h1, h2⟩ := slots_cells hx
    constructor
    · unfold onCells
      simp only [Except.map]
      rw [h1, h.2.1]
    · intro r hr
      cases hr
      exact h2

/-- **C67.** A process with array parameters (broadcast together, with initial conditions and with the
realisations of the sources, to the shape of the values) is integrated as if each cell were a scalar
equation of its own, with its own values of the parameters, of the initial condition and of the
noise; results have the shape expected, exceptions are the same. -/
theorem C67_cells (S : ArrSDE N K Id σ) (hf : S.factors = false) (hx : S.wshape = S.xshape)
    (h0 : Fits S.x0.shape (S.wshape ++ [S.paths])) (hp : ∀ t, ParamsFit S t) (hs : SourcesFit S)
    (fuel : ℕ) (steps : Steps K) (i0 : ℤ) (tl : TArr K) (s : σ) :
    onCells (S.wshape ++ [S.paths]) (S.call fuel steps i0 tl s) =
        (cellwise S id (fun f c => S.expK (f c))).call fuel steps i0 tl s ∧
      ∀ r, S.call fuel steps i0 tl s = .ok r → ∀ a, some a ∈ r.1 →
        a.shape = S.wshape ++ [S.paths] := by
  refine arr_call S id h0 hp hs (fun x f h => ?_) fuel steps i0 tl s
  obtain ⟨o, ho, h'⟩ := assignInto_holds h.fits
  refine ⟨o, ?_, h'.1, fun c => ?_⟩
  · unfold ArrSDE.letX
    rw [hf, ← hx]
    exact ho
  · rw [h'.2 c]
    exact h.cell c

theorem sum2_holds {vshape : List ℕ} {F p : ℕ} {x : Arr K} {f : Cells (vshape ++ [F] ++ [p]) → K}
    (h : Holds (vshape ++ [F] ++ [p]) x f) :
    ∃ o, x.sum2 = .ok o ∧ Holds (vshape ++ [p]) o (sumFactors f) := by
  have hr : x.shape.reverse = p :: F :: vshape.reverse := by rw [h.1]; simp
  refine ⟨_, by unfold Arr.sum2; rw [hr], by simp, fun c => ?_⟩
  simp only [sumFactors]
  rw [← List.map_coe_finRange_eq_range, List.map_map, ← List.ofFn_eq_map, List.sum_ofFn]
  refine Finset.sum_congr rfl fun k _ => ?_
  rw [← h.2]
  simp only [Function.comp_apply, insertFactor]
  congr 1
  have hne : c.1 ≠ [] := by
    intro hc
    have := c.2.length_eq
    simp [hc] at this
  rw [List.drop_length_sub_one hne, List.getLast?_eq_some_getLast hne]
  simp

/-- **C67, sums of factors.** The same for `hull_white_process`, whose values are sums over the factors,
each factor of each cell solving its own scalar equation. -/
theorem C67_factors (S : ArrSDE N K Id σ) {F : ℕ} (hf : S.factors = true)
    (hx : S.wshape = S.xshape ++ [F])
    (h0 : Fits S.x0.shape (S.wshape ++ [S.paths])) (hp : ∀ t, ParamsFit S t) (hs : SourcesFit S)
    (fuel : ℕ) (steps : Steps K) (i0 : ℤ) (tl : TArr K) (s : σ) :
    onCells (S.xshape ++ [S.paths]) (S.call fuel steps i0 tl s) =
        (cellwise S (fun f => sumFactors (F := F) fun c => f ⟨c.1, by rw [hx]; exact c.2⟩)
          (fun f c => S.expK (f c))).call fuel steps i0 tl s ∧
      ∀ r, S.call fuel steps i0 tl s = .ok r → ∀ a, some a ∈ r.1 →
        a.shape = S.xshape ++ [S.paths] := by
  refine arr_call S _ h0 hp hs (fun x f h => ?_) fuel steps i0 tl s
  have h' : Holds (S.xshape ++ [F] ++ [S.paths]) x fun c => f ⟨c.1, by rw [hx]; exact c.2⟩ :=
    ⟨by rw [h.1, hx], fun c => h.2 ⟨c.1, by rw [hx]; exact c.2⟩⟩
  obtain ⟨v, hv, hv'⟩ := sum2_holds h'
  obtain ⟨o, ho, ho'⟩ := assignInto_holds hv'.fits
  refine ⟨o, ?_, ho'.1, fun c => ?_⟩
  · unfold ArrSDE.letX
    rw [hf, if_pos rfl, hv]
    exact ho
  · rw [ho'.2 c]
    exact hv'.cell c

/-- **C67 with C02.** The Euler-Maruyama recursion, for arrays: the equation solved is `equation` of the
cellwise one, with the initial condition of each cell at `timeline[i0]`. -/
theorem C67_euler (S : ArrSDE N K Id σ) (hf : S.factors = false) (hx : S.wshape = S.xshape)
    (hd : DictOk S.sources) (he : DictOk S.eqs)
    (h0 : Fits S.x0.shape (S.wshape ++ [S.paths])) (hp : ∀ t, ParamsFit S t) (hs : SourcesFit S)
    (fuel : ℕ) (steps : Steps K) (i0 : ℤ) (tl : TArr K) (s : σ)
    (hv : ValidTimeline tl) {i : ℕ} (hi : Designates tl.data.length i0 i)
    (hst : ∀ n : ℤ, steps = .int n → 0 ≤ n) {grid : List K} (hg : IsGrid steps tl.data grid)
    {t0 : K} (ht : tl.data[i]? = some t0) (hfuel : grid.length ≤ fuel) :
    onCells (S.wshape ++ [S.paths]) (S.call fuel steps i0 tl s) =
      (do let (ps, s) ← (equation (cellwise S id id)).solution t0
            (fun c => if S.log then S.logK (cellValue S.x0 c.1) else cellValue S.x0 c.1) grid s
          pure (tl.data.map fun t => (ps.lookup t).map fun x c =>
            if S.log then S.expK (x c) else x c, s)) := by
  have hok : SDEOk (cellwise S id (fun f c => S.expK (f c))) := by
    constructor
    · unfold DictOk
      rw [cellwise_keys]
      exact hd
    · intro t x A hA
      unfold cellwise at hA
      simp only at hA
      split at hA
      · simp at hA
      · simp only [Except.ok.injEq, Option.some.injEq] at hA
        subst hA
        unfold DictOk
        rw [List.map_map]
        exact he
  rw [(C67_cells S hf hx h0 hp hs fuel steps i0 tl s).1,
    C02_euler _ hok fuel steps i0 tl s hv hi hst hg ht hfuel]
  have e1 : (if (cellwise S id (fun f c => S.expK (f c))).log then
      (cellwise S id (fun f c => S.expK (f c))).logX (cellsOf _ S.x0) else cellsOf _ S.x0) =
      fun c => if S.log then S.logK (cellValue S.x0 c.1) else cellValue S.x0 c.1 := by
    have : (cellwise S id (fun f c => S.expK (f c))).log = S.log := rfl
    rw [this]
    by_cases hl : S.log
    · simp only [if_pos hl]; rfl
    · simp only [if_neg hl]; rfl
  have e2 : ∀ t x, (if (cellwise S id (fun f c => S.expK (f c))).log then
      (cellwise S id (fun f c => S.expK (f c))).expO
        ((cellwise S id (fun f c => S.expK (f c))).letX t x)
        else (cellwise S id (fun f c => S.expK (f c))).letX t x) =
      fun c => if S.log then S.expK (x c) else x c := by
    intro t x
    have : (cellwise S id (fun f c => S.expK (f c))).log = S.log := rfl
    rw [this]
    by_cases hl : S.log
    · simp only [if_pos hl]; rfl
    · simp only [if_neg hl]; rfl
  simp only [bind, Except.bind, pure, Except.pure, e2]
  have e3 : (cellwise S id (fun f c => S.expK (f c))).init t0 = .ok (cellsOf _ S.x0) := rfl
  simp only [e3, e1]
  rfl

/-! ### parameters that do not fit are rejected -/

/-- `next` of an array valued equation. -/
def ArrSDE.stepFun (S : ArrSDE N K Id σ) : Bool → List (K × Arr K) → K → σ → Py (Arr K × σ) :=
  fun _ win t s =>
    match win with
    | [(s0, x)] => S.eulerNext s0 x t s
    | _ => .error .indexError

theorem arr_nonAdaptive (S : ArrSDE N K Id σ) : NonAdaptive S.toPGen S.stepFun := by
  intro rev win t s
  simp only [ArrSDE.toPGen, ArrSDE.stepFun, bind, Except.bind, pure, Except.pure]
  match win with
  | [] => rfl
  | [(s0, x)] => simp only; cases S.eulerNext s0 x t s <;> rfl
  | _ :: _ :: _ => rfl

theorem scheme_steps {W O : Type} {step : List (K × W) → K → σ → Py (W × σ)}
    {store : ℕ → K → W → σ → Py (O × σ)} {out : List K} {ts : List K} {t : K} {x : W} {n : ℕ} {s : σ}
    {r : List O × σ} (h : scheme step store out [(t, x)] n ts s = .ok r) {pre post : List K} {a b : K}
    (hl : t :: ts = pre ++ a :: b :: post) : ∃ y s' q, step [(a, y)] b s' = .ok q := by
  induction ts generalizing t x n s r pre with
  | nil =>
    have := congrArg List.length hl
    simp at this
    omega
  | cons u ts ih =>
    simp only [scheme, bind, Except.bind, pure, Except.pure, List.tail_cons, List.nil_append] at h
    cases h1 : step [(t, x)] u s with
    | error e => simp [h1] at h
    | ok q =>
      simp only [h1] at h
      cases pre with
      | nil =>
        simp only [List.nil_append, List.cons.injEq] at hl
        obtain ⟨rfl, rfl, _⟩ := hl
        exact ⟨x, s, q, h1⟩
      | cons p pre =>
        simp only [List.cons_append, List.cons.injEq] at hl
        split at h
        · simp at h
        · rename_i o ho
          split at h
          · simp at h
          · rename_i o' ho'
            exact ih ho' hl.2

theorem pass_steps {W O : Type} {begin : List K → σ → Py ((ℕ → W) × σ)}
    {step : List (K × W) → K → σ → Py (W × σ)}
    {store : ℕ → K → W → σ → Py (O × σ)} {fin : σ → Py σ} {steps out : List K} {s : σ}
    {r : List O × σ} {t : K} (h : pass 2 begin step store fin (t :: steps) out s = .ok r) :
    (∃ q, begin [t] s = .ok q) ∧ ∀ pre a b post, t :: steps = pre ++ a :: b :: post →
      ∃ y s' q, step [(a, y)] b s' = .ok q := by
  simp only [pass, bind, Except.bind, pure, Except.pure, Nat.add_one_sub_one, List.take_succ_cons,
    List.take_zero, List.drop_succ_cons, List.drop_zero] at h
  cases hb : begin [t] s with
  | error e => simp [hb] at h
  | ok q =>
    refine ⟨⟨q, rfl⟩, fun pre a b post hl => ?_⟩
    simp only [hb] at h
    split at h
    · simp at h
    · split at h
      · simp at h
      · rename_i o' ho'
        exact scheme_steps (by simpa using ho') hl

theorem eulerNext_fits {S : ArrSDE N K Id σ} {t t' : K} {x : Arr K} {s : σ} {q}
    (h : S.eulerNext t x t' s = .ok q) : ∃ env, paramsAt t S.params = .ok env ∧
      ∀ e ∈ S.eqs, ∀ n ∈ exprParams e.2, ∃ a, env.lookup n = some (some a) ∧
        Fits a.shape (S.wshape ++ [S.paths]) := by
  unfold ArrSDE.eulerNext ArrSDE.A at h
  rw [evalParams_eq] at h
  cases henv : paramsAt t S.params with
  | error e => simp [henv] at h
  | ok env =>
    simp only [henv] at h
    refine ⟨env, rfl, ?_⟩
    cases hA : evalEntries x env S.eqs with
    | error e => simp [hA] at h
    | ok A =>
      simp only [hA] at h
      split at h
      · simp at h
      rename_i A' hA'
      have : A' = A := by
        split at hA'
        · simpa using hA'.symm
        · simp at hA'
      subst this
      split at h
      · simp at h
      rename_i dZ st hdZ
      split at h
      · simp at h
      rename_i d hd
      split at h
      · simp at h
      rename_i v hv
      split at h
      · simp at h
      rename_i x' hx'
      have hvf : Fits v.shape (S.wshape ++ [S.paths]) := by
        by_contra hc
        rw [ArrSDE.wfull, assignInto_error v hc] at hx'
        simp at hx'
      have hdf := (zip_fits_of hv hvf).2
      have hAf : ∀ a ∈ A', Fits a.2.shape (S.wshape ++ [S.paths]) := (sumArr_fits_of hd hdf).2
      have hm := evalEntries_mem hA
      intro e he n hn
      obtain ⟨a, ha, hae⟩ := forall₂_mem_right hm he
      exact eval_fits_of hae.2 (hAf a ha) n hn

theorem sorted_next {l : List K} (h : l.Pairwise (· < ·)) {t u : K} (ht : t ∈ l) (hu : u ∈ l) (htu : t < u) :
    ∃ pre b post, l = pre ++ t :: b :: post := by
  obtain ⟨pre, post, rfl⟩ := List.append_of_mem ht
  cases post with
  | cons b post => exact ⟨pre, b, post, rfl⟩
  | nil =>
    exfalso
    rcases List.mem_append.1 hu with hu | hu
    · have := (List.pairwise_append.1 h).2.2 u hu t (by simp)
      exact absurd htu (not_lt.2 this.le)
    · simp only [List.mem_singleton] at hu
      exact absurd htu (by rw [hu]; exact lt_irrefl t)

theorem sorted_prev {l : List K} (h : l.Pairwise (· < ·)) {t u : K} (ht : t ∈ l) (hu : u ∈ l) (htu : u < t) :
    ∃ pre b post, l.reverse = pre ++ t :: b :: post := by
  obtain ⟨pre, post, hl⟩ := List.append_of_mem (List.mem_reverse.2 ht)
  cases post with
  | cons b post => exact ⟨pre, b, post, hl⟩
  | nil =>
    exfalso
    have hl' : l = t :: pre.reverse := by
      have := congrArg List.reverse hl
      simpa using this
    rw [hl'] at hu h
    rcases List.mem_cons.1 hu with hu | hu
    · exact absurd htu (by rw [hu]; exact lt_irrefl t)
    · exact absurd htu (not_lt.2 ((List.pairwise_cons.1 h).1 u hu).le)

theorem begin_fits {S : ArrSDE N K Id σ} {rev : Bool} {t0 : K} {s : σ} {q}
    (h : S.toPGen.begin rev [t0] s = .ok q) : Fits S.x0.shape (S.wshape ++ [S.paths]) := by
  by_contra hc
  simp only [ArrSDE.toPGen, ArrSDE.beginX, ArrSDE.wfull, assignInto_error _ hc] at h
  simp at h

/-- **C67, rejection.** If the integration succeeds, the initial condition fits the shape of the values,
and so do the values of all the parameters that the equation depends on, at each time where they are
needed: nothing is silently truncated, reshaped or ignored. -/
theorem C67_checked (S : ArrSDE N K Id σ) {fuel : ℕ} {steps : Steps K} {i0 : ℤ} {tl : TArr K} {s : σ}
    (hv : ValidTimeline tl) {i : ℕ} (hi : Designates tl.data.length i0 i)
    (hst : ∀ n : ℤ, steps = .int n → 0 ≤ n) {grid : List K} (hg : IsGrid steps tl.data grid)
    {t0 : K} (h0 : tl.data[i]? = some t0) (hfuel : grid.length ≤ fuel) {r}
    (h : S.call fuel steps i0 tl s = .ok r) :
    Fits S.x0.shape (S.wshape ++ [S.paths]) ∧
    ∀ t ∈ grid, (∃ u ∈ grid, (t0 ≤ t ∧ t < u) ∨ (t ≤ t0 ∧ u < t)) →
      ∃ env, paramsAt t S.params = .ok env ∧ ∀ e ∈ S.eqs, ∀ n ∈ exprParams e.2,
        ∃ a, env.lookup n = some (some a) ∧ Fits a.shape (S.wshape ++ [S.paths]) := by
  have hmt : t0 ∈ tl.data := List.mem_of_getElem? h0
  have hmem : t0 ∈ grid := (hg.2 t0).2 (.inl hmt)
  have he := depth2_enough hg hmt
  obtain ⟨eL, eR⟩ := filter_le_eq hg.1 hmem
  have hdep : S.toPGen.depth = 2 := rfl
  have h5 := C05_two_way S.toPGen S.stepFun (arr_nonAdaptive S) fuel steps i0 tl s
    (by rw [hdep]) hv hi hst hg h0 (fun _ => by rw [hdep]; exact he.1)
    (fun _ => by rw [hdep]; exact he.2) hfuel
  unfold ArrSDE.call at h
  cases hc : callPG S.toPGen fuel steps i0 tl s with
  | error e => simp [hc] at h
  | ok c =>
    rw [hc] at h5
    cases htw : twoWay S.toPGen S.stepFun (i0 ≠ 0) (Forw tl.data.length i0) grid tl.data t0 s with
    | error e => rw [htw] at h5; simp [Except.map] at h5
    | ok q =>
      simp only [twoWay, hdep, bind, Except.bind, pure, Except.pure] at htw
      have hB : i0 ≠ 0 → ∃ s q, pass 2 (S.toPGen.begin true) (S.stepFun true) S.toPGen.store
          S.toPGen.fin (grid.filter (· ≤ t0)).reverse (tl.data.filter (· ≤ t0)).reverse s = .ok q := by
        intro hz
        split at htw
        · simp at htw
        · rename_i q hq
          simp only [hz, ne_eq, not_false_iff, decide_true, if_true] at hq
          exact ⟨_, _, hq⟩
      have hF : Forw tl.data.length i0 → ∃ s q, pass 2 (S.toPGen.begin false) (S.stepFun false)
          S.toPGen.store S.toPGen.fin (grid.filter (t0 ≤ ·)) (tl.data.filter (t0 ≤ ·)) s = .ok q := by
        intro hz
        split at htw
        · simp at htw
        · split at htw
          · simp at htw
          · rename_i q hq
            simp only [hz, decide_true, if_true] at hq
            exact ⟨_, _, hq⟩
      rw [eL, List.reverse_append, List.reverse_singleton, List.singleton_append] at hB
      rw [eR] at hF
      have h1 := hi.1
      have h2 := hi.2
      constructor
      · by_cases hz : i0 = 0
        · obtain ⟨s', q', hp⟩ := hF (.inl hz)
          obtain ⟨b, hb⟩ := (pass_steps hp).1
          exact begin_fits hb
        · obtain ⟨s', q', hp⟩ := hB hz
          obtain ⟨b, hb⟩ := (pass_steps hp).1
          exact begin_fits hb
      · rintro t ht ⟨u, hu, ⟨h3, h4⟩ | ⟨h3, h4⟩⟩
        · have hFo : Forw tl.data.length i0 := by
            by_contra hFo
            have hhd : grid.getLast? = some t0 := by
              rw [isGrid_getLast hv.2 hg, ← h0, List.getLast?_eq_getElem?]
              congr 1; unfold Forw at hFo; omega
            have := sorted_getLast_ge hg.1 hhd hu
            exact absurd (lt_of_le_of_lt h3 h4) (not_lt.2 this)
          obtain ⟨s', q', hp⟩ := hF hFo
          have hs : (t0 :: grid.filter (t0 < ·)).Pairwise (· < ·) := by
            rw [← eR]; exact hg.1.filter _
          obtain ⟨pre, b, post, hl⟩ := sorted_next hs (t := t) (u := u)
            (by rw [← eR]; simp [ht, h3]) (by rw [← eR]; simp [hu, (lt_of_le_of_lt h3 h4).le]) h4
          obtain ⟨y, s'', q'', hq⟩ := (pass_steps hp).2 pre t b post hl
          exact eulerNext_fits hq
        · have hz : i0 ≠ 0 := by
            intro hz
            have hhd : grid.head? = some t0 := by
              rw [isGrid_head hv.2 hg]
              have : i = 0 := by omega
              subst this
              rw [← h0]; cases tl.data <;> simp
            have := sorted_head_le hg.1 hhd hu
            exact absurd (lt_of_lt_of_le h4 h3) (not_lt.2 this)
          obtain ⟨s', q', hp⟩ := hB hz
          have hs : (grid.filter (· < t0) ++ [t0]).Pairwise (· < ·) := by
            rw [← eL]; exact hg.1.filter _
          obtain ⟨pre, b, post, hl⟩ := sorted_prev hs (t := t) (u := u)
            (by rw [← eL]; simp [ht, h3]) (by rw [← eL]; simp [hu, (lt_of_lt_of_le h4 h3).le]) h4
          rw [List.reverse_append, List.reverse_singleton, List.singleton_append] at hl
          obtain ⟨y, s'', q'', hq⟩ := (pass_steps hp).2 pre t b post hl
          exact eulerNext_fits hq

/-- **C67, rejection of initial conditions.** -/
theorem C67_x0 (S : ArrSDE N K Id σ) {fuel : ℕ} {steps : Steps K} {i0 : ℤ} {tl : TArr K} {s : σ}
    (hv : ValidTimeline tl) {i : ℕ} (hi : Designates tl.data.length i0 i)
    (hst : ∀ n : ℤ, steps = .int n → 0 ≤ n) {grid : List K} (hg : IsGrid steps tl.data grid)
    {t0 : K} (h0 : tl.data[i]? = some t0) (hfuel : grid.length ≤ fuel)
    (hx : ¬ Fits S.x0.shape (S.wshape ++ [S.paths])) :
    S.call fuel steps i0 tl s = .error .valueError := by
  have hmt : t0 ∈ tl.data := List.mem_of_getElem? h0
  have hmem : t0 ∈ grid := (hg.2 t0).2 (.inl hmt)
  have he := depth2_enough hg hmt
  obtain ⟨eL, eR⟩ := filter_le_eq hg.1 hmem
  have hdep : S.toPGen.depth = 2 := rfl
  have h5 := C05_two_way S.toPGen S.stepFun (arr_nonAdaptive S) fuel steps i0 tl s
    (by rw [hdep]) hv hi hst hg h0 (fun _ => by rw [hdep]; exact he.1)
    (fun _ => by rw [hdep]; exact he.2) hfuel
  have hb : ∀ rev s, S.toPGen.begin rev [t0] s = .error .valueError := by
    intro rev s
    simp only [ArrSDE.toPGen, ArrSDE.beginX, ArrSDE.wfull, assignInto_error _ hx]
  have hpass : ∀ rev ts out s, pass 2 (S.toPGen.begin rev) (S.stepFun rev) S.toPGen.store S.toPGen.fin
      (t0 :: ts) out s = .error .valueError := by
    intro rev ts out s
    simp only [pass, bind, Except.bind, Nat.add_one_sub_one, List.take_succ_cons, List.take_zero, hb]
  have htw : twoWay S.toPGen S.stepFun (i0 ≠ 0) (Forw tl.data.length i0) grid tl.data t0 s =
      .error .valueError := by
    simp only [twoWay, hdep, bind, Except.bind, pure, Except.pure]
    rw [eL, eR, List.reverse_append, List.reverse_singleton, List.singleton_append]
    by_cases hz : i0 = 0
    · have hFo : Forw tl.data.length i0 := .inl hz
      have : ¬ (i0 ≠ 0) := by simpa using hz
      simp only [hz, ne_eq, not_true, decide_false, Bool.false_eq_true, if_false]
      have hFo' : Forw tl.data.length 0 := .inl rfl
      simp only [hFo', decide_true, if_true, hpass]
    · simp only [hz, ne_eq, not_false_iff, decide_true, if_true, hpass]
  rw [htw] at h5
  unfold ArrSDE.call
  cases hc : callPG S.toPGen fuel steps i0 tl s with
  | error e =>
    rw [hc] at h5
    simp only [Except.map, Except.error.injEq] at h5
    rw [h5]
  | ok c => rw [hc] at h5; simp [Except.map] at h5

end

/-! ### preset processes -/

section
variable {K σ : Type} {W : List ℕ}

theorem given_paramsAt {N : Type} [DecidableEq N] {p : Param K} {a : K → Arr K} (h : Given W p a) (n : N)
    (t : K) (ps : List (N × Param K)) :
    paramsAt t ((n, p) :: ps) = (paramsAt t ps).map fun e => (n, some (a t)) :: e := by
  rw [← evalParams_eq, ← evalParams_eq]
  rcases h.1 with ⟨b, rfl, hb⟩ | ⟨sh, f, rfl, hf⟩
  · simp only [evalParams, Param.valueAt, hb]
    cases evalParams t ps <;> rfl
  · simp only [evalParams, Param.valueAt, hf]
    cases evalParams t ps <;> rfl

theorem paramsAt_nil {N : Type} (t : K) : paramsAt t ([] : List (N × Param K)) = .ok [] := rfl

theorem dtArr_fits (W : List ℕ) : Realises W (dtArr : K → K → σ → Py (Arr K × σ)) := by
  rintro t dt s v s' h
  simp only [dtArr, Except.ok.injEq, Prod.mk.injEq] at h
  rw [← h.1]
  exact scalar_fits _ _

theorem cellwise_sources {N Id X : Type} [DecidableEq N] [Zero K] (S : ArrSDE N K Id σ)
    (out : (Cells (S.wshape ++ [S.paths]) → K) → X) (expO) :
    (cellwise S out expO).sources = S.sources.map fun z => (z.1, cellSource _ z.2) := by
  unfold cellwise
  simp only
  apply List.map_congr_left
  intro z _
  congr 1
  funext t dt s
  unfold cellSource
  cases z.2 t dt s <;> rfl

theorem cellwise_sde {N Id X : Type} [DecidableEq N] [Zero K] (S : ArrSDE N K Id σ)
    (out : (Cells (S.wshape ++ [S.paths]) → K) → X) (expO) {t : K} {env : List (N × Option (Arr K))}
    (h : paramsAt t S.params = .ok env) (x) :
    (cellwise S out expO).sde t x = .ok (some (S.eqs.map fun e =>
      (e.1, fun c => scalarExpr (x c) (fun n => paramAt env n c.1) e.2))) := by
  unfold cellwise
  simp only [h]

theorem sde_eq {T X O Id : Type} {A B : SDE T X O Id σ} (h1 : A.sources = B.sources)
    (h2 : A.sde = B.sde) (h3 : A.init = B.init) (h4 : A.letX = B.letX) (h5 : A.log = B.log)
    (h6 : A.logX = B.logX) (h7 : A.expO = B.expO) : A = B := by
  cases A; cases B; simp_all

variable [Field K] [LinearOrder K] [IsStrictOrderedRing K]

/-- **C67, Wiener process: the model of `Verif.Model.Presets`, on cells.** -/
theorem C67_wiener {vshape : List ℕ} {paths : ℕ} {x0 : Arr K} {mu sigma : Param K}
    {m v : K → Arr K} {dw : K → K → σ → Py (Arr K × σ)}
    (h0 : Fits x0.shape (vshape ++ [paths]))
    (hm : Given (vshape ++ [paths]) mu m)
    (hv : Given (vshape ++ [paths]) sigma v)
    (hdw : Realises (vshape ++ [paths]) dw)
    (fuel : ℕ) (steps : Steps K) (i0 : ℤ) (tl : TArr K) (s : σ) :
    onCells (vshape ++ [paths]) ((wienerArr vshape paths x0 mu sigma dw).call fuel steps i0 tl s) =
      (wienerSDE (cellsOf _ x0) (fun t => cellsOf _ (m t)) (fun t => cellsOf _ (v t))
        (cellSource (vshape ++ [paths]) dw)).call fuel steps i0 tl s := by
  have hpar : ∀ t, paramsAt t (wienerArr vshape paths x0 mu sigma dw).params =
      .ok [("mu", some (m t)), ("sigma", some (v t))] := by
    intro t
    simp only [wienerArr]
    rw [given_paramsAt hm, given_paramsAt hv, paramsAt_nil]
    rfl
  refine (C67_cells (wienerArr vshape paths x0 mu sigma dw) rfl rfl h0 ?_ ?_ fuel steps i0 tl s).1.trans ?_
  · intro t env he
    rw [hpar] at he
    cases he
    simp [wienerArr, exprParams, hm.2 t, hv.2 t, List.lookup]
  · intro z hz
    simp only [wienerArr, List.mem_cons, List.not_mem_nil, or_false] at hz
    rcases hz with rfl | rfl
    · exact dtArr_fits _
    · exact hdw
  · refine congrArg (fun q => SDE.call q fuel steps i0 tl s) (sde_eq ?_ ?_ rfl rfl rfl rfl rfl)
    · rw [cellwise_sources]
      rfl
    · funext t x
      rw [cellwise_sde _ _ _ (hpar t)]
      rfl

/-- **C67, Ornstein-Uhlenbeck process.** -/
theorem C67_ornstein_uhlenbeck {vshape : List ℕ} {paths : ℕ} {x0 : Arr K} {theta k sigma : Param K}
    {q l v : K → Arr K} {dw : K → K → σ → Py (Arr K × σ)}
    (h0 : Fits x0.shape (vshape ++ [paths]))
    (hq : Given (vshape ++ [paths]) theta q)
    (hl : Given (vshape ++ [paths]) k l)
    (hv : Given (vshape ++ [paths]) sigma v)
    (hdw : Realises (vshape ++ [paths]) dw)
    (fuel : ℕ) (steps : Steps K) (i0 : ℤ) (tl : TArr K) (s : σ) :
    onCells (vshape ++ [paths]) ((ouArr vshape paths x0 theta k sigma dw).call fuel steps i0 tl s) =
      (ouSDE (cellsOf _ x0) (fun t => cellsOf _ (q t)) (fun t => cellsOf _ (l t)) (fun t => cellsOf _ (v t))
        (cellSource (vshape ++ [paths]) dw)).call fuel steps i0 tl s := by
  have hpar : ∀ t, paramsAt t (ouArr vshape paths x0 theta k sigma dw).params =
      .ok [("theta", some (q t)), ("k", some (l t)), ("sigma", some (v t))] := by
    intro t
    simp only [ouArr]
    rw [given_paramsAt hq, given_paramsAt hl, given_paramsAt hv, paramsAt_nil]
    rfl
  refine (C67_cells (ouArr vshape paths x0 theta k sigma dw) rfl rfl h0 ?_ ?_ fuel steps i0 tl s).1.trans ?_
  · intro t env he
    rw [hpar] at he
    cases he
    simp [ouArr, exprParams, hq.2 t, hl.2 t, hv.2 t, List.lookup]
  · intro z hz
    simp only [ouArr, List.mem_cons, List.not_mem_nil, or_false] at hz
    rcases hz with rfl | rfl
    · exact dtArr_fits _
    · exact hdw
  · refine congrArg (fun q => SDE.call q fuel steps i0 tl s) (sde_eq ?_ ?_ rfl rfl rfl rfl rfl)
    · rw [cellwise_sources]
      rfl
    · funext t x
      rw [cellwise_sde _ _ _ (hpar t)]
      rfl

/-- Reindexing of working values by output cell and factor, as a ring homomorphism. -/
def factorCells (vshape : List ℕ) (F p : ℕ) :
    (Cells (vshape ++ [F] ++ [p]) → K) →+* (Cells (vshape ++ [p]) × Fin F → K) where
  toFun f := fun c => f ⟨insertFactor c.1.1 c.2, insertFactor_inRange c.1 c.2⟩
  map_one' := rfl
  map_mul' _ _ := rfl
  map_zero' := rfl
  map_add' _ _ := rfl

/-- **C67, Hull-White process.** The model of `Verif.Model.Presets`, each factor of each cell being given
its own values. -/
theorem C67_hull_white {vshape : List ℕ} {F paths : ℕ} {x0 : Arr K} {theta k sigma : Param K}
    {q l v : K → Arr K} {dw : K → K → σ → Py (Arr K × σ)}
    (h0 : Fits x0.shape (vshape ++ [F] ++ [paths]))
    (hq : Given (vshape ++ [F] ++ [paths]) theta q)
    (hl : Given (vshape ++ [F] ++ [paths]) k l)
    (hv : Given (vshape ++ [F] ++ [paths]) sigma v)
    (hdw : Realises (vshape ++ [F] ++ [paths]) dw)
    (fuel : ℕ) (steps : Steps K) (i0 : ℤ) (tl : TArr K) (s : σ) :
    onCells (vshape ++ [paths])
        ((hullWhiteArr vshape F paths x0 theta k sigma dw).call fuel steps i0 tl s) =
      (hullWhiteSDE (fun c : Cells (vshape ++ [paths]) × Fin F => cellValue x0 (insertFactor c.1.1 c.2))
        (fun t c => cellValue (q t) (insertFactor c.1.1 c.2))
        (fun t c => cellValue (l t) (insertFactor c.1.1 c.2))
        (fun t c => cellValue (v t) (insertFactor c.1.1 c.2))
        (fun t dt s => (dw t dt s).map fun r =>
          (fun c => cellValue r.1 (insertFactor c.1.1 c.2), r.2))).call fuel steps i0 tl s := by
  have hpar : ∀ t, paramsAt t (hullWhiteArr vshape F paths x0 theta k sigma dw).params =
      .ok [("theta", some (q t)), ("k", some (l t)), ("sigma", some (v t))] := by
    intro t
    simp only [hullWhiteArr]
    rw [given_paramsAt hq, given_paramsAt hl, given_paramsAt hv, paramsAt_nil]
    rfl
  refine (C67_factors (hullWhiteArr vshape F paths x0 theta k sigma dw) (F := F) rfl rfl h0 ?_ ?_ fuel
    steps i0 tl s).1.trans ?_
  · intro t env he
    rw [hpar] at he
    cases he
    have h1 := hq.2 t
    have h2 := hl.2 t
    have h3 := hv.2 t
    simp only [List.append_assoc, List.cons_append, List.nil_append] at h1 h2 h3
    simp [hullWhiteArr, exprParams, h1, h2, h3, List.lookup]
  · intro z hz
    simp only [hullWhiteArr, List.mem_cons, List.not_mem_nil, or_false] at hz
    rcases hz with rfl | rfl
    · exact dtArr_fits _
    · exact hdw
  · refine SDEHom.call (X := Cells (vshape ++ [F] ++ [paths]) → K)
      (Y := Cells (vshape ++ [paths]) × Fin F → K) (φ := factorCells vshape F paths)
      ⟨?_, ?_, ?_, ?_, rfl, ?_, rfl⟩ fuel steps i0 tl s
    · rw [cellwise_sources]
      simp only [hullWhiteArr, hullWhiteSDE, List.map_cons, List.map_nil]
      congr 4
      funext t dt s
      simp only [cellSource]
      cases dw t dt s <;> rfl
    · intro t x
      refine Eq.trans ?_ (congrArg (Except.map (Option.map (List.map fun p =>
        (p.1, factorCells vshape F paths p.2)))) (cellwise_sde _ _ _ (hpar t) x)).symm
      rfl
    · intro t; rfl
    · intro t x; rfl
    · intro x; rfl

end

section
variable {σ : Type}

/-- **C67, lognormal process.** -/
theorem C67_lognorm {vshape : List ℕ} {paths : ℕ} {x0 : Arr ℝ} {mu sigma : Param ℝ}
    {m v : ℝ → Arr ℝ} {dw : ℝ → ℝ → σ → Py (Arr ℝ × σ)}
    (h0 : Fits x0.shape (vshape ++ [paths]))
    (hm : Given (vshape ++ [paths]) mu m)
    (hv : Given (vshape ++ [paths]) sigma v)
    (hdw : Realises (vshape ++ [paths]) dw)
    (fuel : ℕ) (steps : Steps ℝ) (i0 : ℤ) (tl : TArr ℝ) (s : σ) :
    onCells (vshape ++ [paths]) ((lognormArr vshape paths x0 mu sigma dw).call fuel steps i0 tl s) =
      (lognormSDE (cellsOf _ x0) (fun t => cellsOf _ (m t)) (fun t => cellsOf _ (v t))
        (cellSource (vshape ++ [paths]) dw)).call fuel steps i0 tl s := by
  have hpar : ∀ t, paramsAt t (lognormArr vshape paths x0 mu sigma dw).params =
      .ok [("mu", some (m t)), ("sigma", some (v t))] := by
    intro t
    simp only [lognormArr]
    rw [given_paramsAt hm, given_paramsAt hv, paramsAt_nil]
    rfl
  refine (C67_cells (lognormArr vshape paths x0 mu sigma dw) rfl rfl h0 ?_ ?_ fuel steps i0 tl s).1.trans ?_
  · intro t env he
    rw [hpar] at he
    cases he
    simp [lognormArr, logDrift, exprParams, hm.2 t, hv.2 t, List.lookup]
  · intro z hz
    simp only [lognormArr, List.mem_cons, List.not_mem_nil, or_false] at hz
    rcases hz with rfl | rfl
    · exact dtArr_fits _
    · exact hdw
  · refine congrArg (fun q => SDE.call q fuel steps i0 tl s) (sde_eq ?_ ?_ rfl rfl rfl rfl rfl)
    · rw [cellwise_sources]
      rfl
    · funext t x
      rw [cellwise_sde _ _ _ (hpar t)]
      rfl

theorem cirCoef_eq {ι : Type} (theta k xi : ℝ → ι → ℝ) (t : ℝ) (x : ι → ℝ) :
    cirCoef theta k xi t x = .ok (some [(idT, fun c => k t c * (theta t c - max (x c) 0)),
      (idW, fun c => xi t c * Real.sqrt (max (x c) 0))]) := by
  have : npSqrt (npPlus x) = .ok fun c => Real.sqrt (npPlus x c) := by
    unfold npSqrt
    rw [if_pos]
    exact fun c => le_max_right _ _
  unfold cirCoef
  rw [this]
  rfl

/-- **C67, Cox-Ingersoll-Ross process.** -/
theorem C67_cox_ingersoll_ross {vshape : List ℕ} {paths : ℕ} {x0 : Arr ℝ} {theta k xi : Param ℝ}
    {q l v : ℝ → Arr ℝ} {dw : ℝ → ℝ → σ → Py (Arr ℝ × σ)}
    (h0 : Fits x0.shape (vshape ++ [paths]))
    (hq : Given (vshape ++ [paths]) theta q)
    (hl : Given (vshape ++ [paths]) k l)
    (hv : Given (vshape ++ [paths]) xi v)
    (hdw : Realises (vshape ++ [paths]) dw)
    (fuel : ℕ) (steps : Steps ℝ) (i0 : ℤ) (tl : TArr ℝ) (s : σ) :
    onCells (vshape ++ [paths]) ((cirArr vshape paths x0 theta k xi dw).call fuel steps i0 tl s) =
      (cirSDE (cellsOf _ x0) (fun t => cellsOf _ (q t)) (fun t => cellsOf _ (l t)) (fun t => cellsOf _ (v t))
        (cellSource (vshape ++ [paths]) dw)).call fuel steps i0 tl s := by
  have hpar : ∀ t, paramsAt t (cirArr vshape paths x0 theta k xi dw).params =
      .ok [("theta", some (q t)), ("k", some (l t)), ("xi", some (v t))] := by
    intro t
    simp only [cirArr]
    rw [given_paramsAt hq, given_paramsAt hl, given_paramsAt hv, paramsAt_nil]
    rfl
  refine (C67_cells (cirArr vshape paths x0 theta k xi dw) rfl rfl h0 ?_ ?_ fuel steps i0 tl s).1.trans ?_
  · intro t env he
    rw [hpar] at he
    cases he
    simp [cirArr, exprParams, hq.2 t, hl.2 t, hv.2 t, List.lookup]
  · intro z hz
    simp only [cirArr, List.mem_cons, List.not_mem_nil, or_false] at hz
    rcases hz with rfl | rfl
    · exact dtArr_fits _
    · exact hdw
  · refine congrArg (fun q => SDE.call q fuel steps i0 tl s) (sde_eq ?_ ?_ rfl rfl rfl rfl rfl)
    · rw [cellwise_sources]
      rfl
    · funext t x
      rw [cellwise_sde _ _ _ (hpar t)]
      refine Eq.trans ?_ (cirCoef_eq (fun t => cellsOf (vshape ++ [paths]) (q t))
        (fun t => cellsOf _ (l t)) (fun t => cellsOf _ (v t)) t x).symm
      rfl

/-- **C67, jump-diffusion process.** -/
theorem C67_jumpdiff {vshape : List ℕ} {paths : ℕ} {x0 : Arr ℝ} {mu sigma : Param ℝ}
    {m v : ℝ → Arr ℝ} {dw dj : ℝ → ℝ → σ → Py (Arr ℝ × σ)}
    (h0 : Fits x0.shape (vshape ++ [paths]))
    (hm : Given (vshape ++ [paths]) mu m)
    (hv : Given (vshape ++ [paths]) sigma v)
    (hdw : Realises (vshape ++ [paths]) dw)
    (hdj : Realises (vshape ++ [paths]) dj)
    (fuel : ℕ) (steps : Steps ℝ) (i0 : ℤ) (tl : TArr ℝ) (s : σ) :
    onCells (vshape ++ [paths]) ((jumpdiffArr vshape paths x0 mu sigma dw dj).call fuel steps i0 tl s) =
      (jumpdiffSDE (cellsOf _ x0) (fun t => cellsOf _ (m t)) (fun t => cellsOf _ (v t))
        (cellSource (vshape ++ [paths]) dw) (cellSource (vshape ++ [paths]) dj)).call fuel steps i0 tl s := by
  have hpar : ∀ t, paramsAt t (jumpdiffArr vshape paths x0 mu sigma dw dj).params =
      .ok [("mu", some (m t)), ("sigma", some (v t))] := by
    intro t
    simp only [jumpdiffArr]
    rw [given_paramsAt hm, given_paramsAt hv, paramsAt_nil]
    rfl
  refine (C67_cells (jumpdiffArr vshape paths x0 mu sigma dw dj) rfl rfl h0 ?_ ?_ fuel steps i0 tl s).1.trans ?_
  · intro t env he
    rw [hpar] at he
    cases he
    simp [jumpdiffArr, logDrift, exprParams, hm.2 t, hv.2 t, List.lookup]
  · intro z hz
    simp only [jumpdiffArr, List.mem_cons, List.not_mem_nil, or_false] at hz
    rcases hz with rfl | rfl | rfl
    · exact dtArr_fits _
    · exact hdw
    · exact hdj
  · refine congrArg (fun q => SDE.call q fuel steps i0 tl s) (sde_eq ?_ ?_ rfl rfl rfl rfl rfl)
    · rw [cellwise_sources]
      rfl
    · funext t x
      rw [cellwise_sde _ _ _ (hpar t)]
      rfl

end

/-! ### examples -/

section
open Function

/-- A vector of numbers, as an array of shape `(n,)`. -/
def vecArr (l : List ℚ) : Arr ℚ := ⟨[l.length], fun i => l.getD (i.headD 0) 0⟩

/-- A column of numbers, as an array of shape `(n, 1)`. -/
def colArr (l : List ℚ) : Arr ℚ := ⟨[l.length, 1], fun i => l.getD (i.headD 0) 0⟩

/-- A source that counts its calls, with different values on the cells of an array of shape `(2, 3)`. -/
def countSource : ℚ → ℚ → ℕ → Py (Arr ℚ × ℕ) :=
  fun _ dt n => .ok (⟨[2, 3], fun i => (n + i.headD 0 + i.tail.headD 0 : ℕ) * dt⟩, n + 1)

/-- A Wiener process of shape `(2,)` and 3 paths: the drift depends on the component, volatility on the
path, the initial condition on both, and the drift on time. -/
def exampleArr : ArrSDE String ℚ ℕ ℕ :=
  wienerArr [2] 3 (.scalar 5) (RawParam.fn fun t => .ok (colArr [10 + t, 20])).setup
    (RawParam.arr (vecArr [1, 2, 3])).setup countSource

example : Fits exampleArr.x0.shape (exampleArr.wshape ++ [exampleArr.paths]) := scalar_fits _ _

theorem given_example_mu :
    Given [2, 3] (RawParam.fn fun t : ℚ => .ok (colArr [10 + t, 20])).setup fun t => colArr [10 + t, 20] := by
  refine ⟨.inr ⟨_, _, rfl, fun _ => rfl⟩, fun t j => ?_⟩
  match j with
  | 0 => exact .inl rfl
  | 1 => exact .inr rfl
  | j + 2 => exact .inl rfl

theorem given_example_sigma : Given [2, 3] (RawParam.arr (vecArr [1, 2, 3])).setup fun _ => vecArr [1, 2, 3] := by
  refine ⟨.inl ⟨_, rfl, fun _ => rfl⟩, fun t j => ?_⟩
  match j with
  | 0 => exact .inr rfl
  | 1 => exact .inl rfl
  | j + 2 => exact .inl rfl

theorem countSource_fits : Realises [2, 3] countSource := by
  rintro t dt s v s' h
  simp only [countSource, Except.ok.injEq, Prod.mk.injEq] at h
  rw [← h.1]
  exact fitsRev_refl _

/-- Cell `(1, 2)`: `5 + 20*(1/2) + 3*(3*(1/2)) = 39/2` after one step,
`39/2 + 20*(1/2) + 3*(4*(1/2)) = 71/2` after two. -/
example : onCells [2, 3] (exampleArr.call 10 (.iter [1/2]) 0 ⟨[2], [0, 1]⟩ 0) =
    (wienerSDE (cellsOf [2, 3] (.scalar 5)) (fun t => cellsOf _ (colArr [10 + t, 20]))
      (fun _ => cellsOf _ (vecArr [1, 2, 3])) (cellSource [2, 3] countSource)).call 10 (.iter [1/2]) 0
      ⟨[2], [0, 1]⟩ 0 :=
  C67_wiener (vshape := [2]) (paths := 3) (scalar_fits _ _) given_example_mu given_example_sigma
    countSource_fits 10 (.iter [1/2]) 0 ⟨[2], [0, 1]⟩ 0

example : (exampleArr.call 10 (.iter [1/2]) 0 ⟨[2], [0, 1]⟩ 0).map (fun r =>
    (r.1.map fun o => o.map fun a => (a.shape, [a.get [0, 0], a.get [1, 2]]), r.2)) =
    .ok ([some ([2, 3], [5, 5]), some ([2, 3], [63/4, 71/2])], 2) := by decide +kernel

/-- A Hull-White process of shape `()`, 2 factors, one path. -/
example : ((hullWhiteArr [] 2 1 (colArr [1, 2]) (.arr (.scalar 5)) (.arr (colArr [1/2, 1]))
    (.arr (.scalar 1)) (fun _ dt (n : ℕ) => .ok (colArr [dt, 2*dt], n + 1))).call 10 .none 0
      ⟨[2], [0, 1]⟩ 0).map (fun r => (r.1.map fun o => o.map fun a => (a.shape, a.get [0]), r.2)) =
    .ok ([some ([1], 3), some ([1], 11)], 1) := by decide +kernel

/-- Wrong shapes are rejected: initial conditions, parameters. -/
example : ((wienerArr [2] 3 (vecArr [1, 2]) (.arr (.scalar 1)) (.arr (.scalar 1)) countSource).call 10
    .none 0 ⟨[2], [0, 1]⟩ 0).map (fun r => r.2) = .error .valueError := by decide +kernel

example : ((wienerArr [2] 3 (.scalar 1) (.arr (vecArr [1, 2])) (.arr (.scalar 1)) countSource).call 10
    .none 0 ⟨[2], [0, 1]⟩ 0).map (fun r => r.2) = .error .valueError := by decide +kernel

end

end Sdepy
