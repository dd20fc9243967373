import Verif.Model.PoissonTypes
import Verif.Props.CPoisson
import Verif.Props.Params

/-!
# Types of Poisson increments, in compound Poisson sources (C96)
-/

namespace Sdepy

open Spec

section
variable {T Y σ : Type} [Field T] [LinearOrder T] [CommRing Y]

theorem poissonNew_attrs {paths : ℕ} {vshape : List ℕ} {lam : RawParam T} {P : PoissonSrc T}
    (h : poissonNew paths vshape lam = .ok P) : P.paths = paths ∧ P.vshape = vshape := by
  unfold poissonNew at h
  split at h
  · cases h; exact ⟨rfl, rfl⟩
  · split at h
    · cases h; exact ⟨rfl, rfl⟩
    · cases h

theorem poissonCall_sign [IsStrictOrderedRing T] {P : PoissonSrc T}
    {draw : (List ℕ → T) → List ℕ → σ → (List ℕ → ℤ) × σ} (hd : ∀ l size s j, 0 ≤ (draw l size s).1 j)
    {t dt : Arr T} {s s' : σ} {n : Arr ℤ} (h : poissonCall P draw t dt s = .ok (n, s')) {sh : List ℕ}
    (hsh : bcShape t.shape dt.shape = some sh) {i : List ℕ} (hi : InRange sh i) (j : List ℕ) :
    |n.get (i ++ j)| = (SignType.sign (dt.bget i) : ℤ) * n.get (i ++ j) := by
  obtain ⟨h1, h2, h3⟩ := C23_sign hd h hsh hi j
  rcases lt_trichotomy (dt.bget i) 0 with hx | hx | hx
  · rw [sign_neg hx, abs_of_nonpos (h2 hx)]; simp
  · rw [hx, h3 hx]; simp
  · rw [sign_pos hx, abs_of_nonneg (h1 hx)]; simp

/-- Attributes and increments of the sources of either class. -/
theorem PoissonClass.new_spec [IsStrictOrderedRing T] {c : PoissonClass}
    {draw : (List ℕ → T) → List ℕ → σ → (List ℕ → ℤ) × σ} (hd : ∀ l size s j, 0 ≤ (draw l size s).1 j)
    {lam : RawParam T} {d : Option DType} {paths : ℕ} {vshape : List ℕ} {S : PoissonObj T σ}
    (h : c.new draw lam d paths vshape = .ok S) :
    S.paths = paths ∧ S.vshape = vshape ∧ S.dtype = d.getD c.defaultDType ∧
    ∀ t dt s n s', S.call t dt s = .ok (n, s') →
      ∃ sh, bcShape t.shape dt.shape = some sh ∧ n.shape = sh ++ vshape ++ [paths] ∧
        ∀ i j, InRange sh i → InRange (vshape ++ [paths]) j →
          |n.get (i ++ j)| = (SignType.sign (dt.bget i) : ℤ) * n.get (i ++ j) := by
  unfold PoissonClass.new at h
  cases c with
  | poisson =>
    simp only at h
    split at h
    · cases h
    · next P hP =>
      obtain ⟨p1, p2⟩ := poissonNew_attrs hP
      cases h
      refine ⟨rfl, rfl, rfl, ?_⟩
      intro t dt s n s' hc
      simp only at hc
      obtain ⟨sh, hsh, hs, -⟩ := C23_draws hc
      rw [p1, p2] at hs
      exact ⟨sh, hsh, hs, fun i j hi _ => poissonCall_sign hd hc hsh hi j⟩
  | even =>
    simp only at h
    split at h
    · cases h
    · next p call hcall =>
      cases h
      rcases Nat.even_or_odd' paths with ⟨K, rfl | rfl⟩
      · cases hP : poissonNew K vshape lam with
        | error e =>
          unfold antithetics at hcall
          rw [if_neg (by omega), show 2 * K / 2 = K by omega] at hcall
          simp only [hP] at hcall
          cases hcall
        | ok P =>
          obtain ⟨anti, h1, h2⟩ := (C22_even_poisson vshape lam draw K).2 P hP
          rw [h1] at hcall
          cases hcall
          refine ⟨rfl, rfl, rfl, ?_⟩
          intro t dt s n s' hc
          simp only at hc
          obtain ⟨h3, h4⟩ := h2 t dt s
          cases hz : poissonCall P draw t dt s with
          | error e => rw [h3 e hz] at hc; cases hc
          | ok r =>
            obtain ⟨z, s1⟩ := r
            obtain ⟨x, sh, hx, hsh, hxs, hxv⟩ := h4 z s1 hz
            rw [hx] at hc
            cases hc
            refine ⟨sh, hsh, hxs, ?_⟩
            intro i j hi hj
            obtain ⟨v, k, rfl, hv, hk⟩ := hj.of_append
            obtain ⟨k, rfl⟩ : ∃ m, k = [m] := List.length_eq_one_iff.1 (by simpa using hk.length)
            have hk : k < 2 * K := by
              have := hk
              simpa [InRange] using this
            have e : ∀ m, i ++ (v ++ [m]) = (i ++ v) ++ [m] := by intro m; simp
            rcases Nat.lt_or_ge k K with hlt | hge
            · rw [e, (hxv (i ++ v) k hlt).1, ← e]
              exact poissonCall_sign hd hz hsh hi _
            · obtain ⟨m, rfl⟩ := Nat.exists_eq_add_of_le hge
              rw [e, (hxv (i ++ v) m (by omega)).2, (hxv (i ++ v) m (by omega)).1, ← e]
              exact poissonCall_sign hd hz hsh hi _
      · rw [(C22_even_poisson vshape lam draw K).1] at hcall
        cases hcall

/-- With integer increments, calls are those of `cpoissonCall`. -/
theorem CPoissonObj.call_int {S : CPoissonObj T Y σ} (h : S.dn.dtype = .int) (t dt : Arr T) (s : σ) :
    S.call t dt s = cpoissonCall ⟨S.paths, S.vshape, S.dn.call, S.y⟩ t dt s := by
  have hbody : ∀ (rv : T → Py (Rvs Y σ)) (shape : List ℕ) (t dt : List ℕ → T) (dn : List ℕ → Arr ℤ),
      cpoissonBodyT true rv shape t dt dn = cpoissonBody rv shape t dt dn := by
    intro rv shape t dt dn
    funext i s
    rfl
  unfold CPoissonObj.call cpoissonCall
  rw [h]
  simp only [DType.isInt, hbody]
  rfl

/-- The given `dn` has integer increments and the shape of values, and is an instance of one of the classes, if
it is an instance. -/
def Spec.IntegerDn (draw : (List ℕ → T) → List ℕ → σ → (List ℕ → ℤ) × σ) (ptype : DType) (vshape : List ℕ) :
    DnArg T σ → Prop
  | .none => ptype = .int
  | .cls _ => ptype = .int
  | .obj O => O.dtype = .int ∧ ∃ c lam d paths, PoissonClass.new c draw lam d paths vshape = .ok O

theorem cpoissonNew_spec [IsStrictOrderedRing T] {draw : (List ℕ → T) → List ℕ → σ → (List ℕ → ℤ) × σ}
    (hd : ∀ l size s j, 0 ≤ (draw l size s).1 j) {paths : ℕ} {vshape : List ℕ} {dn : DnArg T σ} {ptype : DType}
    {lam : RawParam T} {y : T → Py (Rvs Y σ)} {S : CPoissonObj T Y σ}
    (h : cpoissonNew draw paths vshape dn ptype lam y = .ok S) (hdn : IntegerDn draw ptype vshape dn) :
    S.paths = paths ∧ S.vshape = vshape ∧ S.y = y ∧ S.dn.dtype = .int ∧
    ∃ c lam d, PoissonClass.new c draw lam d paths vshape = .ok S.dn := by
  unfold cpoissonNew at h
  split at h
  · cases h
  · next dn' hs =>
    cases h
    refine ⟨rfl, rfl, rfl, ?_⟩
    cases dn with
    | none =>
      have hs : PoissonClass.new .poisson draw lam (some ptype) paths vshape = .ok dn' := hs
      refine ⟨?_, _, _, _, hs⟩
      rw [(PoissonClass.new_spec hd hs).2.2.1]
      exact hdn
    | cls c =>
      have hs : PoissonClass.new c draw lam (some ptype) paths vshape = .ok dn' := hs
      refine ⟨?_, _, _, _, hs⟩
      rw [(PoissonClass.new_spec hd hs).2.2.1]
      exact hdn
    | obj O =>
      obtain ⟨h1, c, lam', d, paths', h2⟩ := hdn
      simp only [DnArg.raw, sourceSetup, checkSource] at hs
      split at hs
      · cases hs
      · next hc =>
        split at hc
        · cases hc
        · next hp =>
          simp only [Except.ok.injEq] at hs
          subst hs
          simp only [not_or, ne_eq, not_not] at hp
          refine ⟨h1, c, lam', d, ?_⟩
          rw [← hp.1, (PoissonClass.new_spec hd h2).1]
          exact h2

/-- **C96**: a compound Poisson source, constructed with any of `dn=None`, `dn=poisson_source` or `dn=even_poisson_source` and an
integer `ptype`, or with an instance of these classes with integer increments and the shape of values. The increment in
each cell is the sum of as many variates as the absolute value of the increment of `dn`, times the sign of the time step, each
row of variates is used for exactly one cell. Calls succeed, if Poisson increments and variates can be drawn and if there is at
least a cell. What is missing: increments that are not integers (`C96_false`). -/
theorem C96_jumps_partial [IsStrictOrderedRing T] {draw : (List ℕ → T) → List ℕ → σ → (List ℕ → ℤ) × σ}
    (hd : ∀ l size s j, 0 ≤ (draw l size s).1 j) {paths : ℕ} {vshape : List ℕ} {dn : DnArg T σ} {ptype : DType}
    {lam : RawParam T} {y : T → Py (Rvs Y σ)} {S : CPoissonObj T Y σ}
    (hS : cpoissonNew draw paths vshape dn ptype lam y = .ok S) (hdn : IntegerDn draw ptype vshape dn)
    (t dt : Arr T) (s : σ) :
    (∀ dz n ys s', S.call t dt s = .ok ((dz, n, ys), s') →
      ∃ sh, bcShape t.shape dt.shape = some sh ∧ (∃ s1, S.dn.call ⟨sh, t.bget⟩ ⟨sh, dt.bget⟩ s = .ok (n, s1)) ∧
      n.shape = sh ++ vshape ++ [paths] ∧ dz.shape = sh ++ vshape ++ [paths] ∧
      (∀ c, InRange dz.shape c → n.get c = 0 → dz.get c = 0) ∧
      SumsOf {c | InRange dz.shape c ∧ n.get c ≠ 0}
        (fun c => (SignType.sign (dt.bget (c.take sh.length)) : ℤ)) (fun c => |n.get c|)
        (fun c z => ∃ rvs s1 s2,
          y (t.bget (c.take sh.length) + dt.bget (c.take sh.length) / 2) = .ok rvs ∧
          rvs z.n z.j s1 = .ok (z.val, s2)) dz.get ys) ∧
    (∀ sh n s1, bcShape t.shape dt.shape = some sh → S.dn.call ⟨sh, t.bget⟩ ⟨sh, dt.bget⟩ s = .ok (n, s1) →
      0 ∉ vshape ++ [paths] →
      (∀ i, InRange sh i → ∃ rvs, y (t.bget i + dt.bget i / 2) = .ok rvs ∧ ∀ n j s, ∃ r, rvs n j s = .ok r) →
      ∃ dz ys s', S.call t dt s = .ok ((dz, n, ys), s')) := by
  obtain ⟨rfl, rfl, rfl, hi, c, lam', d, hnew⟩ := cpoissonNew_spec hd hS hdn
  obtain ⟨-, -, -, hcall⟩ := PoissonClass.new_spec hd hnew
  have key : ∀ sh n s1, S.dn.call ⟨sh, t.bget⟩ ⟨sh, dt.bget⟩ s = .ok (n, s1) →
      n.shape = sh ++ S.vshape ++ [S.paths] ∧ ∀ i j, InRange sh i → InRange (S.vshape ++ [S.paths]) j →
      |n.get (i ++ j)| = (SignType.sign (dt.bget i) : ℤ) * n.get (i ++ j) := by
    intro sh n s1 h
    obtain ⟨sh', e1, e2, e3⟩ := hcall _ _ _ _ _ h
    have hself : bcShape (⟨sh, t.bget⟩ : Arr T).shape (⟨sh, dt.bget⟩ : Arr T).shape = some sh := bcShape_self sh
    obtain rfl : sh = sh' := by rw [hself] at e1; exact Option.some.inj e1
    refine ⟨e2, fun i j hi hj => ?_⟩
    have hb : (⟨sh, dt.bget⟩ : Arr T).bget i = dt.bget i := bget_self _ hi
    rw [e3 i j hi hj, hb]
  rw [CPoissonObj.call_int hi]
  constructor
  · intro dz n ys s' h
    cases hsh : bcShape t.shape dt.shape with
    | none => simp [cpoissonCall, broadcast2_eq, hsh] at h
    | some sh =>
      have hdn : ∃ s1, S.dn.call ⟨sh, t.bget⟩ ⟨sh, dt.bget⟩ s = .ok (n, s1) := by
        have h := h
        unfold cpoissonCall at h
        rw [broadcast2_eq] at h
        simp only [hsh] at h
        split at h
        · cases h
        · next dn' s1 hdn' =>
          split at h
          · cases h
          · split at h
            · cases h
            · simp only [Except.ok.injEq, Prod.mk.injEq] at h
              exact ⟨s1, by rw [hdn', h.1.2.1]⟩
      obtain ⟨s1, hdn⟩ := hdn
      obtain ⟨k1, k2⟩ := key sh n s1 hdn
      obtain ⟨-, h2, h3, h4⟩ := C24_jumps_partial h hsh k1 k2
      exact ⟨sh, rfl, ⟨s1, hdn⟩, k1, h2, h3, h4⟩
  · intro sh n s1 hsh hn hne hy
    exact C24_ok (S := ⟨S.paths, S.vshape, S.dn.call, S.y⟩) hsh hn (key sh n s1 hn).1 hne hy

/-- **C96**: increments that are not integers. No call ever returns, unless there are no times; if increments are drawn,
of the right shape, if there is at least a cell, and if distributions are well defined, it is a `TypeError`. -/
theorem C96_float {S : CPoissonObj T Y σ} (h : S.dn.dtype ≠ .int) (t dt : Arr T) (s : σ) {sh : List ℕ}
    (hsh : bcShape t.shape dt.shape = some sh) (h0 : 0 ∉ sh) :
    (∀ r, S.call t dt s ≠ .ok r) ∧
    (∀ n s1, S.dn.call ⟨sh, t.bget⟩ ⟨sh, dt.bget⟩ s = .ok (n, s1) → n.shape = sh ++ S.vshape ++ [S.paths] →
      0 ∉ S.vshape ++ [S.paths] → (∀ i, InRange sh i → ∃ rvs, S.y (t.bget i + dt.bget i / 2) = .ok rvs) →
      S.call t dt s = .error .typeError) := by
  have hf : S.dn.dtype.isInt = false := by
    cases hd : S.dn.dtype <;> simp_all [DType.isInt]
  obtain ⟨i, is, his⟩ : ∃ i is, ndindex sh = i :: is := by
    cases hn : ndindex sh with
    | nil =>
      exfalso
      have h3 := congrArg List.length hn
      rw [ndindex_length] at h3
      simp only [List.length_nil, List.prod_eq_zero_iff] at h3
      exact h0 h3
    | cons i is => exact ⟨i, is, rfl⟩
  have hi : InRange sh i := by rw [← mem_ndindex, his]; exact List.mem_cons_self
  have hbody : ∀ (dn : List ℕ → Arr ℤ) s r, cpoissonBodyT false S.y (S.vshape ++ [S.paths]) t.bget dt.bget dn i s ≠ .ok r := by
    intro dn s r hr
    unfold cpoissonBodyT at hr
    simp only at hr
    split at hr
    · cases hr
    · split at hr
      · cases hr
      · simp [rangeLen] at hr
  constructor
  · intro r hr
    unfold CPoissonObj.call at hr
    rw [broadcast2_eq, hf] at hr
    simp only [hsh] at hr
    split at hr
    · cases hr
    · next dn' s1 hdn' =>
      split at hr
      · cases hr
      · rw [his] at hr
        simp only [loopIdx] at hr
        split at hr
        · cases hr
        · next hl =>
          split at hl
          · cases hl
          · next hb => exact hbody _ _ _ hb
  · intro n s1 hn hshape hne hy
    have hdrop : n.shape.drop sh.length = S.vshape ++ [S.paths] := by
      rw [hshape, List.append_assoc, List.drop_left]
    have htake : n.shape.take sh.length = sh := by
      rw [hshape, List.append_assoc, List.take_left]
    obtain ⟨rvs, hrv⟩ := hy i hi
    have hmax : ∃ m, arrMax ⟨S.vshape ++ [S.paths], fun j => sgn (dt.bget i) * n.get (i ++ j)⟩ = .ok m := by
      unfold arrMax
      split
      · next h =>
        exfalso
        have h3 := congrArg List.length h
        rw [List.length_map, ndindex_length] at h3
        simp only [List.length_nil, List.prod_eq_zero_iff] at h3
        exact hne h3
      · exact ⟨_, rfl⟩
    obtain ⟨m, hm⟩ := hmax
    have hb : cpoissonBodyT false S.y (S.vshape ++ [S.paths]) t.bget dt.bget
        (fun i => ⟨n.shape.drop sh.length, fun j => n.get (i ++ j)⟩) i s1 = .error .typeError := by
      unfold cpoissonBodyT
      simp only [hdrop, hm, hrv, rangeLen]
    unfold CPoissonObj.call
    rw [broadcast2_eq, hf]
    simp only [hsh, hn, htake, ne_eq, not_true, if_false, his, loopIdx, hb]

/-- **C96**: the increments of `poisson_source` are integers unless another type is asked for; those of `even_poisson_source` are
integers only if asked for. -/
theorem C96_types [IsStrictOrderedRing T] {draw : (List ℕ → T) → List ℕ → σ → (List ℕ → ℤ) × σ}
    (hd : ∀ l size s j, 0 ≤ (draw l size s).1 j) {lam : RawParam T} {paths : ℕ} {vshape : List ℕ}
    {d : Option DType} {S : PoissonObj T σ} :
    (PoissonClass.new .poisson draw lam d paths vshape = .ok S → (S.dtype = .int ↔ d = none ∨ d = some .int)) ∧
    (PoissonClass.new .even draw lam d paths vshape = .ok S → (S.dtype = .int ↔ d = some .int)) := by
  constructor <;> intro h <;> rw [(PoissonClass.new_spec hd h).2.2.1] <;>
    rcases d with _ | d <;> simp [PoissonClass.defaultDType]

/-- **C96**: with `dn=None`, as with the class `poisson_source`, the increments are those of a `poisson_source` with the `paths`, `vshape` and
`lam` of the compound source, of type `ptype`; construction fails if and only if that of a `poisson_source` fails. -/
theorem C96_default {draw : (List ℕ → T) → List ℕ → σ → (List ℕ → ℤ) × σ}
    (paths : ℕ) (vshape : List ℕ) (ptype : DType) (lam : RawParam T) (y : T → Py (Rvs Y σ)) {dn : DnArg T σ}
    (hdn : dn = .none ∨ dn = .cls .poisson) :
    (∀ e, poissonNew paths vshape lam = .error e → cpoissonNew draw paths vshape dn ptype lam y = .error e) ∧
    (∀ P, poissonNew paths vshape lam = .ok P → ∃ S, cpoissonNew draw paths vshape dn ptype lam y = .ok S ∧
      S.dn.dtype = ptype ∧ S.dn.paths = paths ∧ S.dn.vshape = vshape ∧
      ∀ t dt s, S.dn.call t dt s = poissonCall P draw t dt s) := by
  have hsu : cpoissonNew draw paths vshape dn ptype lam y =
      match PoissonClass.new .poisson draw lam (some ptype) paths vshape with
      | .error e => .error e
      | .ok dn => .ok ⟨paths, vshape, dn, y⟩ := by
    rcases hdn with rfl | rfl <;> rfl
  rw [hsu]
  unfold PoissonClass.new
  constructor
  · intro e he
    simp only [he]
  · intro P hP
    simp only [hP]
    exact ⟨_, rfl, rfl, rfl, rfl, fun _ _ _ => rfl⟩

/-- **C96**: `even_poisson_source` as `dn`, given as a class, with an integer `ptype`: odd numbers of paths are rejected; otherwise
the number of jumps in each path in the second half is that of a path in the first half. -/
theorem C96_even_class [IsStrictOrderedRing T] {draw : (List ℕ → T) → List ℕ → σ → (List ℕ → ℤ) × σ}
    (vshape : List ℕ) (ptype : DType) (lam : RawParam T) (y : T → Py (Rvs Y σ)) (K : ℕ) :
    cpoissonNew draw (2 * K + 1) vshape (.cls .even) ptype lam y = .error .valueError ∧
    (∀ P, poissonNew K vshape lam = .ok P → ∃ S, cpoissonNew draw (2 * K) vshape (.cls .even) ptype lam y = .ok S ∧
      S.dn.dtype = ptype ∧ S.dn.paths = 2 * K ∧
      ∀ t dt s dz n ys s', S.call t dt s = .ok ((dz, n, ys), s') →
        ∀ v i, i < K → n.get (v ++ [K + i]) = n.get (v ++ [i])) := by
  have hsu : ∀ p, cpoissonNew draw p vshape (.cls .even) ptype lam y =
      match PoissonClass.new .even draw lam (some ptype) p vshape with
      | .error e => .error e
      | .ok dn => .ok ⟨p, vshape, dn, y⟩ := fun _ => rfl
  obtain ⟨hodd, heven⟩ := C22_even_poisson vshape lam draw K
  constructor
  · rw [hsu]
    unfold PoissonClass.new
    simp only [hodd]
  · intro P hP
    obtain ⟨anti, h1, h2⟩ := heven P hP
    rw [hsu]
    unfold PoissonClass.new
    simp only [h1]
    refine ⟨_, rfl, rfl, rfl, ?_⟩
    intro t dt s dz n ys s' hc v i hi
    unfold CPoissonObj.call at hc
    split at hc
    · cases hc
    · next t' dt' hb =>
      split at hc
      · cases hc
      · next n' s1 hn =>
        simp only at hn
        have hnn : n' = n := by
          simp only at hc
          split at hc
          · cases hc
          · split at hc
            · cases hc
            · simp only [Except.ok.injEq, Prod.mk.injEq] at hc
              exact hc.1.2.1
        subst hnn
        obtain ⟨a, b⟩ := h2 t' dt' s
        cases hz : poissonCall P draw t' dt' s with
        | error e => rw [a e hz] at hn; cases hn
        | ok r =>
          obtain ⟨z, s2⟩ := r
          obtain ⟨x, sh, hx, -, -, hxv⟩ := b z s2 hz
          rw [hx] at hn
          cases hn
          exact (hxv v i hi).2

/-- **C96** fails for all instances of `even_poisson_source` constructed without `dtype`: such an instance is accepted as
`dn`, whatever `ptype`, but then no call of the compound source ever returns, unless there are no times. -/
theorem C96_even_default [IsStrictOrderedRing T] {draw : (List ℕ → T) → List ℕ → σ → (List ℕ → ℤ) × σ}
    (hd : ∀ l size s j, 0 ≤ (draw l size s).1 j) {lam lam' : RawParam T} {paths : ℕ} {vshape : List ℕ} {O : PoissonObj T σ}
    (hO : PoissonClass.new .even draw lam none paths vshape = .ok O) (ptype : DType) (y : T → Py (Rvs Y σ)) :
    ∃ S, cpoissonNew draw paths vshape (.obj O) ptype lam' y = .ok S ∧
      ∀ t dt s sh, bcShape t.shape dt.shape = some sh → 0 ∉ sh → ∀ r, S.call t dt s ≠ .ok r := by
  obtain ⟨h1, h2, h3, -⟩ := PoissonClass.new_spec hd hO
  have hb : BcOk vshape vshape := by
    unfold BcOk
    exact bcOkRev_refl _
  refine ⟨⟨paths, vshape, O, y⟩, ?_, ?_⟩
  · simp [cpoissonNew, DnArg.raw, sourceSetup, checkSource, h1, h2, hb]
  · intro t dt s sh hsh h0
    exact (C96_float (S := ⟨paths, vshape, O, y⟩) (by simp [h3, PoissonClass.defaultDType]) t dt s hsh h0).1

end

/-! ### Examples -/

/-- Poisson variates: two jumps in the first path, none in the others. -/
def exDraw : (List ℕ → ℚ) → List ℕ → ℕ → (List ℕ → ℤ) × ℕ :=
  fun _ _ s => (fun j => if j.headD 0 = 0 then 2 else 0, s)

/-- Variates numbered in the order they are drawn. -/
def exRvs : ℚ → Py (Rvs ℚ ℕ) := fun _ => .ok fun n j s => .ok (fun r k => s + j * r + k, s + n * j)

/-- **C96** fails: `cpoisson_source(paths=2, dn=even_poisson_source(paths=2, lam=1), y=...)` is constructed, but a call over a time step from
`0` to `1`, that would draw two jumps in each path, raises `TypeError`; with `dn=even_poisson_source`, or with
`dn=even_poisson_source(paths=2, dtype=int, lam=1)`, it returns the sum of two variates in each path. -/
theorem C96_false :
    (∃ O, PoissonClass.new .even exDraw (.arr (.scalar 1)) none 2 [] = .ok O ∧
      ∃ S, cpoissonNew exDraw 2 [] (.obj O) .int (.arr (.scalar 1)) exRvs = .ok S ∧
        (S.call (.scalar 0) (.scalar 1) 1).map (fun _ => ()) = .error .typeError ∧
        (S.dn.call (.scalar 0) (.scalar 1) 1).map (fun r => (ndindex [2]).map r.1.get) = .ok [2, 2]) ∧
    (∃ O, PoissonClass.new .even exDraw (.arr (.scalar 1)) (some .int) 2 [] = .ok O ∧
      ∃ S, cpoissonNew exDraw 2 [] (.obj O) .int (.arr (.scalar 1)) exRvs = .ok S ∧
        (S.call (.scalar 0) (.scalar 1) 1).map (fun r => (ndindex [2]).map r.1.1.get) = .ok [1 + 2, 3 + 4]) ∧
    (∃ S, cpoissonNew exDraw 2 [] (.cls .even) .int (.arr (.scalar 1)) exRvs = .ok S ∧
        (S.call (.scalar 0) (.scalar 1) 1).map (fun r => (ndindex [2]).map r.1.1.get) = .ok [1 + 2, 3 + 4]) := by
  refine ⟨⟨_, rfl, _, rfl, ?_, ?_⟩, ⟨_, rfl, _, rfl, ?_⟩, ⟨_, rfl, ?_⟩⟩ <;> decide +kernel

/-- The hypotheses of `C96_jumps_partial`, `C96_default`, `C96_types`, `C96_even_class` and `C96_even_default` hold together. -/
example :
    (∀ l size s j, 0 ≤ (exDraw l size s).1 j) ∧
    (∃ O S, PoissonClass.new .even exDraw (.arr (.scalar 1)) (some .int) 4 [3] = .ok O ∧
      IntegerDn exDraw .none [3] (.obj O) ∧
      cpoissonNew exDraw 4 [3] (.obj O) .none (.arr (.scalar 1)) exRvs = .ok S) ∧
    (∃ S, cpoissonNew exDraw 3 [3] .none .int (.arr (.scalar 1)) exRvs = .ok S) ∧
    (∃ P, poissonNew 2 [3] (.arr (.scalar (1 : ℚ))) = .ok P) ∧
    (∃ O, PoissonClass.new .even exDraw (.arr (.scalar 1)) none 4 [3] = .ok O) := by
  refine ⟨?_, ⟨_, _, rfl, ⟨rfl, .even, .arr (.scalar 1), some .int, 4, rfl⟩, rfl⟩, ⟨_, rfl⟩, ⟨_, rfl⟩, ⟨_, rfl⟩⟩
  intro l size s j
  simp only [exDraw]
  split <;> norm_num

/-- The hypotheses of `C96_float`: `ptype=float`, a step forwards and a step backwards, three paths. -/
example : ∃ S, cpoissonNew exDraw 3 [] .none .float (.arr (.scalar 1)) exRvs = .ok S ∧ S.dn.dtype ≠ .int ∧
    bcShape [2] [2] = some [2] ∧ 0 ∉ S.vshape ++ [S.paths] ∧
    (S.dn.call ⟨[2], fun i => i.headD 0⟩ ⟨[2], fun i => 1 - 2 * i.headD 0⟩ 1).map
      (fun r => (decide (r.1.shape = [2] ++ S.vshape ++ [S.paths]), r.1.get [0, 0], r.1.get [1, 0])) = .ok (true, 2, -2) := by
  refine ⟨_, rfl, by simp, by decide, by simp, ?_⟩
  decide +kernel

end Sdepy
