import Verif.Props.WienerSource
import Verif.Props.TrueSource
import Mathlib.Probability.Distributions.Poisson.Basic

/-!
# Poisson and compound Poisson sources, antithetics (C22, C23, C24)
-/

open MeasureTheory ProbabilityTheory

namespace Sdepy

open Spec

/-! ### Loops -/

theorem loopIdx_visits {ι β σ : Type} {body : ι → σ → Py (β × σ)} {l : List ι} {s s' : σ}
    {r : List (ι × β)} (h : loopIdx body l s = .ok (r, s')) :
    Visits (fun i s1 s2 => ∃ b, body i s1 = .ok (b, s2) ∧ (i, b) ∈ r) l s s' := by
  have key : ∀ (l : List ι) (s : σ) (r' : List (ι × β)), loopIdx body l s = .ok (r', s') → r' ⊆ r →
      Visits (fun i s1 s2 => ∃ b, body i s1 = .ok (b, s2) ∧ (i, b) ∈ r) l s s' := by
    intro l
    induction l with
    | nil =>
      intro s r' h _
      simp only [loopIdx, Except.ok.injEq, Prod.mk.injEq] at h
      rw [h.2]; exact .nil _
    | cons i is ih =>
      intro s r' h hr
      simp only [loopIdx] at h
      split at h
      · cases h
      · next b s1 hb =>
        split at h
        · cases h
        · next bs s2 hbs =>
          simp only [Except.ok.injEq, Prod.mk.injEq] at h
          obtain ⟨rfl, rfl⟩ := h
          exact .cons ⟨b, hb, hr List.mem_cons_self⟩
            (ih _ _ hbs (fun x hx => hr (List.mem_cons_of_mem _ hx)))
  exact key l s r h (List.Subset.refl _)

theorem Spec.Visits.mono {ι σ : Type} {p q : ι → σ → σ → Prop} {l : List ι} {s s' : σ}
    (h : Visits p l s s') (hpq : ∀ i ∈ l, ∀ s1 s2, p i s1 s2 → q i s1 s2) : Visits q l s s' := by
  induction h with
  | nil s => exact .nil s
  | cons h1 _ ih =>
    exact .cons (hpq _ List.mem_cons_self _ _ h1)
      (ih fun i hi => hpq i (List.mem_cons_of_mem _ hi))

theorem Spec.Visits.exists {ι σ : Type} {p : ι → σ → σ → Prop} {l : List ι} {s s' : σ}
    (h : Visits p l s s') {i : ι} (hi : i ∈ l) : ∃ s1 s2, p i s1 s2 := by
  induction h with
  | nil s => cases hi
  | @cons j is s s1 s2 h1 _ ih =>
    cases hi with
    | head => exact ⟨_, _, h1⟩
    | tail _ h => exact ih h

theorem loopIdx_ok {ι β σ : Type} {body : ι → σ → Py (β × σ)} {l : List ι}
    (h : ∀ i ∈ l, ∀ s, ∃ r, body i s = .ok r) (s : σ) : ∃ r, loopIdx body l s = .ok r := by
  induction l generalizing s with
  | nil => exact ⟨_, rfl⟩
  | cons i is ih =>
    obtain ⟨⟨b, s1⟩, hb⟩ := h i List.mem_cons_self s
    obtain ⟨⟨r, s2⟩, hr⟩ := ih (fun j hj => h j (List.mem_cons_of_mem _ hj)) s1
    exact ⟨_, by simp only [loopIdx, hb, hr]; rfl⟩

/-! ### Poisson -/

theorem sgn_eq {T : Type} [Field T] [LinearOrder T] (x : T) : sgn x = (SignType.sign x : ℤ) := by
  unfold sgn
  rcases lt_trichotomy x 0 with hx | rfl | hx
  · rw [if_neg hx.not_gt, if_pos hx, sign_neg hx]; rfl
  · simp
  · rw [if_pos hx, sign_pos hx]; rfl

section
variable {T σ : Type} [Field T] [LinearOrder T] [IsStrictOrderedRing T]

theorem lamIs_at {lam : Param T} {τ : T} {L : Arr T} : LamIs lam τ L ↔ lam.at τ = .ok L := by
  constructor
  · intro h
    cases h with
    | const => rfl
    | fn h => exact h
  · intro h
    cases lam with
    | none => cases h
    | arr a => cases h; exact .const _
    | fn sh f => exact .fn h

theorem poissonDraw_ok {draw : (List ℕ → T) → List ℕ → σ → (List ℕ → ℤ) × σ} {lam : Arr T}
    {size : List ℕ} {s s' : σ} {n : Arr ℤ} :
    poissonDraw draw lam size s = .ok (n, s') ↔
      BcOk lam.shape size ∧ (∀ i, InRange size i → 0 ≤ lam.bget i) ∧
        n = ⟨size, (draw lam.bget size s).1⟩ ∧ s' = (draw lam.bget size s).2 := by
  unfold poissonDraw Arr.broadcastTo
  by_cases hb : BcOk lam.shape size
  · simp only [if_pos hb]
    by_cases hneg : ∃ i ∈ ndindex size, lam.bget i < 0
    · rw [if_pos (by exact hneg)]
      obtain ⟨i, hi, hl⟩ := hneg
      constructor
      · intro h; cases h
      · rintro ⟨-, h, -⟩
        exact absurd (h i (mem_ndindex.1 hi)) (not_le.2 hl)
    · rw [if_neg (by exact hneg)]
      push Not at hneg
      simp only [Except.ok.injEq, Prod.mk.injEq]
      constructor
      · rintro ⟨h1, h2⟩
        exact ⟨hb, fun i hi => hneg i (mem_ndindex.2 hi), h1.symm, h2.symm⟩
      · rintro ⟨-, -, h1, h2⟩
        exact ⟨h1.symm, h2.symm⟩
  · simp only [if_neg hb]
    constructor
    · intro h; cases h
    · rintro ⟨h, -⟩; exact absurd h hb

/-- **C23**: whatever the random generator, increments have the shape of `t` and `dt` (broadcast),
followed by `vshape` and by the number of paths. Variates are drawn once for each time, in order,
with the intensity `L` at the middle of the time step, times the size of the step, and are given the
sign of the step. -/
theorem C23_draws {S : PoissonSrc T} {draw : (List ℕ → T) → List ℕ → σ → (List ℕ → ℤ) × σ}
    {t dt : Arr T} {s s' : σ} {dn : Arr ℤ} (h : poissonCall S draw t dt s = .ok (dn, s')) :
    ∃ sh, bcShape t.shape dt.shape = some sh ∧ dn.shape = sh ++ S.vshape ++ [S.paths] ∧
      Visits (fun i s1 s2 => ∃ L, LamIs S.lam (t.bget i + dt.bget i / 2) L ∧
        BcOk L.shape (S.vshape ++ [S.paths]) ∧
        (∀ j, InRange (S.vshape ++ [S.paths]) j → 0 ≤ |dt.bget i| * L.bget j) ∧
        (∀ j, dn.get (i ++ j) = (SignType.sign (dt.bget i) : ℤ) *
          (draw (fun j => |dt.bget i| * L.bget j) (S.vshape ++ [S.paths]) s1).1 j) ∧
        s2 = (draw (fun j => |dt.bget i| * L.bget j) (S.vshape ++ [S.paths]) s1).2)
      (ndindex sh) s s' := by
  unfold poissonCall at h
  rw [broadcast2_eq] at h
  cases hsh : bcShape t.shape dt.shape with
  | none => simp [hsh] at h
  | some sh =>
    simp only [hsh] at h
    split at h
    · cases h
    · next r s1 hr =>
      simp only [Except.ok.injEq, Prod.mk.injEq] at h
      obtain ⟨rfl, rfl⟩ := h
      refine ⟨sh, rfl, by simp [assemble], ?_⟩
      refine (loopIdx_visits hr).mono ?_
      rintro i hi s1 s2 ⟨b, hb, hmem⟩
      have hlook := lookup_of_mem_nodup
        (by rw [loopIdx_fst hr]; exact ndindex_nodup sh) hmem
      have hi' := mem_ndindex.1 hi
      unfold poissonBody at hb
      cases hL : S.lam.at (t.bget i + dt.bget i / 2) with
      | error e => simp [hL] at hb
      | ok L =>
        simp only [hL] at hb
        split at hb
        · cases hb
        · next n s3 hn =>
          simp only [Except.ok.injEq, Prod.mk.injEq] at hb
          obtain ⟨rfl, rfl⟩ := hb
          obtain ⟨h1, h2, h3, h4⟩ := poissonDraw_ok.1 hn
          refine ⟨L, lamIs_at.2 hL, h1, h2, ?_, h4⟩
          intro j
          have e1 : (i ++ j).take sh.length = i := by rw [← hi'.length]; simp
          have e2 : (i ++ j).drop sh.length = j := by rw [← hi'.length]; simp
          simp only [assemble, e1, e2, hlook, h3]
          rw [sgn_eq]
          rfl

/-- **C23**, sign of increments: increments have the sign of the time step, and are zero for null time
steps. The hypothesis is that Poisson variates are not negative. -/
theorem C23_sign {S : PoissonSrc T} {draw : (List ℕ → T) → List ℕ → σ → (List ℕ → ℤ) × σ}
    (hd : ∀ l size s j, 0 ≤ (draw l size s).1 j)
    {t dt : Arr T} {s s' : σ} {dn : Arr ℤ} (h : poissonCall S draw t dt s = .ok (dn, s'))
    {sh : List ℕ} (hsh : bcShape t.shape dt.shape = some sh) {i : List ℕ} (hi : InRange sh i)
    (j : List ℕ) :
    (0 < dt.bget i → 0 ≤ dn.get (i ++ j)) ∧ (dt.bget i < 0 → dn.get (i ++ j) ≤ 0) ∧
      (dt.bget i = 0 → dn.get (i ++ j) = 0) := by
  obtain ⟨sh', hsh', -, hv⟩ := C23_draws h
  obtain rfl : sh = sh' := by rw [hsh] at hsh'; exact Option.some.inj hsh'
  obtain ⟨s1, s2, L, -, -, -, he, -⟩ := hv.exists (mem_ndindex.2 hi)
  have hpos := hd (fun j => |dt.bget i| * L.bget j) (S.vshape ++ [S.paths]) s1 j
  rw [he j]
  refine ⟨fun hp => ?_, fun hp => ?_, fun hp => ?_⟩
  · rw [sign_pos hp]; simpa using hpos
  · rw [sign_neg hp]; simpa using hpos
  · rw [hp]; simp

/-- **C23**: when the intensity at the middle of each time step is available, is not negative, and fits the
shape of values, the call succeeds; a negative intensity, one of the wrong shape, or times that
cannot be broadcast, are a `ValueError`. -/
theorem C23_ok (S : PoissonSrc T) (draw : (List ℕ → T) → List ℕ → σ → (List ℕ → ℤ) × σ)
    (t dt : Arr T) (s : σ) :
    (∀ sh, bcShape t.shape dt.shape = some sh →
      (∀ i, InRange sh i → ∃ L, LamIs S.lam (t.bget i + dt.bget i / 2) L ∧
        BcOk L.shape (S.vshape ++ [S.paths]) ∧
        ∀ j, InRange (S.vshape ++ [S.paths]) j → 0 ≤ L.bget j) →
      ∃ r, poissonCall S draw t dt s = .ok r) ∧
    (bcShape t.shape dt.shape = none → poissonCall S draw t dt s = .error .valueError) ∧
    (∀ sh i, bcShape t.shape dt.shape = some sh → InRange sh i →
      (∀ i, InRange sh i → ∃ L, LamIs S.lam (t.bget i + dt.bget i / 2) L) →
      (∀ L, LamIs S.lam (t.bget i + dt.bget i / 2) L → ¬ BcOk L.shape (S.vshape ++ [S.paths]) ∨
        dt.bget i ≠ 0 ∧ ∃ j, InRange (S.vshape ++ [S.paths]) j ∧ L.bget j < 0) →
      poissonCall S draw t dt s = .error .valueError) := by
  refine ⟨?_, ?_, ?_⟩
  · intro sh hsh h
    have : ∀ i ∈ ndindex sh, ∀ s, ∃ r, poissonBody draw S.lam (S.vshape ++ [S.paths]) t.bget dt.bget
        i s = .ok r := by
      intro i hi s
      obtain ⟨L, hL, hb, hn⟩ := h i (mem_ndindex.1 hi)
      have h2 := (poissonDraw_ok (draw := draw) (lam := ⟨L.shape, fun j => |dt.bget i| * L.get j⟩)
        (size := S.vshape ++ [S.paths]) (s := s)).2
        ⟨hb, fun j hj => mul_nonneg (abs_nonneg _) (hn j hj), rfl, rfl⟩
      exact ⟨_, by simp only [poissonBody, lamIs_at.1 hL, h2]; rfl⟩
    obtain ⟨r, hr⟩ := loopIdx_ok this s
    obtain ⟨r, s1⟩ := r
    exact ⟨_, by simp only [poissonCall, broadcast2_eq, hsh, hr]; rfl⟩
  · intro h
    simp [poissonCall, broadcast2_eq, h]
  · intro sh i hsh hi hall hbad
    have herr : ∀ j ∈ ndindex sh, ∀ s e, poissonBody draw S.lam (S.vshape ++ [S.paths]) t.bget
        dt.bget j s = .error e → e = .valueError := by
      intro j hj s e he
      obtain ⟨L, hL⟩ := hall j (mem_ndindex.1 hj)
      simp only [poissonBody, lamIs_at.1 hL] at he
      split at he
      · next e' h' =>
        cases he
        unfold poissonDraw Arr.broadcastTo at h'
        split at h'
        · next h2 =>
          split at h2
          · cases h2
          · cases h2; cases h'; rfl
        · split at h'
          · cases h'; rfl
          · cases h'
      · cases he
    have hbad' : ∀ s, poissonBody draw S.lam (S.vshape ++ [S.paths]) t.bget dt.bget i s =
        .error .valueError := by
      intro s
      cases hr : poissonBody draw S.lam (S.vshape ++ [S.paths]) t.bget dt.bget i s with
      | error e => rw [herr i (mem_ndindex.2 hi) s e hr]
      | ok r =>
        exfalso
        obtain ⟨L, hL⟩ := hall i hi
        simp only [poissonBody, lamIs_at.1 hL] at hr
        split at hr
        · cases hr
        · next n s1 hn =>
          obtain ⟨h1, h2, -⟩ := poissonDraw_ok.1 hn
          rcases hbad L hL with h | ⟨h, j, hj, hneg⟩
          · exact h h1
          · have := h2 j hj
            have h3 : |dt.bget i| * L.bget j < 0 := mul_neg_of_pos_of_neg (abs_pos.2 h) hneg
            exact absurd this (not_le.2 h3)
    have : ∀ (l : List (List ℕ)) s, (∀ j ∈ l, j ∈ ndindex sh) → i ∈ l →
        loopIdx (poissonBody draw S.lam (S.vshape ++ [S.paths]) t.bget dt.bget) l s =
          .error .valueError := by
      intro l
      induction l with
      | nil => intro s _ h; cases h
      | cons j l ih =>
        intro s hl hil
        simp only [loopIdx]
        cases hr : poissonBody draw S.lam (S.vshape ++ [S.paths]) t.bget dt.bget j s with
        | error e => rw [herr j (hl j List.mem_cons_self) s e hr]
        | ok r =>
          obtain ⟨b, s1⟩ := r
          have hij : i ≠ j := by
            rintro rfl
            rw [hbad'] at hr; cases hr
          have hil' : i ∈ l := by
            cases hil with
            | head => exact absurd rfl hij
            | tail _ h => exact h
          simp only [ih s1 (fun k hk => hl k (List.mem_cons_of_mem _ hk)) hil']
    simp only [poissonCall, broadcast2_eq, hsh, this _ s (fun _ h => h) (mem_ndindex.2 hi)]

/-- **C28**, for the source as it is: calls made by a Poisson source with memory to the underlying
`poisson_source`, at scalar times, meet the hypotheses of `C28_poisson_monotone_partial` and
`C28_poisson_no_error`. -/
theorem C28_underlying_source {ι : Type} (cell : ι → List ℕ) (S : PoissonSrc T)
    (draw : (List ℕ → T) → List ℕ → σ → (List ℕ → ℤ) × σ)
    (hd : ∀ l size s j, 0 ≤ (draw l size s).1 j) (binomial : (ι → ℤ) → T → σ → (ι → ℤ) × σ)
    (hb : ∀ {n p s}, (∀ i, 0 ≤ n i) → 0 ≤ p → p ≤ 1 →
      ∀ i, 0 ≤ (binomial n p s).1 i ∧ (binomial n p s).1 i ≤ n i) :
    PoissonRng (fun t dt s =>
      match poissonCall S draw (.scalar t) (.scalar dt) s with
      | .error e => .error e
      | .ok (dn, s) => .ok (fun i => dn.get (cell i), s)) binomial := by
  have key : ∀ {t dt : T} {s s' : σ} {d : ι → ℤ},
      (match poissonCall S draw (.scalar t) (.scalar dt) s with
        | .error e => .error e
        | .ok (dn, s) => .ok (fun i => dn.get (cell i), s) : Py ((ι → ℤ) × σ)) = .ok (d, s') →
      ∀ i, (0 < dt → 0 ≤ d i) ∧ (dt < 0 → d i ≤ 0) := by
    intro t dt s s' d h i
    split at h
    · cases h
    · next dn s1 hdn =>
      cases h
      have := C23_sign hd hdn (sh := []) rfl (i := []) .nil (cell i)
      exact ⟨this.1, this.2.1⟩
  exact ⟨fun h hp i => (key h i).1 hp, fun h hp i => (key h i).2 hp, hb⟩

end

section
variable {Ω : Type} [MeasurableSpace Ω] {P : Measure Ω}

/-- The mean of a Poisson variate. -/
theorem integral_poisson (r : NNReal) : ∫ n, (n : ℝ) ∂(poissonMeasure r) = r := by
  rw [integral_poissonMeasure]
  refine HasSum.tsum_eq ?_
  rw [← hasSum_nat_add_iff' 1]
  have := (hasSum_one_poissonMeasure r).mul_left (r : ℝ)
  have h0 : (r : ℝ) - ∑ i ∈ Finset.range 1, (Real.exp (-r) * r ^ i / (i.factorial : ℝ)) • (i : ℝ)
      = r * 1 := by simp
  rw [h0]
  have e : (fun n : ℕ => (Real.exp (-r) * (r : ℝ) ^ (n + 1) / ((n + 1).factorial : ℝ)) •
      ((n + 1 : ℕ) : ℝ)) = fun n : ℕ => (r : ℝ) * (Real.exp (-r) * r ^ n / (n.factorial : ℝ)) := by
    funext n
    have : ((n : ℝ) + 1) ≠ 0 := by positivity
    have h2 : (n.factorial : ℝ) ≠ 0 := by positivity
    rw [Nat.factorial_succ, smul_eq_mul]
    push_cast
    field_simp
    ring
  rw [e]
  exact this

/-- **C23**, law of increments: if the `n`-th draw returns Poisson variates `X n l` with the intensities
asked for, then increments are Poisson variates, with the sign of `dt` and intensity `lam*|dt|`, and
have mean `lam*dt`, `lam` being taken at the middle of the time step. -/
theorem C23_law (X : ℕ → (List ℕ → ℝ) → Ω → List ℕ → ℕ)
    (hX : ∀ n l j, 0 ≤ l j → HasLaw (fun ω => X n l ω j) (poissonMeasure (l j).toNNReal) P)
    {S : PoissonSrc ℝ} {t dt : Arr ℝ} {sh : List ℕ} (hsh : bcShape t.shape dt.shape = some sh)
    {L : List ℕ → Arr ℝ}
    (hL : ∀ i, InRange sh i → LamIs S.lam (t.bget i + dt.bget i / 2) (L i) ∧
        BcOk (L i).shape (S.vshape ++ [S.paths]) ∧
        ∀ j, InRange (S.vshape ++ [S.paths]) j → 0 ≤ (L i).bget j) (n : ℕ) :
    ∃ (n' : ℕ) (D : Ω → Arr ℤ),
      (∀ ω, poissonCall S (fun l _ s => (fun j => (X s.2 l s.1 j : ℤ), (s.1, s.2 + 1))) t dt (ω, n)
        = .ok (D ω, (ω, n'))) ∧
      ∀ i j, InRange sh i → InRange (S.vshape ++ [S.paths]) j →
        (∃ N : Ω → ℕ, HasLaw N (poissonMeasure (|dt.bget i| * (L i).bget j).toNNReal) P ∧
          ∀ ω, (D ω).get (i ++ j) = (SignType.sign (dt.bget i) : ℤ) * N ω) ∧
        ∫ ω, ((D ω).get (i ++ j) : ℝ) ∂P = (L i).bget j * dt.bget i := by
  let lam : List ℕ → List ℕ → ℝ := fun i j => |dt.bget i| * (L i).bget j
  let g : Ω → ℕ → List ℕ → Arr ℤ := fun ω m i =>
    ⟨S.vshape ++ [S.paths], fun j => sgn (dt.bget i) * (X m (lam i) ω j : ℤ)⟩
  have hbody : ∀ ω, ∀ i ∈ ndindex sh, ∀ m,
      poissonBody (fun l _ s => (fun j => (X s.2 l s.1 j : ℤ), (s.1, s.2 + 1))) S.lam
        (S.vshape ++ [S.paths]) t.bget dt.bget i (ω, m) = .ok (g ω m i, (ω, m + 1)) := by
    intro ω i hi m
    obtain ⟨h1, h2, h3⟩ := hL i (mem_ndindex.1 hi)
    have h4 := (poissonDraw_ok
      (draw := fun l _ (s : Ω × ℕ) => (fun j => (X s.2 l s.1 j : ℤ), (s.1, s.2 + 1)))
      (lam := ⟨(L i).shape, fun j => |dt.bget i| * (L i).get j⟩)
      (size := S.vshape ++ [S.paths]) (s := (ω, m))).2
      ⟨h2, fun j hj => mul_nonneg (abs_nonneg _) (h3 j hj), rfl, rfl⟩
    simp only [poissonBody, lamIs_at.1 h1, h4]
    rfl
  choose r hr hlook using fun ω => loopIdx_seeded (hbody ω) n
  refine ⟨n + (ndindex sh).length, fun ω => assemble sh (S.vshape ++ [S.paths]) 0 (r ω), ?_, ?_⟩
  · intro ω
    simp only [poissonCall, broadcast2_eq, hsh, hr]
  · intro i j hi hj
    have e1 : (i ++ j).take sh.length = i := by rw [← hi.length]; simp
    have e2 : (i ++ j).drop sh.length = j := by rw [← hi.length]; simp
    have hget : ∀ ω, (assemble sh (S.vshape ++ [S.paths]) 0 (r ω)).get (i ++ j) =
        (SignType.sign (dt.bget i) : ℤ) * (X (n + (ndindex sh).idxOf i) (lam i) ω j : ℤ) := by
      intro ω
      simp only [assemble, e1, e2, hlook ω i (mem_ndindex.2 hi), g, sgn_eq]
    have hnn : 0 ≤ lam i j := mul_nonneg (abs_nonneg _) ((hL i hi).2.2 j hj)
    have hlaw := hX (n + (ndindex sh).idxOf i) (lam i) j hnn
    refine ⟨⟨_, hlaw, hget⟩, ?_⟩
    simp only [hget]
    push_cast
    rw [integral_const_mul]
    have : ∫ ω, (X (n + (ndindex sh).idxOf i) (lam i) ω j : ℝ) ∂P = lam i j := by
      have h5 := hlaw.integral_comp (f := fun n : ℕ => (n : ℝ))
        (Measurable.aestronglyMeasurable (by measurability))
      simp only [Function.comp_def] at h5
      rw [h5, integral_poisson, Real.coe_toNNReal _ hnn]
    rw [this]
    simp only [lam]
    rw [← mul_assoc, sign_mul_abs]
    ring

end

/-- The hypotheses of `C23_law` can be met: times of shape `(2,)`, two paths, an intensity that
depends on time and is different for each path. -/
example : ∃ (Ω : Type) (_ : MeasurableSpace Ω) (P : Measure Ω) (X : ℕ → (List ℕ → ℝ) → Ω → List ℕ → ℕ),
    IsProbabilityMeasure P ∧
    (∀ n l j, 0 ≤ l j → HasLaw (fun ω => X n l ω j) (poissonMeasure (l j).toNNReal) P) ∧
    ∃ (S : PoissonSrc ℝ) (t dt : Arr ℝ) (L : List ℕ → Arr ℝ), S.paths = 2 ∧
      bcShape t.shape dt.shape = some [2] ∧ (L [0]).bget [1] = 3 ∧
      (∀ i, InRange [2] i → LamIs S.lam (t.bget i + dt.bget i / 2) (L i) ∧
        BcOk (L i).shape (S.vshape ++ [S.paths]) ∧
        ∀ j, InRange (S.vshape ++ [S.paths]) j → 0 ≤ (L i).bget j) := by
  refine ⟨NNReal → ℕ, inferInstance, Measure.infinitePi fun r => poissonMeasure r,
    fun _ l ω j => ω (l j).toNNReal, inferInstance, ?_, ?_⟩
  · intro n l j _
    exact (measurePreserving_eval_infinitePi (fun r => poissonMeasure r) _).hasLaw
  · let f : ℝ → Arr ℝ := fun t => ⟨[2], fun j => |t| + (j.headD 0 : ℝ)⟩
    refine ⟨⟨2, [], .fn none fun t => .ok (f t)⟩, ⟨[2], fun i => i.headD 0⟩, .scalar 4,
      fun i => f (i.headD 0 + 4 / 2), rfl, rfl, ?_, ?_⟩
    · simp [f, Arr.bget, bcIdxRev]; norm_num
    · intro i hi
      obtain ⟨k, rfl, hk⟩ := inRange_singleton.1 hi
      refine ⟨.fn ?_, (by decide : BcOk [2] ([] ++ [2])), ?_⟩
      · simp [Arr.bget, bcIdxRev, Arr.scalar]
      · intro j hj
        simp only [f, Arr.bget]
        positivity

/-- A call that succeeds, with a step forwards and a step backwards: a generator that counts its calls. -/
example : (poissonCall (T := ℚ) ⟨2, [], .fn none fun t => .ok ⟨[2], fun j => t + (j.headD 0 : ℚ)⟩⟩
    (fun l _ s => (fun j => (s : ℤ) + ⌊l j⌋, s + 1))
    ⟨[2], fun i => i.headD 0⟩ ⟨[2], fun i => if i.headD 0 = 0 then 4 else -1⟩ 0).map
      (fun r => (r.1.shape, (ndindex r.1.shape).map r.1.get, r.2)) =
    .ok ([2, 2], [8, 12, -1, -2], 2) := by
  decide +kernel

end Sdepy
