import Verif.Lemmas.Sources
import Verif.Props.Wiener
import Verif.Props.Params
import Mathlib.Probability.Distributions.Gaussian.Real

/-!
# Wiener sources (C21)
-/

open MeasureTheory ProbabilityTheory Matrix

namespace Sdepy

open Spec

section
variable {σ : Type}

theorem wienerStd_shape {W : WienerSrc} {rng : Rng σ} {sh : List ℕ} {t dt : List ℕ → ℝ} {s s' : σ}
    {dz : Arr ℝ} (h : wienerStd W rng sh t dt s = .ok (dz, s')) :
    dz.shape = sh ++ W.vshape ++ [W.paths] := by
  unfold wienerStd at h
  split at h
  · cases h; rfl
  · split at h
    · cases h
    · split at h
      · cases h
      · split at h
        · cases h
        · split at h
          · cases h
          · rename_i h'
            cases h
            exact not_not.1 h'
  · split at h
    · cases h
    · split at h
      · cases h
      · simp only at h
        split at h
        · cases h
        · rename_i h'
          cases h
          exact not_not.1 h'

/-- **C21**, shape and null increments: whatever the random generator and the correlations, the
increments have the shape of `t` and `dt` (broadcast), followed by `vshape` and by the number of
paths, and they are zero for null time steps. Times that cannot be broadcast are a `ValueError`. -/
theorem C21_shape (W : WienerSrc) (rng : Rng σ) (t dt : Arr ℝ) (s : σ) :
    (∀ dz s', wienerCall W rng t dt s = .ok (dz, s') →
      ∃ sh, bcShape t.shape dt.shape = some sh ∧ dz.shape = sh ++ W.vshape ++ [W.paths] ∧
        ∀ i j, InRange sh i → dt.bget i = 0 → dz.get (i ++ j) = 0) ∧
    (bcShape t.shape dt.shape = none → wienerCall W rng t dt s = .error .valueError) := by
  constructor
  · intro dz s' h
    unfold wienerCall at h
    rw [broadcast2_eq] at h
    cases hsh : bcShape t.shape dt.shape with
    | none => simp [hsh] at h
    | some sh =>
      simp only [hsh] at h
      split at h
      · cases h
      · rename_i h'
        cases h
        refine ⟨sh, rfl, (wienerStd_shape h' :), ?_⟩
        intro i j hi h0
        have : (i ++ j).take sh.length = i := by rw [← hi.length]; simp
        simp only [this, h0]
        simp
  · intro h
    simp [wienerCall, broadcast2_eq, h]

end

section
variable {Ω : Type} [MeasurableSpace Ω] {P : Measure Ω}
variable {N0 : ℕ → Ω → List ℕ → ℝ}
  {N : (M : ℕ) → ℕ → Matrix (Fin M) (Fin M) ℝ → Ω → List ℕ → Fin M → ℝ}

/-- **C21**, with correlations: given a random generator of normal variates, and a correlation matrix
`C i` at the middle of each time step, increments have mean zero, and those of a time step, cell
and path have covariance matrix `|dt| * C i` along the last axis of values; they are not
correlated with those of other time steps, cells and paths; and those of different
calls are not correlated either. Each of them is Gaussian if the variates are. -/
theorem C21_covariance {W : WienerSrc} {pre : List ℕ} {M : ℕ} (hv : W.vshape = pre ++ [M])
    (hN : Normals P (N M)) (hne : W.corr ≠ .none)
    (hA : ∀ c, W.corr = .arr c → c.shape = [M, M] ∨ c.shape = [M, M, 1])
    {t dt : Arr ℝ} {sh : List ℕ} (hsh : bcShape t.shape dt.shape = some sh)
    {C : List ℕ → Matrix (Fin M) (Fin M) ℝ}
    (hC : ∀ i, InRange sh i → CorrIs M W.corr (t.bget i + dt.bget i / 2) (C i))
    (hpsd : ∀ i, InRange sh i → (C i).PosSemidef) (n : ℕ) :
    ∃ (G : Ω → Arr ℝ) (n' : ℕ), n ≤ n' ∧
      (∀ ω, wienerCall W (seededRng N0 N) t dt (ω, n) = .ok (G ω, (ω, n'))) ∧
      (∀ i v (k : Fin M) p, InRange sh i →
        ∫ ω, (G ω).get (i ++ v ++ [(k : ℕ), p]) ∂P = 0 ∧
        ((∀ n c i k, c.PosSemidef → HasLaw (fun ω => N M n c ω i k)
            (gaussianReal 0 (c k k).toNNReal) P) →
          HasLaw (fun ω => (G ω).get (i ++ v ++ [(k : ℕ), p]))
            (gaussianReal 0 (|dt.bget i| * C i k k).toNNReal) P)) ∧
      (∀ i v (k : Fin M) p i' v' (k' : Fin M) p', InRange sh i → InRange sh i' →
        InRange pre v → InRange pre v' →
        cov[fun ω => (G ω).get (i ++ v ++ [(k : ℕ), p]),
          fun ω => (G ω).get (i' ++ v' ++ [(k' : ℕ), p']); P] =
            if i = i' ∧ v = v' ∧ p = p' then |dt.bget i| * C i k k' else 0) ∧
      (∀ (t2 dt2 : Arr ℝ) (sh2 : List ℕ) (C2 : List ℕ → Matrix (Fin M) (Fin M) ℝ)
          (n2 n2' : ℕ) (G2 : Ω → Arr ℝ), bcShape t2.shape dt2.shape = some sh2 →
        (∀ i, InRange sh2 i → CorrIs M W.corr (t2.bget i + dt2.bget i / 2) (C2 i)) → n' ≤ n2 →
        (∀ ω, wienerCall W (seededRng N0 N) t2 dt2 (ω, n2) = .ok (G2 ω, (ω, n2'))) →
        ∀ i v (k : Fin M) p i' v' (k' : Fin M) p', InRange sh i → InRange sh2 i' →
          cov[fun ω => (G ω).get (i ++ v ++ [(k : ℕ), p]),
            fun ω => (G2 ω).get (i' ++ v' ++ [(k' : ℕ), p']); P] = 0) := by
  obtain ⟨n', num, cell, hn, hnum, hinj, hCn, hcall⟩ := wiener_rep (N0 := N0) (N := N) hv hsh hC hA hne n
  choose G hG hGs hGv using hcall
  refine ⟨G, n', hn, hG, ?_, ?_, ?_⟩
  · intro i v k p hi
    simp only [fun ω => hGv ω i v k p hi]
    constructor
    · rw [integral_mul_const]
      have := congrFun (hN.mean (num i) (C i) (cell i (v ++ [p]))) k
      simp only [meanV, Pi.zero_apply] at this
      rw [this, zero_mul]
    · intro hg
      have h1 := hg (num i) (C i) (cell i (v ++ [p])) k (hpsd i hi)
      refine ⟨h1.aemeasurable.mul_const _, ?_⟩
      have h2 : P.map (fun ω => N M (num i) (C i) ω (cell i (v ++ [p])) k * √|dt.bget i|) =
          (P.map (fun ω => N M (num i) (C i) ω (cell i (v ++ [p])) k)).map (· * √|dt.bget i|) := by
        rw [AEMeasurable.map_map_of_aemeasurable (by fun_prop) h1.aemeasurable]
        rfl
      rw [h2, h1.map_eq, gaussianReal_map_mul_const, mul_zero]
      congr 1
      rw [Real.toNNReal_mul (abs_nonneg _)]
      congr 1
      ext
      simp [Real.sq_sqrt]
  · intro i v k p i' v' k' p' hi hi' hv1 hv2
    simp only [fun ω => hGv ω i v k p hi, fun ω => hGv ω i' v' k' p' hi']
    rw [covariance_mul_const_left, covariance_mul_const_right]
    by_cases hnn : num i = num i'
    · by_cases hcc : cell i (v ++ [p]) = cell i' (v' ++ [p'])
      · obtain ⟨h1, h2⟩ := hinj _ _ _ _ hi hi' hnn hcc
        obtain ⟨h2, h3⟩ := List.append_inj h2 (by rw [hv1.length, hv2.length])
        simp only [List.cons.injEq, and_true] at h3
        subst h1 h2 h3
        simp only [and_self, if_true]
        have := hN.cov (num i) (C i) (cell i (v ++ [p])) (cell i (v ++ [p])) (hpsd i hi)
        rw [if_pos rfl] at this
        have := congrFun (congrFun this k) k'
        simp only [covM] at this
        rw [this, mul_assoc, Real.mul_self_sqrt (abs_nonneg _), mul_comm]
      · rw [if_neg]
        · have := hN.cov (num i) (C i) (cell i (v ++ [p])) (cell i' (v' ++ [p'])) (hpsd i hi)
          rw [if_neg hcc] at this
          have := congrFun (congrFun this k) k'
          simp only [covM] at this
          rw [← hnn, ← hCn i i' hi hi' hnn, this]; simp
        · rintro ⟨rfl, rfl, rfl⟩; exact hcc rfl
    · rw [if_neg]
      · have := hN.uncorr (num i) (C i) (cell i (v ++ [p])) (num i') (C i') (cell i' (v' ++ [p'])) hnn
        have := congrFun (congrFun this k) k'
        simp only [covM] at this
        rw [this]; simp
      · rintro ⟨rfl, rfl, rfl⟩; exact hnn rfl
  · intro t2 dt2 sh2 C2 n2 n2' G2 hsh2 hC2 hn2 hG2 i v k p i' v' k' p' hi hi'
    obtain ⟨m, num2, cell2, _, hnum2, _, _, hcall2⟩ :=
      wiener_rep (N0 := N0) (N := N) hv hsh2 hC2 hA hne n2
    have e : ∀ ω, (G2 ω).get (i' ++ v' ++ [(k' : ℕ), p']) =
        N M (num2 i') (C2 i') ω (cell2 i' (v' ++ [p'])) k' * √|dt2.bget i'| := by
      intro ω
      obtain ⟨dz, h1, _, h2⟩ := hcall2 ω
      rw [hG2 ω] at h1
      cases h1
      exact h2 i' v' k' p' hi'
    simp only [fun ω => hGv ω i v k p hi, e]
    rw [covariance_mul_const_left, covariance_mul_const_right]
    have := hN.uncorr (num i) (C i) (cell i (v ++ [p])) (num2 i') (C2 i') (cell2 i' (v' ++ [p']))
      (by have := hnum i hi; have := hnum2 i' hi'; omega)
    have := congrFun (congrFun this k) k'
    simp only [covM] at this
    rw [this]; simp

/-- **C21**, without correlations: increments have mean zero and variance `|dt|`, and are not
correlated with each other, nor with those of other calls, whatever the shape of values. Each of
them is Gaussian if the variates are. -/
theorem C21_uncorrelated {W : WienerSrc} (hW : W.corr = .none) (h0 : StdNormals P N0)
    {t dt : Arr ℝ} {sh : List ℕ} (hsh : bcShape t.shape dt.shape = some sh) (n : ℕ) :
    ∃ (G : Ω → Arr ℝ),
      (∀ ω, wienerCall W (seededRng N0 N) t dt (ω, n) = .ok (G ω, (ω, n + 1))) ∧
      (∀ i j, InRange sh i →
        ∫ ω, (G ω).get (i ++ j) ∂P = 0 ∧
        ((∀ n j, HasLaw (fun ω => N0 n ω j) (gaussianReal 0 1) P) →
          HasLaw (fun ω => (G ω).get (i ++ j)) (gaussianReal 0 |dt.bget i|.toNNReal) P)) ∧
      (∀ i j i' j', InRange sh i → InRange sh i' →
        cov[fun ω => (G ω).get (i ++ j), fun ω => (G ω).get (i' ++ j'); P] =
            if i = i' ∧ j = j' then |dt.bget i| else 0) ∧
      (∀ (t2 dt2 : Arr ℝ) (n2 n2' : ℕ) (G2 : Ω → Arr ℝ), n < n2 →
        (∀ ω, wienerCall W (seededRng N0 N) t2 dt2 (ω, n2) = .ok (G2 ω, (ω, n2'))) →
        ∀ i i', cov[fun ω => (G ω).get i, fun ω => (G2 ω).get i'; P] = 0) := by
  have htake : ∀ i (l : List ℕ), InRange sh i → (i ++ l).take sh.length = i := by
    intro i l hi; rw [← hi.length]; simp
  refine ⟨fun ω => _, fun ω => wiener_rep0 hsh hW ω n, ?_, ?_, ?_⟩
  · intro i j hi
    simp only [htake i j hi]
    constructor
    · rw [integral_mul_const, h0.mean, zero_mul]
    · intro hg
      have h1 := hg n (i ++ j)
      refine ⟨h1.aemeasurable.mul_const _, ?_⟩
      have h2 : P.map (fun ω => N0 n ω (i ++ j) * √|dt.bget i|) =
          (P.map (fun ω => N0 n ω (i ++ j))).map (· * √|dt.bget i|) := by
        rw [AEMeasurable.map_map_of_aemeasurable (by fun_prop) h1.aemeasurable]
        rfl
      rw [h2, h1.map_eq, gaussianReal_map_mul_const, mul_zero]
      congr 1
      ext
      simp [Real.sq_sqrt]
  · intro i j i' j' hi hi'
    simp only [htake i j hi, htake i' j' hi']
    rw [covariance_mul_const_left, covariance_mul_const_right, h0.cov]
    by_cases h : i ++ j = i' ++ j'
    · obtain ⟨rfl, rfl⟩ := List.append_inj h (by rw [hi.length, hi'.length])
      simp
    · rw [if_neg (by simp [h]), if_neg (by rintro ⟨rfl, rfl⟩; exact h rfl)]; simp
  · intro t2 dt2 n2 n2' G2 hn hG2 i i'
    cases hsh2 : bcShape t2.shape dt2.shape with
    | none =>
      by_cases hΩ : Nonempty Ω
      · obtain ⟨ω⟩ := hΩ
        have := hG2 ω
        rw [(C21_shape W _ t2 dt2 _).2 hsh2] at this
        cases this
      · have : IsEmpty Ω := not_nonempty_iff.1 hΩ
        rw [Measure.eq_zero_of_isEmpty P]
        simp [covariance]
    | some sh2 =>
      have e : ∀ ω, (G2 ω).get i' = N0 n2 ω i' * √|dt2.bget (i'.take sh2.length)| := by
        intro ω
        have := hG2 ω
        rw [wiener_rep0 hsh2 hW ω n2] at this
        simp only [Except.ok.injEq, Prod.mk.injEq] at this
        rw [← this.1]
      simp only [e]
      rw [covariance_mul_const_left, covariance_mul_const_right, h0.cov, if_neg (by omega)]
      simp

end

/-- **C21**, which correlations are accepted: none at all, with any `vshape`; a matrix `corr`, or a matrix
built from `rho`, of the size of the last axis of values; a `ValueError` is raised otherwise. -/
theorem C21_new (paths : ℕ) (vshape : List ℕ) :
    wienerNew paths vshape .none .none = .ok ⟨paths, vshape, .none⟩ ∧
    (∀ (c : Arr ℝ) rho,
      ((∃ pre M, vshape = pre ++ [M] ∧ (c.shape = [M, M] ∨ c.shape = [M, M, 1])) →
        wienerNew paths vshape (.arr c) rho = .ok ⟨paths, vshape, .arr c⟩) ∧
      ((¬ ∃ pre M, vshape = pre ++ [M] ∧ (c.shape = [M, M] ∨ c.shape = [M, M, 1])) →
        wienerNew paths vshape (.arr c) rho = .error .valueError)) ∧
    (∀ (a : Arr ℝ) n r, RhoArr a n r →
      ((∃ pre, vshape = pre ++ [2 * n]) → ∃ C, RhoMatrix n r C ∧
        wienerNew paths vshape .none (.arr a) = .ok ⟨paths, vshape, .arr C⟩) ∧
      ((¬ ∃ pre, vshape = pre ++ [2 * n]) →
        wienerNew paths vshape .none (.arr a) = .error .valueError)) := by
  have hlast : ∀ m, vshape.getLast? = some m ↔ ∃ pre, vshape = pre ++ [m] := by
    intro m; exact List.getLast?_eq_some_iff
  refine ⟨rfl, ?_, ?_⟩
  · intro c rho
    constructor
    · rintro ⟨pre, M, rfl, hc⟩
      have h1 : getCorrMatrix (.arr c) rho = .ok (.arr c) :=
        (C32_corr_overrides (corr := .arr c) (by simp) rho).1 (by
          intro s hs
          cases hs
          exact ⟨M, hc⟩)
      simp only [wienerNew, h1, Param.shape, (hlast M).2 ⟨pre, rfl⟩]
      rw [if_neg]
      rcases hc with hc | hc <;> simp [hc]
    · intro h
      by_cases hsq : SquareShape c.shape
      · have h1 : getCorrMatrix (.arr c) rho = .ok (.arr c) :=
          (C32_corr_overrides (corr := .arr c) (by simp) rho).1 (by
            intro s hs
            cases hs
            exact hsq)
        simp only [wienerNew, h1, Param.shape]
        cases hl : vshape.getLast? with
        | none => rfl
        | some m =>
          simp only
          rw [if_pos]
          left
          intro h2
          obtain ⟨pre, hp⟩ := (hlast m).1 hl
          obtain ⟨k, hk | hk⟩ := hsq
          · rw [hk] at h2
            simp at h2
            exact h ⟨pre, m, hp, .inl (by rw [hk, h2])⟩
          · rw [hk] at h2
            simp at h2
            exact h ⟨pre, m, hp, .inr (by rw [hk, h2])⟩
      · have h1 : getCorrMatrix (.arr c) rho = .error .valueError :=
          (C32_corr_overrides (corr := .arr c) (by simp) rho).2 ⟨_, rfl, hsq⟩
        simp only [wienerNew, h1]
  · intro a n r ha
    obtain ⟨C, hC, hm⟩ := (C32_rho (K := ℝ)).2.1 a n r ha
    constructor
    · rintro ⟨pre, rfl⟩
      refine ⟨C, hm, ?_⟩
      simp only [wienerNew, hC, Param.shape, (hlast (2 * n)).2 ⟨pre, rfl⟩]
      rw [if_neg]
      simp [hm.1]
    · intro h
      simp only [wienerNew, hC, Param.shape]
      cases hl : vshape.getLast? with
      | none => rfl
      | some m =>
        simp only
        rw [if_pos]
        left
        intro h2
        rw [hm.1] at h2
        simp at h2
        exact h ((hlast _).1 (by rw [hl, h2]))

/-! ### the source underlying a Wiener source with memory -/

/-- An array with the entries of a matrix. -/
noncomputable def ofMatrix {M : ℕ} (c : Matrix (Fin M) (Fin M) ℝ) : Arr ℝ :=
  ⟨[M, M], fun i => if h : i.headD 0 < M ∧ i.tail.headD 0 < M then
    c ⟨i.headD 0, h.1⟩ ⟨i.tail.headD 0, h.2⟩ else 0⟩

theorem toMatrix_ofMatrix {M : ℕ} (c : Matrix (Fin M) (Fin M) ℝ) : toMatrix M (ofMatrix c) = c := by
  ext i j
  simp [toMatrix, ofMatrix]

/-- Calls to a `wiener_source` at scalar times, as made by `true_wiener_source`
(`infrastructure.py` 2433-2441, 2454-2499) after setting the attribute `corr`. -/
noncomputable def dwOf {σ : Type} {M : ℕ} (paths : ℕ) (pre : List ℕ) (rng : Rng σ) :
    DW (List ℕ × ℕ) (Fin M) σ := fun c t dt s =>
  match wienerCall ⟨paths, pre ++ [M], c.elim .none fun c => .arr (ofMatrix c)⟩ rng (.scalar t)
      (.scalar dt) s with
  | .error e => .error e
  | .ok (dz, s) => .ok (fun i k => dz.get (i.1 ++ [(k : ℕ), i.2]), s)

section
variable {Ω : Type} [MeasurableSpace Ω] {P : Measure Ω}
variable {N0 : ℕ → Ω → List ℕ → ℝ}
  {N : (M : ℕ) → ℕ → Matrix (Fin M) (Fin M) ℝ → Ω → List ℕ → Fin M → ℝ}

theorem dwOf_some {M : ℕ} (paths : ℕ) (pre : List ℕ) (c : Matrix (Fin M) (Fin M) ℝ) (t dt : ℝ)
    (s : Ω × ℕ) : dwOf paths pre (seededRng N0 N) (some c) t dt s =
      .ok (fun i k => √|dt| * N M s.2 c s.1 (i.1 ++ [i.2]) k, (s.1, s.2 + 1)) := by
  obtain ⟨ω, n⟩ := s
  have hb : broadcast2 (Arr.scalar t) (Arr.scalar dt) = .ok (.scalar t, .scalar dt) := rfl
  have hlast : (pre ++ [M]).getLast? = some M := by simp
  have hcov : covOf (ofMatrix c) = .ok (ofMatrix c) := rfl
  have hs : (ofMatrix c).shape = [M, M] := rfl
  simp only [dwOf, wienerCall, Option.elim, hb, wienerStd, hlast, hcov, mvnZ_seeded hs,
    List.dropLast_concat]
  rw [if_neg (not_not.2 (by
    rw [swapaxes_shape _ (l := (Arr.scalar dt).shape ++ pre) (x := paths) (y := M) (by simp)]
    simp))]
  simp only [Except.ok.injEq, Prod.mk.injEq, and_true]
  funext i k
  rw [swapaxes_get]
  have h1 : (i.1 ++ [i.2, (k : ℕ)]).getLastD 0 = k := by simp
  have h2 : (i.1 ++ [i.2, (k : ℕ)]).dropLast = i.1 ++ [i.2] := by
    rw [show i.1 ++ [i.2, (k : ℕ)] = (i.1 ++ [i.2]) ++ [(k : ℕ)] by simp, List.dropLast_concat]
  simp only [h1, h2, k.2, dif_pos, toMatrix_ofMatrix]
  rw [mul_comm]
  rfl

theorem dwOf_none {M : ℕ} (paths : ℕ) (pre : List ℕ) (t dt : ℝ) (s : Ω × ℕ) :
    dwOf (M := M) paths pre (seededRng N0 N) none t dt s =
      .ok (fun i k => √|dt| * N0 s.2 s.1 (i.1 ++ [(k : ℕ), i.2]), (s.1, s.2 + 1)) := by
  obtain ⟨ω, n⟩ := s
  have hb : broadcast2 (Arr.scalar t) (Arr.scalar dt) = .ok (.scalar t, .scalar dt) := rfl
  simp only [dwOf, wienerCall, Option.elim, hb, wienerStd]
  simp only [Except.ok.injEq, Prod.mk.injEq, seededRng, and_true]
  funext i k
  rw [mul_comm]
  rfl

theorem trueWiener_congr {ι κ σ : Type} [Fintype κ] [DecidableEq κ] {corr : Corr κ}
    {dw dw' : DW ι κ σ} (hn : corr = .none → dw none = dw' none)
    (hs : corr ≠ .none → ∀ c, dw (some c) = dw' (some c)) (t0 rtol : ℝ) :
    trueWiener t0 rtol corr dw = trueWiener t0 rtol corr dw' := by
  have h1 : ∀ t, dw (corr.at t) = dw' (corr.at t) := by
    intro t
    cases corr with
    | none => exact hn rfl
    | const C => exact hs (by simp) _
    | fn C => exact hs (by simp) _
  have h2 : wienerOutside t0 corr dw = wienerOutside t0 corr dw' := by
    funext w t s st
    simp only [wienerOutside, h1]
  have h3 : wienerBridge corr dw = wienerBridge corr dw' := by
    funext w1 w2 t1 t2 s st
    cases corr with
    | none => simp only [wienerBridge, h1]
    | const C => simp only [wienerBridge, h1]
    | fn C => simp only [wienerBridge, hs (by simp)]
  have h4 : wienerInside t0 corr dw = wienerInside t0 corr dw' := by
    funext w1 w2 t1 t2 s st
    simp only [wienerInside, h3]
  simp only [trueWiener, h2, h4]

theorem normals_comp {ι ι' κ : Type} [Fintype κ] [DecidableEq κ] [DecidableEq ι] [DecidableEq ι']
    {N : ℕ → Matrix κ κ ℝ → Ω → ι → κ → ℝ} (h : Normals P N) {f : ι' → ι}
    (hf : Function.Injective f) : Normals P (fun n c ω i => N n c ω (f i)) :=
  ⟨fun n c i => h.l2 n c (f i), fun n c i => h.mean n c (f i),
    fun n c i j hc => by rw [h.cov n c _ _ hc]; simp only [hf.eq_iff],
    fun n c i m c' j hnm => h.uncorr n c _ m c' _ hnm⟩

variable [IsProbabilityMeasure P]

open scoped MatrixOrder in
/-- Standard variates can be given any covariance matrix. -/
theorem normals_of_std {ι κ : Type} [Fintype κ] [DecidableEq κ] [DecidableEq ι]
    {X : ℕ → Ω → ι → κ → ℝ} (l2 : ∀ n i, L2 P (fun ω => X n ω i))
    (mean : ∀ n i, meanV P (fun ω => X n ω i) = 0)
    (cov : ∀ n i m j, covM P (fun ω => X n ω i) (fun ω => X m ω j) =
      if n = m ∧ i = j then 1 else 0) :
    ∃ N : ℕ → Matrix κ κ ℝ → Ω → ι → κ → ℝ, Normals P N ∧ (∀ n ω i, N n 1 ω i = X n ω i) ∧
      (IsGaussianProcess (fun (p : ℕ × ι × κ) ω => X p.1 ω p.2.1 p.2.2) P →
        JointlyGaussian P N) := by
  have hL : ∀ c : Matrix κ κ ℝ, ∃ L : Matrix κ κ ℝ, (c.PosSemidef → c = L * Lᵀ) ∧
      (c = 1 → L = 1) := by
    intro c
    by_cases h1 : c = 1
    · exact ⟨1, fun _ => by simp [h1], fun _ => rfl⟩
    by_cases hc : c.PosSemidef
    · obtain ⟨a, ha⟩ := CStarAlgebra.nonneg_iff_eq_star_mul_self.mp hc.nonneg
      refine ⟨aᵀ, fun _ => ?_, fun h => absurd h h1⟩
      rw [ha, Matrix.transpose_transpose, Matrix.star_eq_conjTranspose,
        Matrix.conjTranspose_eq_transpose_of_trivial]
    · exact ⟨0, fun h => absurd h hc, fun h => absurd h h1⟩
  choose L hL hL1 using hL
  refine ⟨fun n c ω i => L c *ᵥ X n ω i, ⟨?_, ?_, ?_, ?_⟩, fun n ω i => by simp [hL1 1 rfl], ?_⟩
  · intro n c i; exact l2_mulVec _ (l2 n i)
  · intro n c i; rw [meanV_mulVec _ (l2 n i), mean, Matrix.mulVec_zero]
  · intro n c i j hc
    rw [covM_mulVec_left _ (l2 n i) (l2_mulVec _ (l2 n j)), covM_mulVec_right _ (l2 n j) (l2 n i),
      cov]
    by_cases hij : i = j
    · simp only [hij, and_self, if_true, Matrix.one_mul]
      exact (hL c hc).symm
    · simp [hij]
  · intro n c i m c' j hnm
    rw [covM_mulVec_left _ (l2 n i) (l2_mulVec _ (l2 m j)), covM_mulVec_right _ (l2 m j) (l2 n i),
      cov, if_neg (by tauto)]
    simp
  · intro hX
    refine gauss_of_affSpan hX fun p => ?_
    have e : (fun ω => (L p.2.1 *ᵥ X p.1 ω p.2.2.1) p.2.2.2) =
        ∑ l, L p.2.1 p.2.2.2 l • fun ω => X p.1 ω p.2.2.1 l := by
      funext ω
      simp [Matrix.mulVec, dotProduct, Finset.sum_apply]
    rw [e]
    exact Submodule.sum_mem _ fun l _ => Submodule.smul_mem _ _
      (affSpan_draw (fun (p : ℕ × ι × κ) ω => X p.1 ω p.2.1 p.2.2) (p.1, p.2.2.1, l))

theorem gaussianDraws_of_jointly {ι κ : Type} {N : ℕ → Matrix κ κ ℝ → Ω → ι → κ → ℝ}
    (h : JointlyGaussian P N) : GaussianDraws P (fun n c _ dt ω i k => √|dt| * N n c ω i k) :=
  gauss_of_affSpan h fun p => Submodule.smul_mem _ _
    (affSpan_draw (fun (p : ℕ × Matrix κ κ ℝ × ι × κ) ω => N p.1 p.2.1 ω p.2.2.1 p.2.2.2)
      (p.1, p.2.1, p.2.2.2.2.1, p.2.2.2.2.2))

theorem underlying_draws {M : ℕ} (paths : ℕ) (pre : List ℕ) (hN : Normals P (N M))
    (h0 : StdNormals P N0) (corr : Corr (Fin M)) :
    ∃ G, Draws P G ∧
      (JointlyGaussian P (N M) → IsGaussianProcess (fun (p : ℕ × List ℕ) ω => N0 p.1 ω p.2) P →
        GaussianDraws P G) ∧
      (corr = .none → dwOf (M := M) paths pre (seededRng N0 N) none = seeded G none) ∧
      (corr ≠ .none → ∀ c, dwOf paths pre (seededRng N0 N) (some c) = seeded G (some c)) := by
  by_cases hc : corr = .none
  · obtain ⟨N', hN', h1, hJ⟩ := normals_of_std (P := P) (ι := List ℕ × ℕ) (κ := Fin M)
      (X := fun n ω i k => N0 n ω (i.1 ++ [(k : ℕ), i.2]))
      (fun n i k => h0.l2 n _) (fun n i => by funext k; exact h0.mean n _) (by
        intro n i m j
        ext k l
        simp only [covM]
        rw [h0.cov]
        have : (i.1 ++ [(k : ℕ), i.2] = j.1 ++ [(l : ℕ), j.2]) ↔ i = j ∧ k = l := by
          constructor
          · intro h
            obtain ⟨ha, hb⟩ := List.append_inj' h rfl
            simp only [List.cons.injEq, and_true] at hb
            exact ⟨Prod.ext ha hb.2, Fin.ext hb.1⟩
          · rintro ⟨rfl, rfl⟩; rfl
        by_cases hnm : n = m ∧ i = j
        · obtain ⟨rfl, rfl⟩ := hnm
          simp [Matrix.one_apply, Fin.ext_iff]
        · rw [if_neg (by rw [this]; tauto), if_neg hnm]; rfl)
    refine ⟨_, draws_of_normals hN', fun _ h => gaussianDraws_of_jointly (hJ
      (h.comp_right fun p : ℕ × (List ℕ × ℕ) × Fin M => (p.1, p.2.1.1 ++ [(p.2.2 : ℕ), p.2.1.2]))),
      ?_, ?_⟩
    · intro _
      funext t dt s
      rw [dwOf_none]
      simp only [seeded, Option.getD, h1]
    · intro h; exact absurd hc h
  · have hinj : Function.Injective (fun i : List ℕ × ℕ => i.1 ++ [i.2]) := by
      intro i j h
      obtain ⟨ha, hb⟩ := List.append_inj' h rfl
      simp only [List.cons.injEq, and_true] at hb
      exact Prod.ext ha hb
    refine ⟨_, draws_of_normals (normals_comp hN hinj), fun h _ => gaussianDraws_of_jointly
      (h.comp_right fun p : ℕ × Matrix (Fin M) (Fin M) ℝ × (List ℕ × ℕ) × Fin M =>
        (p.1, p.2.1, p.2.2.1.1 ++ [p.2.2.1.2], p.2.2.2)),
      ?_, ?_⟩
    · intro h; exact absurd h hc
    · intro _ c
      funext t dt s
      rw [dwOf_some]
      rfl

/-- **C30**, for the source as it is: calls made by a Wiener source with memory to the underlying
`wiener_source` provide the draws that `C30_covariance`, `C30_increments` and `C30_law` ask for, if
the random generator provides normal variates. -/
theorem C30_underlying_source {M : ℕ} (paths : ℕ) (pre : List ℕ) (hN : Normals P (N M))
    (h0 : StdNormals P N0) (corr : Corr (Fin M)) :
    ∃ G, Draws P G ∧
      (JointlyGaussian P (N M) → IsGaussianProcess (fun (p : ℕ × List ℕ) ω => N0 p.1 ω p.2) P →
        GaussianDraws P G) ∧ ∀ t0 rtol,
      trueWiener t0 rtol corr (dwOf paths pre (seededRng N0 N)) =
        trueWiener t0 rtol corr (seeded G) := by
  obtain ⟨G, h1, h2, h3, h4⟩ := underlying_draws paths pre hN h0 corr
  exact ⟨G, h1, h2, fun t0 rtol => trueWiener_congr h3 h4 t0 rtol⟩

end

/-! ### The hypotheses can be met -/

/-- There are generators of variates as those asked for, of any number of components. -/
theorem exists_rng : ∃ (Ω : Type) (_ : MeasurableSpace Ω) (P : Measure Ω)
    (N0 : ℕ → Ω → List ℕ → ℝ)
    (N : (M : ℕ) → ℕ → Matrix (Fin M) (Fin M) ℝ → Ω → List ℕ → Fin M → ℝ),
    IsProbabilityMeasure P ∧ StdNormals P N0 ∧
      (∀ n j, HasLaw (fun ω => N0 n ω j) (gaussianReal 0 1) P) ∧ (∀ M, Normals P (N M)) ∧
      IsGaussianProcess (fun (p : ℕ × List ℕ) ω => N0 p.1 ω p.2) P ∧
      ∀ M, JointlyGaussian P (N M) := by
  obtain ⟨Ω, mΩ, P, X, hm, hlaw, hind, hP⟩ := exists_iid (ℕ × List ℕ) (gaussianReal 0 1)
  have h0 : StdNormals P (fun n ω i => X (n, i) ω) := by
    have l2 : ∀ j, MemLp (fun ω => X j ω) 2 P := by
      intro j
      exact (memLp_id_gaussianReal 2).comp_measurePreserving ((hlaw j).measurePreserving (hm _))
    refine ⟨fun n i => l2 _, ?_, ?_⟩
    · intro n i
      rw [(hlaw (n, i)).integral_eq, integral_id_gaussianReal]
    · intro n i m j
      by_cases h : n = m ∧ i = j
      · obtain ⟨rfl, rfl⟩ := h
        rw [if_pos ⟨rfl, rfl⟩, covariance_self (hm _).aemeasurable, (hlaw (n, i)).variance_eq,
          variance_id_gaussianReal]
        rfl
      · rw [(hind.indepFun (by simpa using h)).covariance_eq_zero (l2 _) (l2 _), if_neg h]
  have hX : IsGaussianProcess (fun (p : ℕ × List ℕ) ω => X p ω) P :=
    gauss_of_indep (fun p => (hlaw p).hasGaussianLaw) hind
  have hN : ∀ M : ℕ, ∃ N : ℕ → Matrix (Fin M) (Fin M) ℝ → Ω → List ℕ → Fin M → ℝ,
      Normals P N ∧ JointlyGaussian P N := by
    intro M
    obtain ⟨N, h, -, hJ⟩ := normals_of_std (P := P) (ι := List ℕ) (κ := Fin M)
      (X := fun n ω i k => X (n, (k : ℕ) :: i) ω)
      (fun n i k => h0.l2 n _) (fun n i => by funext k; exact h0.mean n _) (by
        intro n i m j
        ext k l
        have := h0.cov n (k :: i) m (l :: j)
        simp only [covM]
        rw [this]
        by_cases hnm : n = m ∧ i = j
        · obtain ⟨rfl, rfl⟩ := hnm
          simp [Matrix.one_apply, Fin.ext_iff]
        · rw [if_neg (by simp only [List.cons.injEq]; tauto), if_neg hnm]; rfl)
    exact ⟨N, h, hJ (hX.comp_right fun p : ℕ × List ℕ × Fin M => (p.1, (p.2.2 : ℕ) :: p.2.1))⟩
  choose N hN using hN
  exact ⟨Ω, mΩ, P, fun n ω j => X (n, j) ω, N, hP, h0, fun n j => hlaw (n, j),
    fun M => (hN M).1, hX, fun M => (hN M).2⟩

/-- All the hypotheses of `C21_covariance`, `C21_uncorrelated` and `C30_underlying_source` hold
together: two components with correlation 1/2, three paths, times of shape `(2,)`. -/
example : ∃ (Ω : Type) (_ : MeasurableSpace Ω) (P : Measure Ω)
    (N0 : ℕ → Ω → List ℕ → ℝ)
    (N : (M : ℕ) → ℕ → Matrix (Fin M) (Fin M) ℝ → Ω → List ℕ → Fin M → ℝ),
    IsProbabilityMeasure P ∧ StdNormals P N0 ∧ Normals P (N 2) ∧
    ∃ W : WienerSrc, W.vshape = [] ++ [2] ∧ W.paths = 3 ∧ W.corr ≠ .none ∧
      (∀ c, W.corr = .arr c → c.shape = [2, 2] ∨ c.shape = [2, 2, 1]) ∧
      ∃ t dt : Arr ℝ, bcShape t.shape dt.shape = some [2] ∧
        ∃ C : List ℕ → Matrix (Fin 2) (Fin 2) ℝ,
          (∀ i, InRange [2] i → CorrIs 2 W.corr (t.bget i + dt.bget i / 2) (C i)) ∧
          (∀ i, InRange [2] i → (C i).PosSemidef) ∧ C [0] 0 1 = 1 / 2 := by
  obtain ⟨Ω, m, P, N0, N, hP, h0, -, hN, -, -⟩ := exists_rng
  let c : Arr ℝ := ⟨[2, 2], fun i => if i.headD 0 = i.tail.headD 0 then 1 else 1 / 2⟩
  refine ⟨Ω, m, P, N0, N, hP, h0, hN 2, ⟨3, [2], .arr c⟩, rfl, rfl, by simp, ?_,
    ⟨[2], fun i => i.headD 0⟩, .scalar 1, rfl, fun _ => squareMatrix 2 c, ?_, ?_, ?_⟩
  · intro c' h
    cases h
    exact .inl rfl
  · intro i _
    exact .const _ (.inl rfl)
  · intro i _
    have : squareMatrix 2 c = !![1, 1 / 2; 1 / 2, 1] := by
      ext i j
      fin_cases i <;> fin_cases j <;> simp [squareMatrix, c]
    rw [this]
    refine Matrix.PosSemidef.of_dotProduct_mulVec_nonneg ?_ ?_
    · ext i j; fin_cases i <;> fin_cases j <;> simp [Matrix.conjTranspose]
    · intro x
      simp [Matrix.mulVec, dotProduct, Fin.sum_univ_two]
      nlinarith [sq_nonneg (x 0 + x 1), sq_nonneg (x 0), sq_nonneg (x 1)]
  · simp [squareMatrix, c]

end Sdepy
