import Verif.Spec.Sources
import Verif.Lemmas.Cov

/-!
# Lemmas on sources without memory
-/

open MeasureTheory ProbabilityTheory Matrix

set_option linter.unusedSectionVars false

namespace Sdepy

open Spec

theorem loopIdx_seeded {Ω ι β : Type} [BEq ι] [LawfulBEq ι] {body : ι → Ω × ℕ → Py (β × (Ω × ℕ))}
    {g : ℕ → ι → β} {ω : Ω} {l : List ι}
    (h : ∀ i ∈ l, ∀ n, body i (ω, n) = .ok (g n i, (ω, n + 1))) (n : ℕ) :
    ∃ r, loopIdx body l (ω, n) = .ok (r, (ω, n + l.length)) ∧
      ∀ i ∈ l, r.lookup i = some (g (n + l.idxOf i) i) := by
  induction l generalizing n with
  | nil => exact ⟨[], rfl, by simp⟩
  | cons i l ih =>
    obtain ⟨r, hr, hl⟩ := ih (fun j hj => h j (List.mem_cons_of_mem _ hj)) (n + 1)
    refine ⟨(i, g n i) :: r, ?_, ?_⟩
    · simp only [loopIdx, h i List.mem_cons_self n, hr, List.length_cons]
      rw [show n + 1 + l.length = n + (l.length + 1) by omega]
    · intro j hj
      by_cases hji : j = i
      · subst hji; simp
      · rw [List.lookup_cons, beq_eq_false_iff_ne.2 hji]
        simp only
        rw [hl j (by simpa [hji] using hj), List.idxOf_cons_ne _ (Ne.symm hji)]
        rw [show n + 1 + l.idxOf j = n + (l.idxOf j).succ by omega]

theorem swapRev_length (l : List ℕ) : (swapRev l).length = l.length := by
  unfold swapRev; split <;> simp

theorem swapaxes_shape {α : Type} (a : Arr α) {l : List ℕ} {x y : ℕ} (h : a.shape = l ++ [x, y]) :
    a.swapaxes.shape = l ++ [y, x] := by
  simp [Arr.swapaxes, h, swapRev]

theorem swapaxes_get {α : Type} (a : Arr α) (l : List ℕ) (x y : ℕ) :
    a.swapaxes.get (l ++ [x, y]) = a.get (l ++ [y, x]) := by
  simp [Arr.swapaxes, swapRev]

theorem covOf_eq {M : ℕ} {c : Arr ℝ} (h : c.shape = [M, M] ∨ c.shape = [M, M, 1]) :
    ∃ cov, covOf c = .ok cov ∧ cov.shape = [M, M] ∧ toMatrix M cov = squareMatrix M c := by
  rcases h with h | h
  · refine ⟨c, by simp [covOf, h], h, ?_⟩
    ext i j; simp [toMatrix, squareMatrix, h]
  · refine ⟨⟨[M, M], fun i => c.get (i ++ [0])⟩, by simp [covOf, h], rfl, ?_⟩
    ext i j; simp [toMatrix, squareMatrix, h]

section
variable {Ω : Type} [MeasurableSpace Ω]
variable {N0 : ℕ → Ω → List ℕ → ℝ}
  {N : (M : ℕ) → ℕ → Matrix (Fin M) (Fin M) ℝ → Ω → List ℕ → Fin M → ℝ}

theorem mvnZ_seeded {M : ℕ} {cov : Arr ℝ} (h : cov.shape = [M, M]) (size : List ℕ) (ω : Ω) (n : ℕ) :
    (seededRng N0 N).mvnZ M cov size (ω, n) = .ok (⟨size ++ [M], fun i =>
      if h : i.getLastD 0 < M then N M n (toMatrix M cov) ω i.dropLast ⟨i.getLastD 0, h⟩ else 0⟩,
        (ω, n + 1)) := by
  simp only [Rng.mvnZ, seededRng, h, if_true]

/-- Which variates are used by `wiener_source`, in presence of correlations. -/
theorem wiener_rep {W : WienerSrc} {pre : List ℕ} {M : ℕ} (hv : W.vshape = pre ++ [M])
    {t dt : Arr ℝ} {sh : List ℕ} (hsh : bcShape t.shape dt.shape = some sh)
    {C : List ℕ → Matrix (Fin M) (Fin M) ℝ}
    (hC : ∀ i, InRange sh i → CorrIs M W.corr (t.bget i + dt.bget i / 2) (C i))
    (hA : ∀ c, W.corr = .arr c → c.shape = [M, M] ∨ c.shape = [M, M, 1])
    (hne : W.corr ≠ .none) (n : ℕ) :
    ∃ (n' : ℕ) (num : List ℕ → ℕ) (cell : List ℕ → List ℕ → List ℕ),
      n ≤ n' ∧
      (∀ i, InRange sh i → n ≤ num i ∧ num i < n') ∧
      (∀ i v i' v', InRange sh i → InRange sh i' → num i = num i' → cell i v = cell i' v' →
        i = i' ∧ v = v') ∧
      (∀ i i', InRange sh i → InRange sh i' → num i = num i' → C i = C i') ∧
      ∀ ω, ∃ dz, wienerCall W (seededRng N0 N) t dt (ω, n) = .ok (dz, (ω, n')) ∧
        dz.shape = sh ++ W.vshape ++ [W.paths] ∧
        ∀ i v (k : Fin M) p, InRange sh i →
          dz.get (i ++ v ++ [(k : ℕ), p]) =
            N M (num i) (C i) ω (cell i (v ++ [p])) k * √|dt.bget i| := by
  obtain ⟨paths, vshape, corr⟩ := W
  simp only at hv hC hA hne ⊢
  subst hv
  have hb : broadcast2 t dt = .ok (⟨sh, t.bget⟩, ⟨sh, dt.bget⟩) := by rw [broadcast2_eq, hsh]
  have htake : ∀ i (l : List ℕ), InRange sh i → (i ++ l).take sh.length = i := by
    intro i l hi; rw [← hi.length]; simp
  have hdrop : ∀ i (l : List ℕ), InRange sh i → (i ++ l).drop sh.length = l := by
    intro i l hi; rw [← hi.length]; simp
  have e : ∀ A : Arr ℝ, A.shape = sh ++ pre ++ [paths, M] →
      A.swapaxes.shape = sh ++ (pre ++ [M]) ++ [paths] := by
    intro A hA
    rw [swapaxes_shape A hA]; simp
  have hlast : (pre ++ [M]).getLast? = some M := by simp
  cases corr with
  | none => exact absurd rfl hne
  | arr c =>
    have hc := hA c rfl
    have hCi : ∀ i, InRange sh i → C i = squareMatrix M c := by
      intro i hi
      have := hC i hi
      generalize C i = D at this
      cases this with
      | const _ h => rfl
    obtain ⟨cov, hcov, hcs, hcm⟩ := covOf_eq hc
    refine ⟨n + 1, fun _ => n, fun i v => i ++ v, by omega, fun i _ => ⟨le_refl n, n.lt_succ_self⟩,
      ?_, fun i i' hi hi' _ => by rw [hCi i hi, hCi i' hi'], ?_⟩
    · intro i v i' v' hi hi' _ h
      exact List.append_inj h (by rw [hi.length, hi'.length])
    · intro ω
      let A : Arr ℝ := ⟨sh ++ pre ++ [paths] ++ [M], fun i => if h : i.getLastD 0 < M then
        N M n (toMatrix M cov) ω i.dropLast ⟨i.getLastD 0, h⟩ else 0⟩
      have hAs : A.shape = sh ++ pre ++ [paths, M] := by simp [A]
      refine ⟨⟨A.swapaxes.shape, fun i => A.swapaxes.get i * √|dt.bget (i.take sh.length)|⟩,
        ?_, e A hAs, ?_⟩
      · simp only [wienerCall, hb, wienerStd, hlast, hcov, List.dropLast_concat, mvnZ_seeded hcs]
        rw [if_neg (not_not.2 (e A hAs))]
      · intro i v k p hi
        simp only
        rw [swapaxes_get, List.append_assoc i v [(k : ℕ), p], htake i _ hi]
        have : (i ++ v ++ [p, (k : ℕ)]).getLastD 0 = k := by simp
        have h2 : (i ++ v ++ [p, (k : ℕ)]).dropLast = i ++ (v ++ [p]) := by
          rw [show i ++ v ++ [p, (k : ℕ)] = (i ++ (v ++ [p])) ++ [(k : ℕ)] by simp,
            List.dropLast_concat]
        simp only [A, this, h2, k.2, dif_pos, hcm, hCi i hi]
  | fn s f =>
    have hbody : ∀ i ∈ ndindex sh, ∀ n (ω : Ω),
        wienerBody (seededRng N0 N) f M (pre ++ [paths]) t.bget dt.bget i (ω, n) =
          .ok (⟨pre ++ [paths] ++ [M], fun j => if h : j.getLastD 0 < M then
            N M n (C i) ω j.dropLast ⟨j.getLastD 0, h⟩ else 0⟩, (ω, n + 1)) := by
      intro i hi n ω
      have := hC i (mem_ndindex.1 hi)
      generalize C i = D at this
      cases this with
      | fn _ hf hc =>
        obtain ⟨cov, hcov, hcs, hcm⟩ := covOf_eq hc
        simp only [wienerBody, hf, hcov, mvnZ_seeded hcs, hcm]
    refine ⟨n + (ndindex sh).length, fun i => n + (ndindex sh).idxOf i, fun _ v => v, by omega,
      ?_, ?_, ?_, ?_⟩
    · intro i hi
      have := List.idxOf_lt_length_of_mem (mem_ndindex.2 hi)
      simp only; omega
    · intro i v i' v' hi hi' h1 h2
      refine ⟨?_, h2⟩
      exact (List.idxOf_inj (mem_ndindex.2 hi)).1 (by simp only at h1; omega)
    · intro i i' hi hi' h1
      have h2 : i = i' := (List.idxOf_inj (mem_ndindex.2 hi)).1 (by simp only at h1; omega)
      rw [h2]
    · intro ω
      obtain ⟨r, hr, hl⟩ := loopIdx_seeded (fun i hi n => hbody i hi n ω) n
      let A : Arr ℝ := assemble sh (pre ++ [paths, M]) 0 r
      have hAs : A.shape = sh ++ pre ++ [paths, M] := by simp [A, assemble]
      refine ⟨⟨A.swapaxes.shape, fun i => A.swapaxes.get i * √|dt.bget (i.take sh.length)|⟩,
        ?_, e A hAs, ?_⟩
      · simp only [wienerCall, hb, wienerStd, hlast, List.dropLast_concat, hr]
        rw [if_neg (not_not.2 (e A hAs))]
      · intro i v k p hi
        simp only
        rw [swapaxes_get, List.append_assoc i v [(k : ℕ), p], htake i _ hi,
          List.append_assoc i v]
        simp only [A, assemble, htake i _ hi, hdrop i _ hi, hl i (mem_ndindex.2 hi)]
        have : (v ++ [p, (k : ℕ)]).getLastD 0 = k := by simp
        have h2 : (v ++ [p, (k : ℕ)]).dropLast = v ++ [p] := by
          rw [show v ++ [p, (k : ℕ)] = (v ++ [p]) ++ [(k : ℕ)] by simp, List.dropLast_concat]
        have hk : (v ++ [p, (k : ℕ)]).getLastD 0 < M := by rw [this]; exact k.2
        have h3 : (⟨(v ++ [p, (k : ℕ)]).getLastD 0, hk⟩ : Fin M) = k := Fin.ext this
        show (if h : (v ++ [p, (k : ℕ)]).getLastD 0 < M then
          N M (n + (ndindex sh).idxOf i) (C i) ω (v ++ [p, (k : ℕ)]).dropLast
            ⟨(v ++ [p, (k : ℕ)]).getLastD 0, h⟩ else 0) * _ = _
        rw [dif_pos hk, h3, h2]

/-- Which variates are used by `wiener_source`, without correlations. -/
theorem wiener_rep0 {W : WienerSrc} {t dt : Arr ℝ} {sh : List ℕ}
    (hsh : bcShape t.shape dt.shape = some sh) (hW : W.corr = .none) (ω : Ω) (n : ℕ) :
    wienerCall W (seededRng N0 N) t dt (ω, n) = .ok (⟨sh ++ W.vshape ++ [W.paths],
      fun i => N0 n ω i * √|dt.bget (i.take sh.length)|⟩, (ω, n + 1)) := by
  have hb : broadcast2 t dt = .ok (⟨sh, t.bget⟩, ⟨sh, dt.bget⟩) := by rw [broadcast2_eq, hsh]
  simp only [wienerCall, hb, wienerStd, hW]
  rfl

end

end Sdepy
