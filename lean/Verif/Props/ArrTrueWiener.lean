import Verif.Model.ArrTrueWiener
import Verif.Lemmas.SrcSim
import Verif.Props.WienerLaw
import Verif.Props.WienerSource
import Verif.Props.ProcessCdf

/-!
# Wiener sources with memory, on arrays (C82)
-/

open MeasureTheory ProbabilityTheory Matrix

namespace Sdepy

open Spec

/-! ### arrays and matrices -/

/-- An array with the entries of a matrix. -/
def IsMat {M : ℕ} (a : Arr ℝ) (A : Matrix (Fin M) (Fin M) ℝ) : Prop :=
  a.shape = [M, M] ∧ ∀ r c : Fin M, a.get [(r : ℕ), (c : ℕ)] = A r c

/-- An array with values `w' i k` at the indices `e i k`. -/
def Reads {ι κ : Type} (S : List ℕ) (e : ι → κ → List ℕ) (w : Arr ℝ) (w' : ι → κ → ℝ) : Prop :=
  w.shape = S ∧ ∀ i k, InRange S (e i k) → w.get (e i k) = w' i k

theorem binop_same {α β γ : Type} (f : α → β → γ) {a : Arr α} {b : Arr β} (h : a.shape = b.shape) :
    ∃ c, Arr.binop f a b = .ok c ∧ c.shape = a.shape ∧
      ∀ i, InRange a.shape i → c.get i = f (a.get i) (b.get i) := by
  refine ⟨_, binop_eq f (u := a.shape) (by rw [← h, bcShape_self]), rfl, fun i hi => ?_⟩
  simp only
  rw [bget_self a hi, bget_self b (h ▸ hi)]

section
variable {M : ℕ} {A B : Matrix (Fin M) (Fin M) ℝ} {a b : Arr ℝ}

theorem inRange_fin (r c : Fin M) : InRange [M, M] [(r : ℕ), (c : ℕ)] :=
  inRange_pair.2 ⟨_, _, rfl, r.2, c.2⟩

theorem isMat_block (h : IsMat a A) : a.block M [] = A := by
  ext r c
  simpa [Arr.block] using h.2 r c

theorem isMat_scale (h : IsMat a A) (x : ℝ) : IsMat (a.scale x) (x • A) :=
  ⟨h.1, fun r c => by simp only [Arr.scale, h.2, Matrix.smul_apply, smul_eq_mul]; ring⟩

theorem isMat_add (ha : IsMat a A) (hb : IsMat b B) : ∃ c, Arr.binop (· + ·) a b = .ok c ∧ IsMat c (A + B) := by
  obtain ⟨c, h1, h2, h3⟩ := binop_same (· + ·) (ha.1.trans hb.1.symm)
  refine ⟨c, h1, h2.trans ha.1, fun r k => ?_⟩
  rw [h3 _ (by rw [ha.1]; exact inRange_fin r k), ha.2, hb.2]
  rfl

theorem isMat_sub (ha : IsMat a A) (hb : IsMat b B) : ∃ c, Arr.binop (· - ·) a b = .ok c ∧ IsMat c (A - B) := by
  obtain ⟨c, h1, h2, h3⟩ := binop_same (· - ·) (ha.1.trans hb.1.symm)
  refine ⟨c, h1, h2.trans ha.1, fun r k => ?_⟩
  rw [h3 _ (by rw [ha.1]; exact inRange_fin r k), ha.2, hb.2]
  rfl

theorem isMat_eye : IsMat (npEye M : Arr ℝ) (1 : Matrix (Fin M) (Fin M) ℝ) :=
  ⟨rfl, fun r c => by simp [npEye, Matrix.one_apply, Fin.ext_iff]⟩

theorem isMat_mul (ha : IsMat a A) (hb : IsMat b B) : ∃ c, npMatmul a b = .ok c ∧ IsMat c (A * B) := by
  refine ⟨_, by
    simp only [npMatmul, ha.1, hb.1, List.reverse_cons, List.reverse_nil, List.nil_append,
      List.singleton_append, ne_eq, not_true_eq_false, if_false, bcShape_self]
    rfl, rfl, fun r c => ?_⟩
  simp only [List.nil_append, bcIdxRev, List.reverse_nil, Matrix.mul_apply]
  rw [Finset.sum_range]
  exact Finset.sum_congr rfl fun j _ => by
    have h1 := ha.2 r j
    have h2 := hb.2 j c
    simp only [List.dropLast, List.getLastD, List.getLast] at *
    simpa using by rw [h1, h2]

theorem isMat_inv (ha : IsMat a A) :
    (A.det = 0 → npInv a = .error .valueError) ∧
    (A.det ≠ 0 → ∃ c, npInv a = .ok c ∧ IsMat c A⁻¹) := by
  have e : (∃ i ∈ ndindex ([] : List ℕ), (a.block M i).det = 0) ↔ A.det = 0 := by
    simp [ndindex, isMat_block ha]
  constructor
  · intro h
    simp only [npInv, ha.1, List.reverse_cons, List.reverse_nil, List.nil_append, List.singleton_append, ne_eq,
      not_true_eq_false, if_false]
    rw [if_pos (e.2 h)]
  · intro h
    refine ⟨_, by
      simp only [npInv, ha.1, List.reverse_cons, List.reverse_nil, List.nil_append, List.singleton_append, ne_eq,
        not_true_eq_false, if_false]
      rw [if_neg (fun h' => h (e.1 h'))], rfl, fun r c => ?_⟩
    have : ([(r : ℕ), (c : ℕ)].dropLast.getLastD 0 < M ∧ [(r : ℕ), (c : ℕ)].getLastD 0 < M) :=
      ⟨by simp, by simp⟩
    simp only
    rw [dif_pos this]
    have hb : a.block M [(r : ℕ), (c : ℕ)].dropLast.dropLast = A := isMat_block ha
    rw [hb]
    rfl

/-- Index of path `i.2` of component `k`, at index `i.1` in the other axes. -/
def cellAt (i : List ℕ × ℕ) (k : Fin M) : List ℕ := i.1 ++ [(k : ℕ), i.2]

theorem cellAt_inRange {pre : List ℕ} {paths : ℕ} {i : List ℕ × ℕ} {k : Fin M} :
    InRange (pre ++ [M] ++ [paths]) (cellAt i k) ↔ InRange pre i.1 ∧ i.2 < paths := by
  unfold cellAt
  rw [List.append_assoc]
  constructor
  · intro h
    have hl := h.length
    have hl' : i.1.length = pre.length := by simpa using hl
    rw [inRange_append hl'] at h
    refine ⟨h.1, ?_⟩
    obtain ⟨_, _, e, _, h2⟩ := inRange_pair.1 h.2
    cases e
    exact h2
  · rintro ⟨h1, h2⟩
    rw [inRange_append h1.length]
    exact ⟨h1, inRange_pair.2 ⟨_, _, rfl, k.2, h2⟩⟩

theorem reads_mult (ha : IsMat a A) {pre : List ℕ} {paths : ℕ} {w : Arr ℝ} {w' : List ℕ × ℕ → Fin M → ℝ}
    (h : Reads (pre ++ [M] ++ [paths]) cellAt w w') :
    ∃ c, wienerMult a w = .ok c ∧ Reads (pre ++ [M] ++ [paths]) cellAt c (fun i => A *ᵥ w' i) := by
  refine ⟨_, by
    simp only [wienerMult, ha.1, h.1, List.reverse_append, List.reverse_cons, List.reverse_nil, List.nil_append,
      List.singleton_append, List.cons_append, ne_eq, not_true_eq_false, if_false]
    rfl, by simp, fun i k hi => ?_⟩
  have e1 : (cellAt i k).getLastD 0 = i.2 := by simp [cellAt]
  have e2 : (cellAt i k).dropLast = i.1 ++ [(k : ℕ)] := by
    rw [cellAt, show i.1 ++ [(k : ℕ), i.2] = (i.1 ++ [(k : ℕ)]) ++ [i.2] by simp, List.dropLast_concat]
  simp only [e1, e2, List.dropLast_concat, Matrix.mulVec, dotProduct]
  rw [Finset.sum_range]
  refine Finset.sum_congr rfl fun j _ => ?_
  have h1 := ha.2 k j
  have h2 := h.2 i j (cellAt_inRange.2 (cellAt_inRange.1 hi))
  unfold cellAt at h2
  rw [h2, show (i.1 ++ [(k : ℕ)]).getLastD 0 = k by simp, h1]

end

section
variable {ι κ : Type} {S : List ℕ} {e : ι → κ → List ℕ} {v w : Arr ℝ} {v' w' : ι → κ → ℝ}

theorem reads_add (h1 : Reads S e v v') (h2 : Reads S e w w') :
    ∃ c, Arr.binop (· + ·) v w = .ok c ∧ Reads S e c (v' + w') := by
  obtain ⟨c, k1, k2, k3⟩ := binop_same (· + ·) (h1.1.trans h2.1.symm)
  refine ⟨c, k1, k2.trans h1.1, fun i k hi => ?_⟩
  rw [k3 _ (h1.1 ▸ hi), h1.2 i k hi, h2.2 i k hi]
  rfl

theorem reads_scale (h1 : Reads S e v v') (x : ℝ) : Reads S e (v.scale x) (fun i k => x * v' i k) :=
  ⟨h1.1, fun i k hi => by simp only [Arr.scale, h1.2 i k hi, mul_comm]⟩

end

/-! ### draws -/

section
variable {Ω : Type} [MeasurableSpace Ω] {P : Measure Ω}
variable {N0 : ℕ → Ω → List ℕ → ℝ}
  {N : (M : ℕ) → ℕ → Matrix (Fin M) (Fin M) ℝ → Ω → List ℕ → Fin M → ℝ}

theorem inside_rel {A B σ : Type} {R : A → B → Prop} {x : Py (A × σ)} {y : Py (B × σ)}
    (h : RelPy (fun a b => R a.1 b.1 ∧ a.2 = b.2) x y) {z : A} {z' : B} (hz : R z z') :
    RelPy (fun a b => R a.1.1 b.1.1 ∧ Option.Rel R a.1.2 b.1.2 ∧ a.2 = b.2)
      (x >>= fun r => pure ((z, some r.1), r.2))
      (match y with
        | .error e => .error e
        | .ok (w, st) => .ok ((z', some w), st)) := by
  cases x <;> cases y
  · exact h
  · exact h.elim
  · exact h.elim
  · exact ⟨hz, .some h.1, h.2⟩

theorem call_plain {c : Matrix Unit Unit ℝ} {N' : ℕ → Matrix Unit Unit ℝ → Ω → List ℕ → Unit → ℝ}
    (h1 : ∀ n, N' n 1 = fun ω i _ => N0 n ω i) (hc : c = 1) (paths : ℕ) (vshape : List ℕ) (t dt : ℝ) (ω : Ω) (n : ℕ) :
    ∃ d, wienerCall ⟨paths, vshape, .none⟩ (seededRng N0 N) (.scalar t) (.scalar dt) (ω, n) =
        .ok (d, (ω, n + 1)) ∧
      Reads (vshape ++ [paths]) (fun i _ => i) d (fun i (k : Unit) => √|dt| * N' n c ω i k) := by
  have hb : broadcast2 (Arr.scalar t) (Arr.scalar dt) = .ok (.scalar t, .scalar dt) := rfl
  refine ⟨_, by simp only [wienerCall, hb, wienerStd, seededRng]; rfl, by simp [Arr.scalar], fun i k hi => ?_⟩
  simp only [hc, h1]
  rw [mul_comm]
  rfl

/-- What is drawn at each call, with correlations. -/
noncomputable def drawsOf {M : ℕ} (N : ℕ → Matrix (Fin M) (Fin M) ℝ → Ω → List ℕ → Fin M → ℝ) :
    ℕ → Matrix (Fin M) (Fin M) ℝ → ℝ → ℝ → Ω → List ℕ × ℕ → Fin M → ℝ :=
  fun n c _ dt ω i k => √|dt| * N n c ω (i.1 ++ [i.2]) k

theorem call_arr {M : ℕ} (paths : ℕ) (pre : List ℕ) {c : Arr ℝ} {C : Matrix (Fin M) (Fin M) ℝ}
    (hc : c.shape = [M, M] ∨ c.shape = [M, M, 1]) (hC : squareMatrix M c = C) (t dt : ℝ) (ω : Ω) (n : ℕ) :
    ∃ d, wienerCall ⟨paths, pre ++ [M], .arr c⟩ (seededRng N0 N) (.scalar t) (.scalar dt) (ω, n) =
        .ok (d, (ω, n + 1)) ∧
      Reads (pre ++ [M] ++ [paths]) cellAt d (drawsOf (N M) n C t dt ω) := by
  have hb : broadcast2 (Arr.scalar t) (Arr.scalar dt) = .ok (.scalar t, .scalar dt) := rfl
  have hlast : (pre ++ [M]).getLast? = some M := by simp
  obtain ⟨cov, hcov, hs, hm⟩ := covOf_eq hc
  rw [hC] at hm
  refine ⟨_, by
    simp only [wienerCall, hb, wienerStd, hlast, hcov, mvnZ_seeded hs, List.dropLast_concat]
    rw [if_neg (not_not.2 (by
      rw [swapaxes_shape _ (l := (Arr.scalar dt).shape ++ pre) (x := paths) (y := M) (by simp)]
      simp))], ?_, fun i k hi => ?_⟩
  · simp only
    rw [swapaxes_shape _ (l := (Arr.scalar dt).shape ++ pre) (x := paths) (y := M) (by simp)]
    simp [Arr.scalar]
  · unfold cellAt drawsOf
    simp only
    rw [swapaxes_get]
    have h1 : (i.1 ++ [i.2, (k : ℕ)]).getLastD 0 = k := by simp
    have h2 : (i.1 ++ [i.2, (k : ℕ)]).dropLast = i.1 ++ [i.2] := by
      rw [show i.1 ++ [i.2, (k : ℕ)] = (i.1 ++ [i.2]) ++ [(k : ℕ)] by simp, List.dropLast_concat]
    simp only [h1, h2, k.2, dif_pos, hm]
    rw [mul_comm]
    rfl

/-- The correlations `corr` of a source are those given by `C`: a constant matrix, possibly with a trailing axis of
size one, or a callable returning matrices. -/
inductive CorrGives (M : ℕ) : Param ℝ → Corr (Fin M) → Prop
  | const {c : Arr ℝ} : c.shape = [M, M] ∨ c.shape = [M, M, 1] → CorrGives M (.arr c) (.const (squareMatrix M c))
  | fn {sh : Option (List ℕ)} {f : ℝ → Py (Arr ℝ)} {C : ℝ → Matrix (Fin M) (Fin M) ℝ} :
      (∀ τ, ∃ c, f τ = .ok c ∧ IsMat c (C τ)) → CorrGives M (.fn sh f) (.fn C)

theorem squareMatrix_isMat {M : ℕ} {c : Arr ℝ} {C : Matrix (Fin M) (Fin M) ℝ} (h : IsMat c C) :
    squareMatrix M c = C := by
  ext i j
  simp only [squareMatrix, h.1, if_true, Matrix.of_apply]
  exact h.2 i j

theorem wiener_sim {M : ℕ} (paths : ℕ) (pre : List ℕ) {p : Param ℝ} {corr : Corr (Fin M)}
    (hp : CorrGives M p corr) (t0 rtol : ℝ) :
    SrcSim (Reads (pre ++ [M] ++ [paths]) cellAt)
      (fun v v' => ∀ i k (h : InRange (pre ++ [M] ++ [paths]) (cellAt i k)), v ⟨cellAt i k, h⟩ = v' i k)
      (trueWienerArr t0 rtol ⟨paths, pre ++ [M], p⟩ (seededRng N0 N))
      (trueWiener t0 rtol corr (seeded (drawsOf (N M)))) := by
  refine ⟨rfl, fun z z' h i k hi => h.2 i k hi, ?_, ?_⟩
  · rintro z z' t s ⟨ω, n⟩ hz
    simp only [trueWienerArr, trueWiener, arrOutside, wienerOutside]
    cases pyAssert ((t0 ≤ t ∧ t < s) ∨ (s < t ∧ t ≤ t0)) with
    | error e => rfl
    | ok _ =>
      simp only [bind, Except.bind, pure, Except.pure]
      have : ∃ c C, p.fixAt ((t + s) / 2) = .ok (.arr c) ∧ corr.at ((t + s) / 2) = some C ∧
          (c.shape = [M, M] ∨ c.shape = [M, M, 1]) ∧ squareMatrix M c = C := by
        cases hp with
        | const h => exact ⟨_, _, rfl, rfl, h, rfl⟩
        | fn h =>
          obtain ⟨c, h1, h2⟩ := h ((t + s) / 2)
          exact ⟨c, _, by simp only [Param.fixAt, h1], rfl, .inl h2.1, squareMatrix_isMat h2⟩
      obtain ⟨c, C, e1, e2, e3, e4⟩ := this
      obtain ⟨d, h1, h2⟩ := call_arr (N0 := N0) (N := N) paths pre e3 e4 t (s - t) ω n
      obtain ⟨w, h3, h4⟩ := reads_add hz h2
      simp only [e1, e2, h1, h3, seeded, Option.getD, RelPy]
      exact ⟨hz, h4, trivial⟩
  · rintro z1 z1' z2 z2' t1 t2 s ⟨ω, n⟩ hz1 hz2
    have hbr : ∀ {v1 v2 : Arr ℝ} {v1' v2' : List ℕ × ℕ → Fin M → ℝ} (u1 u2 : ℝ),
        Reads (pre ++ [M] ++ [paths]) cellAt v1 v1' → Reads (pre ++ [M] ++ [paths]) cellAt v2 v2' →
        RelPy (fun a b => Reads (pre ++ [M] ++ [paths]) cellAt a.1 b.1 ∧ a.2 = b.2)
          (arrBridge ⟨paths, pre ++ [M], p⟩ (seededRng N0 N) v1 v2 u1 u2 s (ω, n))
          (wienerBridge corr (seeded (drawsOf (N M))) v1' v2' u1 u2 s (ω, n)) := by
      intro v1 v2 v1' v2' u1 u2 h1 h2
      cases hp with
      | const h =>
        obtain ⟨d, k1, k2⟩ := call_arr (N0 := N0) (N := N) paths pre h rfl 0
          ((u2 - s) / ((s - u1) + (u2 - s)) * (s - u1)) ω n
        obtain ⟨x, k3, k4⟩ := reads_add (reads_scale h1 ((u2 - s) / ((s - u1) + (u2 - s))))
          (reads_scale h2 (1 - (u2 - s) / ((s - u1) + (u2 - s))))
        obtain ⟨y, k5, k6⟩ := reads_add k4 k2
        simp only [arrBridge, wienerBridge, bind, Except.bind, pure, Except.pure, k3, k1, k5, seeded, Corr.at,
          Option.getD, RelPy]
        exact ⟨k6, trivial⟩
      | fn h =>
        rename_i sh f C
        obtain ⟨cA, a1, a2⟩ := h ((u1 + s) / 2)
        obtain ⟨cB, b1, b2⟩ := h ((s + u2) / 2)
        have a3 := isMat_scale a2 (s - u1)
        have b3 := isMat_scale b2 (u2 - s)
        obtain ⟨AB, k1, k2⟩ := isMat_add a3 b3
        simp only [arrBridge, wienerBridge, bind, Except.bind, pure, Except.pure, a1, b1, k1]
        by_cases hd : ((s - u1) • C ((u1 + s) / 2) + (u2 - s) • C ((s + u2) / 2)).det = 0
        · rw [(isMat_inv k2).1 hd, if_pos hd]
          rfl
        · rw [if_neg hd]
          obtain ⟨V, k3, k4⟩ := (isMat_inv k2).2 hd
          obtain ⟨Z, k5, k6⟩ := isMat_mul b3 k4
          obtain ⟨ZA, k7, k8⟩ := isMat_mul k6 a3
          have k9 := isMat_scale k8 (SignType.sign (s - u1) : ℝ)
          obtain ⟨x1, l1, l2⟩ := reads_mult k6 h1
          obtain ⟨IZ, l3, l4⟩ := isMat_sub isMat_eye k6
          obtain ⟨x2, l5, l6⟩ := reads_mult l4 h2
          obtain ⟨x, l7, l8⟩ := reads_add l2 l6
          obtain ⟨d, m1, m2⟩ := call_arr (N0 := N0) (N := N) paths pre (.inl k9.1) (squareMatrix_isMat k9) 0 1 ω n
          obtain ⟨y, m3, m4⟩ := reads_add l8 m2
          have hA : (cA.scale (s - u1)).shape.headD 0 = M := by rw [a3.1]; rfl
          simp only [k3, k5, k7, l1, hA, l3, l5, l7, m1, m3, seeded, Option.getD, RelPy]
          exact ⟨m4, trivial⟩
    simp only [trueWienerArr, trueWiener, arrInside, wienerInside]
    by_cases ht : t2 ≤ t0
    · simp only [if_pos ht]
      cases pyAssert ((t0 ≤ t2 ∧ t2 < s ∧ s < t1) ∨ (t1 < s ∧ s < t2 ∧ t2 ≤ t0)) with
      | error e => rfl
      | ok _ =>
        have := inside_rel (hbr t2 t1 hz2 hz1) hz1
        simp only [bind, Except.bind] at this ⊢
        generalize wienerBridge corr (seeded (drawsOf (N M))) z2' z1' t2 t1 s (ω, n) = y at this ⊢
        cases y <;> exact this
    · simp only [if_neg ht]
      cases pyAssert ((t0 ≤ t1 ∧ t1 < s ∧ s < t2) ∨ (t2 < s ∧ s < t1 ∧ t1 ≤ t0)) with
      | error e => rfl
      | ok _ =>
        have := inside_rel (hbr t1 t2 hz1 hz2) hz1
        simp only [bind, Except.bind] at this ⊢
        generalize wienerBridge corr (seeded (drawsOf (N M))) z1' z2' t1 t2 s (ω, n) = y at this ⊢
        cases y <;> exact this

theorem plain_sim {N' : ℕ → Matrix Unit Unit ℝ → Ω → List ℕ → Unit → ℝ}
    (h1 : ∀ n, N' n 1 = fun ω i _ => N0 n ω i) (paths : ℕ) (vshape : List ℕ) (t0 rtol : ℝ) :
    SrcSim (Reads (vshape ++ [paths]) (fun i (_ : Unit) => i))
      (fun v v' => ∀ i (k : Unit) (h : InRange (vshape ++ [paths]) i), v ⟨i, h⟩ = v' i k)
      (trueWienerArr t0 rtol ⟨paths, vshape, .none⟩ (seededRng N0 N))
      (trueWiener t0 rtol .none (seeded fun n c _ dt ω i k => √|dt| * N' n c ω i k)) := by
  refine ⟨rfl, fun z z' h i k hi => h.2 i k hi, ?_, ?_⟩
  · rintro z z' t s ⟨ω, n⟩ hz
    simp only [trueWienerArr, trueWiener, arrOutside, wienerOutside]
    cases pyAssert ((t0 ≤ t ∧ t < s) ∨ (s < t ∧ t ≤ t0)) with
    | error e => rfl
    | ok _ =>
      obtain ⟨d, k1, k2⟩ := call_plain (N0 := N0) (N := N) h1 rfl paths vshape t (s - t) ω n
      obtain ⟨w, h3, h4⟩ := reads_add hz k2
      simp only [bind, Except.bind, pure, Except.pure, Param.fixAt, Corr.at, k1, h3, seeded, Option.getD, RelPy]
      exact ⟨hz, h4, trivial⟩
  · rintro z1 z1' z2 z2' t1 t2 s ⟨ω, n⟩ hz1 hz2
    have hbr : ∀ {v1 v2 : Arr ℝ} {v1' v2' : List ℕ → Unit → ℝ} (u1 u2 : ℝ),
        Reads (vshape ++ [paths]) (fun i (_ : Unit) => i) v1 v1' →
        Reads (vshape ++ [paths]) (fun i (_ : Unit) => i) v2 v2' →
        RelPy (fun a b => Reads (vshape ++ [paths]) (fun i (_ : Unit) => i) a.1 b.1 ∧ a.2 = b.2)
          (arrBridge ⟨paths, vshape, .none⟩ (seededRng N0 N) v1 v2 u1 u2 s (ω, n))
          (wienerBridge .none (seeded fun n c _ dt ω i k => √|dt| * N' n c ω i k) v1' v2' u1 u2 s (ω, n)) := by
      intro v1 v2 v1' v2' u1 u2 g1 g2
      obtain ⟨d, k1, k2⟩ := call_plain (N0 := N0) (N := N) h1 rfl paths vshape 0
        ((u2 - s) / ((s - u1) + (u2 - s)) * (s - u1)) ω n
      obtain ⟨x, k3, k4⟩ := reads_add (reads_scale g1 ((u2 - s) / ((s - u1) + (u2 - s))))
        (reads_scale g2 (1 - (u2 - s) / ((s - u1) + (u2 - s))))
      obtain ⟨y, k5, k6⟩ := reads_add k4 k2
      simp only [arrBridge, wienerBridge, bind, Except.bind, pure, Except.pure, k3, k1, k5, seeded, Corr.at,
        Option.getD, RelPy]
      exact ⟨k6, trivial⟩
    simp only [trueWienerArr, trueWiener, arrInside, wienerInside]
    by_cases ht : t2 ≤ t0
    · simp only [if_pos ht]
      cases pyAssert ((t0 ≤ t2 ∧ t2 < s ∧ s < t1) ∨ (t1 < s ∧ s < t2 ∧ t2 ≤ t0)) with
      | error e => rfl
      | ok _ =>
        exact inside_rel (hbr t2 t1 hz2 hz1) hz1
    · simp only [if_neg ht]
      cases pyAssert ((t0 ≤ t1 ∧ t1 < s ∧ s < t2) ∨ (t2 < s ∧ s < t1 ∧ t1 ≤ t0)) with
      | error e => rfl
      | ok _ =>
        exact inside_rel (hbr t1 t2 hz1 hz2) hz1

end

/-! ### arrays of times -/

theorem lookup_zip_forall₂ {α β : Type} [BEq α] [LawfulBEq α] {Q : α → β → Prop} {l : List α} {vs : List β}
    (h : List.Forall₂ Q l vs) {x : α} (hx : x ∈ l) : ∃ v, (l.zip vs).lookup x = some v ∧ Q x v := by
  induction h with
  | nil => simp at hx
  | cons hab _ ih =>
    rename_i a b l vs _
    by_cases hax : x = a
    · subst hax
      exact ⟨b, by simp, hab⟩
    · obtain ⟨v, h1, h2⟩ := ih (by simpa [hax] using hx)
      exact ⟨v, by rw [List.zip_cons_cons, List.lookup_cons, beq_eq_false_iff_ne.2 hax]; exact h1, h2⟩

theorem exists_fun {α β : Type} [DecidableEq α] [Inhabited β] {l : List α} (hl : l.Nodup) {us : List β}
    (h : l.length = us.length) : ∃ u : α → β, us = l.map u := by
  refine ⟨fun a => us.getD (l.idxOf a) default, List.ext_getElem (by simp [h]) fun n h1 h2 => ?_⟩
  have h3 : n < l.length := by simpa using h2
  have h4 : n < us.length := h ▸ h3
  simp [hl.idxOf_getElem, h4]

theorem forall₂_append_left {α β : Type} {R : α → β → Prop} {a b : List α} {c : List β}
    (h : List.Forall₂ R (a ++ b) c) : ∃ c1 c2, c = c1 ++ c2 ∧ List.Forall₂ R a c1 ∧ List.Forall₂ R b c2 := by
  induction a generalizing c with
  | nil => exact ⟨[], c, rfl, .nil, h⟩
  | cons x a ih =>
    cases h with
    | cons h1 h2 =>
      obtain ⟨c1, c2, rfl, k1, k2⟩ := ih h2
      exact ⟨_ :: c1, c2, rfl, .cons h1 k1, k2⟩

theorem getList_append {T Z V σ : Type} [Field T] [LinearOrder T] (S : TrueSrc T Z V σ) (a b : List T)
    (m : Mem T Z σ) : S.getList (a ++ b) m = match S.getList a m with
      | .error e => .error e
      | .ok (v, m) =>
        match S.getList b m with
        | .error e => .error e
        | .ok (w, m) => .ok (v ++ w, m) := by
  induction a generalizing m with
  | nil => simp only [List.nil_append, TrueSrc.getList]; cases S.getList b m <;> rfl
  | cons s a ih =>
    simp only [List.cons_append, TrueSrc.getList]
    cases S.get1 s m with
    | error e => rfl
    | ok r =>
      simp only [ih]
      cases S.getList a r.2 with
      | error e => rfl
      | ok q =>
        simp only
        cases S.getList b q.2 <;> rfl

theorem getList_length {T Z V σ : Type} [Field T] [LinearOrder T] {S : TrueSrc T Z V σ} {a : List T}
    {m m' : Mem T Z σ} {v : List V} (h : S.getList a m = .ok (v, m')) : v.length = a.length := by
  induction a generalizing m v with
  | nil => simp only [TrueSrc.getList, Except.ok.injEq, Prod.mk.injEq] at h; simp [← h.1]
  | cons s a ih =>
    simp only [TrueSrc.getList] at h
    cases q : S.get1 s m with
    | error e => simp [q] at h
    | ok r =>
      rw [q] at h
      simp only at h
      cases q' : S.getList a r.2 with
      | error e => simp [q'] at h
      | ok r' =>
        rw [q'] at h
        simp only [Except.ok.injEq, Prod.mk.injEq] at h
        obtain ⟨rfl, rfl⟩ := h
        simp [ih q']

section
variable {Ω : Type} [MeasurableSpace Ω] {P : Measure Ω} [IsProbabilityMeasure P]
variable {ι κ : Type} [DecidableEq ι] [Fintype κ] [DecidableEq κ]

/-- Whatever the outcome `ω`, a call returns an array of shape `sh ++ S`, with values `V ω i j k` at time index `i` and
component `e j k`. -/
def ReturnsArr {M : Type} (call : Ω → Py (Arr ℝ × M)) (sh S : List ℕ) (e : ι → κ → List ℕ)
    (V : Ω → List ℕ → ι → κ → ℝ) : Prop :=
  ∀ ω, ∃ a m, call ω = .ok (a, m) ∧ a.shape = sh ++ S ∧
    ∀ i j k, InRange sh i → InRange S (e j k) → a.get (i ++ e j k) = V ω i j k

theorem assemble_reads {S sh : List ℕ} {e : ι → κ → List ℕ} {vs : List (Pos S → ℝ)} {V : List ℕ → ι → κ → ℝ}
    (h : List.Forall₂ (fun i v => ∀ j k (hj : InRange S (e j k)), v ⟨e j k, hj⟩ = V i j k) (ndindex sh) vs) :
    ∀ i j k, InRange sh i → InRange S (e j k) →
      (assemble sh S 0 ((ndindex sh).zip (vs.map (ofPos 0)))).get (i ++ e j k) = V i j k := by
  intro i j k hi hj
  have h' : List.Forall₂ (fun i v => ∀ j k, InRange S (e j k) → v.get (e j k) = V i j k) (ndindex sh)
      (vs.map (ofPos (0 : ℝ))) := by
    rw [List.forall₂_map_right_iff]
    refine h.imp fun i v hv j k hj => ?_
    simp only [ofPos, dif_pos hj, hv j k hj]
  obtain ⟨v, h1, h2⟩ := lookup_zip_forall₂ h' (mem_ndindex.2 hi)
  simp only [assemble, List.take_left' hi.length, List.drop_left' hi.length, h1]
  exact h2 j k hj

variable {t0 rtol : ℝ} {corr : Corr κ} {D : Set ℝ} {F : ℝ → Matrix κ κ ℝ}
  {G : ℕ → Matrix κ κ ℝ → ℝ → ℝ → Ω → ι → κ → ℝ} {S : List ℕ} {e : ι → κ → List ℕ}
  {src : TrueSrc ℝ (Arr ℝ) (Pos S → ℝ) (Ω × ℕ)} {z : Arr ℝ} {z' : ι → κ → ℝ}

theorem getList_law (hs : SrcSim (Reads S e) (fun v v' => ∀ i k (h : InRange S (e i k)), v ⟨e i k, h⟩ = v' i k) src
      (trueWiener t0 rtol corr (seeded G))) (hC : CorrOk corr D F) (hG : Draws P G) (hJ : GaussianDraws P G)
    (hr : 0 ≤ rtol) (h0 : t0 ∈ D) (hz : Reads S e z z') (ss : List ℝ) (hss : ∀ s ∈ ss, s ∈ D) :
    ∃ (us : List ℝ) (W : ℝ → Ω → ι → κ → ℝ), List.Forall₂ (fun s u => |s - u| ≤ rtol * |u|) ss us ∧
      IsWienerProcess P F t0 z' {u | u ∈ t0 :: us} W ∧
      ∀ ω, ∃ vs m, src.getList ss (Mem.new t0 z (ω, 0)) = .ok (vs, m) ∧
        List.Forall₂ (fun u v => ∀ j k (hj : InRange S (e j k)), v ⟨e j k, hj⟩ = W u ω j k) us vs := by
  obtain ⟨us, W, m, h1, h2, h3⟩ := C30_law hC hG hJ hr h0 z' ss hss
  refine ⟨us, W, h2, h3, fun ω => ?_⟩
  have hm : MemRel (Reads S e) (Mem.new t0 z (ω, 0)) (Mem.new t0 z' (ω, 0)) := ⟨rfl, .cons hz .nil, rfl⟩
  have hsim := getList_sim hs ss hm
  have h1' := h1 ω
  simp only [TrueSrc.call] at h1'
  rw [h1'] at hsim
  cases hr' : src.getList ss (Mem.new t0 z (ω, 0)) with
  | error err => rw [hr'] at hsim; exact hsim.elim
  | ok r =>
    rw [hr'] at hsim
    obtain ⟨vs, m'⟩ := r
    refine ⟨vs, m', rfl, ?_⟩
    have := hsim.1
    rw [List.forall₂_map_right_iff] at this
    exact this.flip

theorem callArr_law (hs : SrcSim (Reads S e) (fun v v' => ∀ i k (h : InRange S (e i k)), v ⟨e i k, h⟩ = v' i k) src
      (trueWiener t0 rtol corr (seeded G))) (hC : CorrOk corr D F) (hG : Draws P G) (hJ : GaussianDraws P G)
    (hr : 0 ≤ rtol) (h0 : t0 ∈ D) (hz : Reads S e z z') (t : Arr ℝ)
    (ht : ∀ i, InRange t.shape i → t.get i ∈ D) :
    ∃ (u : List ℕ → ℝ) (W : ℝ → Ω → ι → κ → ℝ), (∀ i, InRange t.shape i → |t.get i - u i| ≤ rtol * |u i|) ∧
      IsWienerProcess P F t0 z' ({t0} ∪ u '' {i | InRange t.shape i}) W ∧
      ReturnsArr (fun ω => src.callArr t none (Mem.new t0 z (ω, 0))) t.shape S e (fun ω i => W (u i) ω) := by
  obtain ⟨us, W, h1, h2, h3⟩ := getList_law hs hC hG hJ hr h0 hz ((ndindex t.shape).map t.get)
    (by simpa [mem_ndindex] using ht)
  have hlen : (ndindex t.shape).length = us.length := by simpa using h1.length_eq
  obtain ⟨u, rfl⟩ := exists_fun (ndindex_nodup t.shape) hlen
  refine ⟨u, W, ?_, ?_, ?_⟩
  · rw [List.forall₂_map_left_iff, List.forall₂_map_right_iff, List.forall₂_same] at h1
    exact fun i hi => h1 i (mem_ndindex.2 hi)
  · convert h2 using 1
    ext v
    simp [mem_ndindex, eq_comm]
  · intro ω
    obtain ⟨vs, m, h4, h5⟩ := h3 ω
    refine ⟨_, m, by simp only [TrueSrc.callArr, TrueSrc.call, h4]; rfl, rfl, ?_⟩
    rw [List.forall₂_map_left_iff] at h5
    exact assemble_reads h5

theorem forall₂_zipWith_sub {α : Type} {Q0 Q1 : α → (Pos S → ℝ) → Prop} {Q : α → (Pos S → ℝ) → Prop}
    (hQ : ∀ a v w, Q1 a v → Q0 a w → Q a (v - w)) {l : List α} {v w : List (Pos S → ℝ)}
    (h1 : List.Forall₂ Q1 l v) (h0 : List.Forall₂ Q0 l w) : List.Forall₂ Q l (List.zipWith (· - ·) v w) := by
  induction h1 generalizing w with
  | nil => cases h0; exact .nil
  | cons h1 _ ih =>
    cases h0 with
    | cons h0 h0' => exact .cons (hQ _ _ _ h1 h0) (ih h0')

theorem callArr_incr (hs : SrcSim (Reads S e) (fun v v' => ∀ i k (h : InRange S (e i k)), v ⟨e i k, h⟩ = v' i k) src
      (trueWiener t0 rtol corr (seeded G))) (hC : CorrOk corr D F) (hG : Draws P G) (hJ : GaussianDraws P G)
    (hr : 0 ≤ rtol) (h0 : t0 ∈ D) (hz : Reads S e z z') {t dt : Arr ℝ} {sh : List ℕ}
    (hb : bcShape t.shape dt.shape = some sh)
    (ht : ∀ i, InRange sh i → t.bget i ∈ D ∧ t.bget i + dt.bget i ∈ D) :
    ∃ (u v : List ℕ → ℝ) (W : ℝ → Ω → ι → κ → ℝ), (∀ i, InRange sh i → |t.bget i - u i| ≤ rtol * |u i| ∧
        |t.bget i + dt.bget i - v i| ≤ rtol * |v i|) ∧
      IsWienerProcess P F t0 z' ({t0} ∪ u '' {i | InRange sh i} ∪ v '' {i | InRange sh i}) W ∧
      ReturnsArr (fun ω => src.callArr t (some dt) (Mem.new t0 z (ω, 0))) sh S e
        (fun ω i => W (v i) ω - W (u i) ω) := by
  obtain ⟨us, W, h1, h2, h3⟩ := getList_law hs hC hG hJ hr h0 hz
    ((ndindex sh).map (fun i => t.bget i + dt.bget i) ++ (ndindex sh).map t.bget) (by
      intro s h
      simp only [List.mem_append, List.mem_map, mem_ndindex] at h
      rcases h with ⟨i, hi, rfl⟩ | ⟨i, hi, rfl⟩
      · exact (ht i hi).2
      · exact (ht i hi).1)
  obtain ⟨us1, us0, rfl, g1, g0⟩ := forall₂_append_left h1
  have l1 : (ndindex sh).length = us1.length := by simpa using g1.length_eq
  have l0 : (ndindex sh).length = us0.length := by simpa using g0.length_eq
  obtain ⟨v, rfl⟩ := exists_fun (ndindex_nodup sh) l1
  obtain ⟨u, rfl⟩ := exists_fun (ndindex_nodup sh) l0
  refine ⟨u, v, W, ?_, ?_, ?_⟩
  · rw [List.forall₂_map_left_iff, List.forall₂_map_right_iff, List.forall₂_same] at g1 g0
    exact fun i hi => ⟨g0 i (mem_ndindex.2 hi), g1 i (mem_ndindex.2 hi)⟩
  · convert h2 using 1
    ext x
    simp [mem_ndindex, eq_comm, or_assoc, or_comm, or_left_comm]
  · intro ω
    obtain ⟨vs, m, h4, h5⟩ := h3 ω
    rw [getList_append] at h4
    have hz1 : List.zipWith (· + ·) ((ndindex sh).map t.bget) ((ndindex sh).map dt.bget) =
        (ndindex sh).map fun i => t.bget i + dt.bget i := by
      rw [List.zipWith_map, List.zipWith_self]
    revert h4
    cases q1 : src.getList ((ndindex sh).map fun i => t.bget i + dt.bget i) (Mem.new t0 z (ω, 0)) with
    | error err => intro h4; simp at h4
    | ok r1 =>
      obtain ⟨v1, m1⟩ := r1
      simp only
      cases q0 : src.getList ((ndindex sh).map t.bget) m1 with
      | error err => intro h4; simp at h4
      | ok r0 =>
        obtain ⟨v0, m0⟩ := r0
        simp only [Except.ok.injEq, Prod.mk.injEq]
        rintro ⟨rfl, rfl⟩
        refine ⟨_, m0, by
          simp only [TrueSrc.callArr, broadcast2_eq, hb, TrueSrc.call, hz1, q1, q0]; rfl, rfl, ?_⟩
        obtain ⟨w1, w0, hw, k1, k0⟩ := forall₂_append_left h5
        have hl : w1.length = v1.length := by
          rw [← k1.length_eq, getList_length q1]
          simp
        obtain ⟨rfl, rfl⟩ := List.append_inj hw hl.symm
        rw [List.forall₂_map_left_iff] at k1 k0
        refine assemble_reads (forall₂_zipWith_sub ?_ k1 k0)
        intro i a b ha hb j k hj
        simp only [Pi.sub_apply, ha j k hj, hb j k hj]

end

/-! ### C82 -/

/-- The matrix that correlates the `i`-th and `n + i`-th of `2 * n` values by `r i`. -/
def rhoCorr (n : ℕ) (r : ℕ → ℝ) : Matrix (Fin (2 * n)) (Fin (2 * n)) ℝ :=
  Matrix.of fun i j => if i = j then 1 else if (j : ℕ) = n + i then r i else if (i : ℕ) = n + j then r j else 0

/-- The correlations `C` of `M` components given by the parameters `corr` and `rho`: constant or callable; a callable
`corr` returns matrices with no trailing axis. -/
inductive CorrInput : (M : ℕ) → RawParam ℝ → RawParam ℝ → Corr (Fin M) → Prop
  | corr {M : ℕ} {c : Arr ℝ} (rho : RawParam ℝ) : c.shape = [M, M] ∨ c.shape = [M, M, 1] →
      CorrInput M (.arr c) rho (.const (squareMatrix M c))
  | corrFn {M : ℕ} {f : ℝ → Py (Arr ℝ)} {C : ℝ → Matrix (Fin M) (Fin M) ℝ} (rho : RawParam ℝ) :
      (∀ τ, ∃ c, f τ = .ok c ∧ c.shape = [M, M] ∧ toMatrix M c = C τ) → CorrInput M (.fn f) rho (.fn C)
  | rho {n : ℕ} {a : Arr ℝ} {r : ℕ → ℝ} : RhoArr a n r →
      CorrInput (2 * n) .none (.arr a) (.const (rhoCorr n r))
  | rhoFn {n : ℕ} {f : ℝ → Py (Arr ℝ)} {r : ℝ → ℕ → ℝ} : (∀ τ, ∃ a, f τ = .ok a ∧ RhoArr a n (r τ)) →
      CorrInput (2 * n) .none (.fn f) (.fn fun τ => rhoCorr n (r τ))
  | rhoProc {n : ℕ} {f : ℝ → Py (Arr ℝ)} {r : ℝ → ℕ → ℝ} : (∀ τ, ∃ a, f τ = .ok a ∧ RhoArr a n (r τ)) →
      CorrInput (2 * n) .none (.proc [n] 1 f) (.fn fun τ => rhoCorr n (r τ))

theorem isMat_rho {n : ℕ} {r : ℕ → ℝ} {C : Arr ℝ} (h : RhoMatrix n r C) : IsMat C (rhoCorr n r) := by
  refine ⟨h.1, fun i j => ?_⟩
  rw [h.2 i i.2 j j.2]
  simp [rhoCorr, Fin.ext_iff]

theorem wienerNew_ok {M : ℕ} {corr rho : RawParam ℝ} {p : Param ℝ} (h : getCorrMatrix corr rho = .ok p)
    (hp : p ≠ .none) (hs : ∀ s, p.shape = some s → s = [M, M] ∨ s = [M, M, 1]) (paths : ℕ) (pre : List ℕ) :
    wienerNew paths (pre ++ [M]) corr rho = .ok ⟨paths, pre ++ [M], p⟩ := by
  have hl : (pre ++ [M]).getLast? = some M := by simp
  unfold wienerNew
  rw [h]
  cases p with
  | none => exact absurd rfl hp
  | arr a =>
    simp only [hl]
    rcases hs _ rfl with e | e <;> simp [Param.shape, e]
  | fn sh f =>
    simp only [hl]
    cases sh with
    | none => simp [Param.shape]
    | some s => rcases hs _ rfl with e | e <;> simp [Param.shape, e]

theorem corrInput_new {M : ℕ} {corr rho : RawParam ℝ} {C : Corr (Fin M)} (h : CorrInput M corr rho C)
    (paths : ℕ) (pre : List ℕ) :
    ∃ p, wienerNew paths (pre ++ [M]) corr rho = .ok ⟨paths, pre ++ [M], p⟩ ∧ CorrGives M p C := by
  cases h with
  | corr rho hc =>
    rename_i c
    refine ⟨.arr c, wienerNew_ok ?_ (by simp) (by rintro s ⟨⟩; exact hc) paths pre, .const hc⟩
    refine (C32_corr_overrides (by simp) rho).1 ?_
    rintro s ⟨⟩
    exact ⟨M, hc⟩
  | corrFn rho hf =>
    rename_i f C
    obtain ⟨c, h1, h2, h3⟩ := hf 1
    have hsh : (RawParam.fn f).setup = .fn (some [M, M]) f := by simp [RawParam.setup, h1, h2]
    refine ⟨_, wienerNew_ok ((C32_corr_overrides (by simp) rho).1 ?_) ?_ ?_ paths pre, ?_⟩
    · rw [hsh]; rintro s ⟨⟩; exact ⟨M, .inl rfl⟩
    · rw [hsh]; simp
    · rw [hsh]; rintro s ⟨⟩; exact .inl rfl
    · rw [hsh]
      refine .fn fun τ => ?_
      obtain ⟨c, h1, h2, h3⟩ := hf τ
      exact ⟨c, h1, h2, fun r k => by rw [← h3]; rfl⟩
  | rho hr =>
    rename_i n a r
    obtain ⟨c, h1, h2⟩ := C32_rho.2.1 a n r hr
    have := isMat_rho h2
    refine ⟨.arr c, wienerNew_ok h1 (by simp) (by rintro s ⟨⟩; exact .inl h2.1) paths pre, ?_⟩
    rw [← squareMatrix_isMat this]
    exact .const (.inl h2.1)
  | rhoFn hf =>
    rename_i n f r
    obtain ⟨a, h1, h2⟩ := hf 1
    obtain ⟨c, h3, h4⟩ := (C32_callable f).1 a n _ h1 h2
    refine ⟨_, wienerNew_ok h3 (by simp) (by rintro s ⟨⟩; exact .inl rfl) paths pre, .fn fun τ => ?_⟩
    obtain ⟨a, h1, h2⟩ := hf τ
    obtain ⟨C, h5, h6⟩ := ((h4 τ).2 a h1).1 n _ h2
    exact ⟨C, h5, isMat_rho h6⟩
  | rhoProc hf =>
    rename_i n f r
    obtain ⟨c, h3, h4⟩ := (C32_rho_process [n] 1 f).1 n rfl rfl
    refine ⟨_, wienerNew_ok h3 (by simp) (by rintro s ⟨⟩; exact .inl rfl) paths pre, .fn fun τ => ?_⟩
    obtain ⟨a, h1, h2⟩ := hf τ
    obtain ⟨C, h5, h6⟩ := ((h4 τ).2 a h1).1 n _ h2
    exact ⟨C, h5, isMat_rho h6⟩

/-- A new source is asked for values. -/
noncomputable def askNew {σ : Type} (paths : ℕ) (vshape : List ℕ) (corr rho : RawParam ℝ) (t0 rtol : ℝ) (z0 : Arr ℝ)
    (rng : Rng σ) (t : Arr ℝ) (dt : Option (Arr ℝ)) (s : σ) : Py (Arr ℝ × Mem ℝ (Arr ℝ) σ) :=
  match trueWienerNew paths vshape corr rho t0 z0 s with
  | .error e => .error e
  | .ok (W, m) => (trueWienerArr t0 rtol W rng).callArr t dt m

theorem askNew_eq {σ : Type} {paths : ℕ} {vshape : List ℕ} {corr rho : RawParam ℝ} {t0 rtol : ℝ} {z0 : Arr ℝ}
    {rng : Rng σ} {t : Arr ℝ} {dt : Option (Arr ℝ)} {p : Param ℝ} (hz : BcOk z0.shape (vshape ++ [paths]))
    (h : wienerNew paths vshape corr rho = .ok ⟨paths, vshape, p⟩) (s : σ) :
    askNew paths vshape corr rho t0 rtol z0 rng t dt s =
      (trueWienerArr t0 rtol ⟨paths, vshape, p⟩ rng).callArr t dt
        (Mem.new t0 ⟨vshape ++ [paths], z0.bget⟩ s) := by
  simp only [askNew, trueWienerNew, broadcastTo_eq _ _ hz, h]
  rfl

section
variable {Ω : Type} [MeasurableSpace Ω] {P : Measure Ω} [IsProbabilityMeasure P]
variable {N0 : ℕ → Ω → List ℕ → ℝ}
  {N : (M : ℕ) → ℕ → Matrix (Fin M) (Fin M) ℝ → Ω → List ℕ → Fin M → ℝ}

theorem drawsOf_ok {M : ℕ} (hN : Normals P (N M)) (hJ : JointlyGaussian P (N M)) :
    Draws P (drawsOf (N M)) ∧ GaussianDraws P (drawsOf (N M)) := by
  have hinj : Function.Injective (fun i : List ℕ × ℕ => i.1 ++ [i.2]) := by
    intro i j h
    obtain ⟨ha, hb⟩ := List.append_inj' h rfl
    simp only [List.cons.injEq, and_true] at hb
    exact Prod.ext ha hb
  exact ⟨draws_of_normals (normals_comp hN hinj), gaussianDraws_of_jointly
    (hJ.comp_right fun p : ℕ × Matrix (Fin M) (Fin M) ℝ × (List ℕ × ℕ) × Fin M =>
      (p.1, p.2.1, p.2.2.1.1 ++ [p.2.2.1.2], p.2.2.2))⟩

/-- **C82** (values). A Wiener source with memory with `M` correlated components, in the last axis of its values,
with constant correlations or callable ones that are never singular and are exactly integrated by the midpoint
rule: it returns, for times of any shape, values of shape `t.shape + vshape + (paths,)` that are those of a Wiener
process with these correlations, that starts from `z0`, broadcast. -/
theorem C82_law_partial {M : ℕ} {corr rho : RawParam ℝ} {C : Corr (Fin M)} (hin : CorrInput M corr rho C)
    {D : Set ℝ} {F : ℝ → Matrix (Fin M) (Fin M) ℝ} (hC : CorrOk C D F) (hN : Normals P (N M))
    (hJ : JointlyGaussian P (N M)) {paths : ℕ} {pre : List ℕ} {t0 rtol : ℝ} (hr : 0 ≤ rtol) (h0 : t0 ∈ D)
    {z0 : Arr ℝ} (hz : BcOk z0.shape (pre ++ [M] ++ [paths])) (t : Arr ℝ)
    (ht : ∀ i, InRange t.shape i → t.get i ∈ D) :
    ∃ (u : List ℕ → ℝ) (W : ℝ → Ω → List ℕ × ℕ → Fin M → ℝ),
      (∀ i, InRange t.shape i → |t.get i - u i| ≤ rtol * |u i|) ∧
      IsWienerProcess P F t0 (fun i k => z0.bget (i.1 ++ [(k : ℕ), i.2])) ({t0} ∪ u '' {i | InRange t.shape i}) W ∧
      ReturnsArr (fun ω => askNew paths (pre ++ [M]) corr rho t0 rtol z0 (seededRng N0 N) t none (ω, 0)) t.shape
        (pre ++ [M] ++ [paths]) (fun i (k : Fin M) => i.1 ++ [(k : ℕ), i.2]) (fun ω i => W (u i) ω) := by
  obtain ⟨p, h1, h2⟩ := corrInput_new hin paths pre
  simp only [askNew_eq hz h1]
  obtain ⟨hG, hGJ⟩ := drawsOf_ok hN hJ
  exact callArr_law (wiener_sim paths pre h2 t0 rtol) hC hG hGJ hr h0
    (z := ⟨pre ++ [M] ++ [paths], z0.bget⟩) ⟨rfl, fun i k _ => rfl⟩ t ht

/-- **C82** (increments). Likewise, increments are those of a Wiener process. -/
theorem C82_increments_partial {M : ℕ} {corr rho : RawParam ℝ} {C : Corr (Fin M)} (hin : CorrInput M corr rho C)
    {D : Set ℝ} {F : ℝ → Matrix (Fin M) (Fin M) ℝ} (hC : CorrOk C D F) (hN : Normals P (N M))
    (hJ : JointlyGaussian P (N M)) {paths : ℕ} {pre : List ℕ} {t0 rtol : ℝ} (hr : 0 ≤ rtol) (h0 : t0 ∈ D)
    {z0 : Arr ℝ} (hz : BcOk z0.shape (pre ++ [M] ++ [paths])) {t dt : Arr ℝ} {sh : List ℕ}
    (hb : bcShape t.shape dt.shape = some sh)
    (ht : ∀ i, InRange sh i → t.bget i ∈ D ∧ t.bget i + dt.bget i ∈ D) :
    ∃ (u v : List ℕ → ℝ) (W : ℝ → Ω → List ℕ × ℕ → Fin M → ℝ),
      (∀ i, InRange sh i → |t.bget i - u i| ≤ rtol * |u i| ∧ |t.bget i + dt.bget i - v i| ≤ rtol * |v i|) ∧
      IsWienerProcess P F t0 (fun i k => z0.bget (i.1 ++ [(k : ℕ), i.2]))
        ({t0} ∪ u '' {i | InRange sh i} ∪ v '' {i | InRange sh i}) W ∧
      ReturnsArr (fun ω => askNew paths (pre ++ [M]) corr rho t0 rtol z0 (seededRng N0 N) t (some dt) (ω, 0)) sh
        (pre ++ [M] ++ [paths]) (fun i (k : Fin M) => i.1 ++ [(k : ℕ), i.2])
        (fun ω i => W (v i) ω - W (u i) ω) := by
  obtain ⟨p, h1, h2⟩ := corrInput_new hin paths pre
  simp only [askNew_eq hz h1]
  obtain ⟨hG, hGJ⟩ := drawsOf_ok hN hJ
  exact callArr_incr (wiener_sim paths pre h2 t0 rtol) hC hG hGJ hr h0
    (z := ⟨pre ++ [M] ++ [paths], z0.bget⟩) ⟨rfl, fun i k _ => rfl⟩ hb ht

theorem std_normals (h0 : StdNormals P N0) (hJ : IsGaussianProcess (fun (p : ℕ × List ℕ) ω => N0 p.1 ω p.2) P) :
    ∃ N' : ℕ → Matrix Unit Unit ℝ → Ω → List ℕ → Unit → ℝ, Normals P N' ∧ JointlyGaussian P N' ∧
      ∀ n, N' n 1 = fun ω i _ => N0 n ω i := by
  obtain ⟨N', hN', h1, hJ'⟩ := normals_of_std (P := P) (ι := List ℕ) (κ := Unit)
    (X := fun n ω i _ => N0 n ω i)
    (fun n i k => h0.l2 n _) (fun n i => by funext k; exact h0.mean n _) (by
      intro n i m j
      ext k l
      simp only [covM]
      rw [h0.cov]
      by_cases hnm : n = m ∧ i = j
      · simp [hnm, Matrix.one_apply]
      · rw [if_neg hnm, if_neg hnm]; rfl)
  exact ⟨N', hN', hJ' (hJ.comp_right fun p : ℕ × List ℕ × Unit => (p.1, p.2.1)),
    fun n => by funext ω i; exact h1 n ω i⟩

/-- **C82** (independent components). With no correlations, values of any shape, scalar ones among them, are those of
independent standard Wiener processes. -/
theorem C82_plain (h0 : StdNormals P N0) (hJ : IsGaussianProcess (fun (p : ℕ × List ℕ) ω => N0 p.1 ω p.2) P)
    {paths : ℕ} {vshape : List ℕ} (t0 : ℝ) {rtol : ℝ} (hr : 0 ≤ rtol) {z0 : Arr ℝ}
    (hz : BcOk z0.shape (vshape ++ [paths])) (t : Arr ℝ) :
    ∃ (u : List ℕ → ℝ) (W : ℝ → Ω → List ℕ → Unit → ℝ),
      (∀ i, InRange t.shape i → |t.get i - u i| ≤ rtol * |u i|) ∧
      IsWienerProcess P (fun t => t • 1) t0 (fun i _ => z0.bget i) ({t0} ∪ u '' {i | InRange t.shape i}) W ∧
      ReturnsArr (fun ω => askNew paths vshape .none .none t0 rtol z0 (seededRng N0 N) t none (ω, 0)) t.shape
        (vshape ++ [paths]) (fun i _ => i) (fun ω i => W (u i) ω) := by
  obtain ⟨N', hN', hJ', h1⟩ := std_normals h0 hJ
  have hnew : wienerNew paths vshape .none .none = .ok ⟨paths, vshape, .none⟩ := rfl
  simp only [askNew_eq hz hnew]
  exact callArr_law (plain_sim h1 paths vshape t0 rtol) corrOk_none (draws_of_normals hN')
    (gaussianDraws_of_jointly hJ') hr (Set.mem_univ _) (z := ⟨vshape ++ [paths], z0.bget⟩) ⟨rfl, fun i k _ => rfl⟩ t fun _ _ => Set.mem_univ _

/-- **C82** (independent components, increments). -/
theorem C82_plain_increments (h0 : StdNormals P N0)
    (hJ : IsGaussianProcess (fun (p : ℕ × List ℕ) ω => N0 p.1 ω p.2) P)
    {paths : ℕ} {vshape : List ℕ} (t0 : ℝ) {rtol : ℝ} (hr : 0 ≤ rtol) {z0 : Arr ℝ}
    (hz : BcOk z0.shape (vshape ++ [paths])) {t dt : Arr ℝ} {sh : List ℕ}
    (hb : bcShape t.shape dt.shape = some sh) :
    ∃ (u v : List ℕ → ℝ) (W : ℝ → Ω → List ℕ → Unit → ℝ),
      (∀ i, InRange sh i → |t.bget i - u i| ≤ rtol * |u i| ∧ |t.bget i + dt.bget i - v i| ≤ rtol * |v i|) ∧
      IsWienerProcess P (fun t => t • 1) t0 (fun i _ => z0.bget i)
        ({t0} ∪ u '' {i | InRange sh i} ∪ v '' {i | InRange sh i}) W ∧
      ReturnsArr (fun ω => askNew paths vshape .none .none t0 rtol z0 (seededRng N0 N) t (some dt) (ω, 0)) sh
        (vshape ++ [paths]) (fun i _ => i) (fun ω i => W (v i) ω - W (u i) ω) := by
  obtain ⟨N', hN', hJ', h1⟩ := std_normals h0 hJ
  have hnew : wienerNew paths vshape .none .none = .ok ⟨paths, vshape, .none⟩ := rfl
  simp only [askNew_eq hz hnew]
  exact callArr_incr (plain_sim h1 paths vshape t0 rtol) corrOk_none (draws_of_normals hN')
    (gaussianDraws_of_jointly hJ') hr (Set.mem_univ _) (z := ⟨vshape ++ [paths], z0.bget⟩) ⟨rfl, fun i k _ => rfl⟩ hb
    fun _ _ => ⟨Set.mem_univ _, Set.mem_univ _⟩

end

/-! ### what fails -/

theorem get_error {Z V σ : Type} {S : TrueSrc ℝ Z V σ} {z0 z0' z1 : Z} {st st' : σ} {e : PyErr}
    (h1 : S.outside z0 0 1 st = .ok ((z0', z1), st')) (h2 : S.inside z0' z1 0 1 (1 / 2) st' = .error e) :
    S.getList [1, 1 / 2] (Mem.new 0 z0 st) = .error e := by
  have hb1 : bisectRight [(0 : ℝ)] 1 = 1 := by norm_num [bisectRight, bisectGo]
  have hb2 : bisectRight [(0 : ℝ), 1] (1 / 2) = 1 := by norm_num [bisectRight, bisectGo]
  have g1 : S.get1 1 (Mem.new 0 z0 st) = .ok (S.getvalue z1, ⟨[0, 1], [z0', z1], st'⟩) := by
    unfold TrueSrc.get1
    simp only [Mem.new, hb1]
    simp [isClose, h1]
  have g2 : S.get1 (1 / 2) ⟨[0, 1], [z0', z1], st'⟩ = .error e := by
    unfold TrueSrc.get1
    simp only [hb2]
    rw [one_div] at h2
    simp [isClose, h2]
  simp only [TrueSrc.getList, g1, g2]

theorem get_one {Z V σ : Type} {S : TrueSrc ℝ Z V σ} {z0 z0' z1 : Z} {st st' : σ}
    (h1 : S.outside z0 0 1 st = .ok ((z0', z1), st')) :
    S.getList [1] (Mem.new 0 z0 st) = .ok ([S.getvalue z1], ⟨[0, 1], [z0', z1], st'⟩) := by
  have hb1 : bisectRight [(0 : ℝ)] 1 = 1 := by norm_num [bisectRight, bisectGo]
  have g1 : S.get1 1 (Mem.new 0 z0 st) = .ok (S.getvalue z1, ⟨[0, 1], [z0', z1], st'⟩) := by
    unfold TrueSrc.get1
    simp only [Mem.new, hb1]
    simp [isClose, h1]
  simp only [TrueSrc.getList, g1]

section
variable {σ : Type}

theorem call_shape {M : ℕ} (paths : ℕ) (pre : List ℕ) {c : Arr ℝ} (rng : Rng σ)
    (hc : c.shape = [M, M] ∨ c.shape = [M, M, 1]) (t dt : ℝ) (s : σ) :
    ∃ d s', wienerCall ⟨paths, pre ++ [M], .arr c⟩ rng (.scalar t) (.scalar dt) s = .ok (d, s') ∧
      d.shape = pre ++ [M] ++ [paths] := by
  have hb : broadcast2 (Arr.scalar t) (Arr.scalar dt) = .ok (.scalar t, .scalar dt) := rfl
  have hlast : (pre ++ [M]).getLast? = some M := by simp
  obtain ⟨cov, hcov, hs, hm⟩ := covOf_eq hc
  refine ⟨_, _, by
    simp only [wienerCall, hb, wienerStd, hlast, hcov, Rng.mvnZ, hs, if_true, List.dropLast_concat]
    rw [if_neg (not_not.2 (by
      rw [swapaxes_shape _ (l := (Arr.scalar dt).shape ++ pre) (x := paths) (y := M) (by simp)]
      simp))], ?_⟩
  simp only
  rw [swapaxes_shape _ (l := (Arr.scalar dt).shape ++ pre) (x := paths) (y := M) (by simp)]
  simp [Arr.scalar]

theorem call_shape_fn {M : ℕ} (paths : ℕ) (pre : List ℕ) {sh : Option (List ℕ)} {f : ℝ → Py (Arr ℝ)} (rng : Rng σ)
    (hf : ∀ τ, ∃ c, f τ = .ok c ∧ (c.shape = [M, M] ∨ c.shape = [M, M, 1])) (t dt : ℝ) (s : σ) :
    ∃ d s', wienerCall ⟨paths, pre ++ [M], .fn sh f⟩ rng (.scalar t) (.scalar dt) s = .ok (d, s') ∧
      d.shape = pre ++ [M] ++ [paths] := by
  have hb : broadcast2 (Arr.scalar t) (Arr.scalar dt) = .ok (.scalar t, .scalar dt) := rfl
  have hlast : (pre ++ [M]).getLast? = some M := by simp
  have hnd : ndindex (Arr.scalar dt).shape = [[]] := rfl
  obtain ⟨c, h1, h2⟩ := hf ((Arr.scalar t).get [] + (Arr.scalar dt).get [] / 2)
  obtain ⟨cov, hcov, hs, hm⟩ := covOf_eq h2
  refine ⟨_, _, by
    simp only [wienerCall, hb, wienerStd, hlast, hnd, loopIdx, wienerBody, h1, hcov, Rng.mvnZ, hs, if_true,
      List.dropLast_concat]
    rw [if_neg (not_not.2 (by
      rw [swapaxes_shape _ (l := (Arr.scalar dt).shape ++ pre) (x := paths) (y := M) (by simp [assemble])]
      simp))], ?_⟩
  simp only
  rw [swapaxes_shape _ (l := (Arr.scalar dt).shape ++ pre) (x := paths) (y := M) (by simp [assemble])]
  simp [Arr.scalar]

theorem outside_fn {M : ℕ} (paths : ℕ) (pre : List ℕ) {sh : Option (List ℕ)} {f : ℝ → Py (Arr ℝ)} (rng : Rng σ)
    (hf : ∀ τ, ∃ c, f τ = .ok c ∧ (c.shape = [M, M] ∨ c.shape = [M, M, 1])) {z : Arr ℝ}
    (hz : z.shape = pre ++ [M] ++ [paths]) (s : σ) :
    ∃ w s', arrOutside 0 ⟨paths, pre ++ [M], .fn sh f⟩ rng z 0 1 s = .ok ((z, w), s') := by
  obtain ⟨c, h1, h2⟩ := hf ((0 + 1) / 2)
  obtain ⟨d, s', h3, h4⟩ := call_shape paths pre rng h2 0 (1 - 0) s
  obtain ⟨w, h5, -, -⟩ := binop_same (· + ·) (hz.trans h4.symm)
  refine ⟨w, s', ?_⟩
  have ha : pyAssert (((0 : ℝ) ≤ 0 ∧ (0 : ℝ) < 1) ∨ ((1 : ℝ) < 0 ∧ (0 : ℝ) ≤ 0)) = .ok () := by simp [pyAssert]
  simp only [arrOutside, ha, bind, Except.bind, pure, Except.pure, Param.fixAt, h1, h3, h5]

theorem bridge_trailing {M : ℕ} {W : WienerSrc} {sh : Option (List ℕ)} {f : ℝ → Py (Arr ℝ)} (hW : W.corr = .fn sh f)
    (hf : ∀ τ, ∃ c, f τ = .ok c ∧ c.shape = [M, M, 1]) (rng : Rng σ) (w1 w2 : Arr ℝ) (t1 t2 s : ℝ) (st : σ) :
    arrBridge W rng w1 w2 t1 t2 s st = .error .valueError := by
  obtain ⟨cA, a1, a2⟩ := hf ((t1 + s) / 2)
  obtain ⟨cB, b1, b2⟩ := hf ((s + t2) / 2)
  obtain ⟨AB, k1, k2, -⟩ := binop_same (· + ·) (a := cA.scale (s - t1)) (b := cB.scale (t2 - s)) (a2.trans b2.symm)
  have k3 : AB.shape = [M, M, 1] := k2.trans a2
  simp only [arrBridge, hW, bind, Except.bind, a1, b1, k1]
  by_cases hM : M = 1
  · subst hM
    cases hV : npInv AB with
    | error e =>
      have : e = .valueError := by
        simp only [npInv, k3, List.reverse_cons, List.reverse_nil, List.nil_append, List.cons_append, ne_eq,
          not_true_eq_false, if_false] at hV
        split at hV <;> simp_all
      rw [this]
    | ok V =>
      have hVs : V.shape = [1, 1, 1] := by
        simp only [npInv, k3, List.reverse_cons, List.reverse_nil, List.nil_append, List.cons_append, ne_eq,
          not_true_eq_false, if_false] at hV
        split at hV
        · simp at hV
        · cases hV; rfl
      have hB : (cB.scale (t2 - s)).shape = [1, 1, 1] := b2
      have hA : (cA.scale (s - t1)).shape = [1, 1, 1] := a2
      have hb : bcShape [1] [1] = some [1] := rfl
      simp [npMatmul, hB, hVs, hA, wienerMult, hb]
  · have : npInv AB = .error .valueError := by
      simp [npInv, k3, hM]
    simp only [this]

/-- **C82**, what does not hold: correlations given as a deterministic process with matrix values, so that its values
have shape `(M, M, 1)`, are accepted by `wiener_source`, that returns increments. They are accepted by a source with
memory too, and the value at time 1 is returned; but asking for the values at 1 and 1/2 always raises a
`ValueError`. -/
theorem C82_trailing_axis_false {M : ℕ} (paths : ℕ) (pre : List ℕ) {f : ℝ → Py (Arr ℝ)}
    (hf : ∀ τ, ∃ c, f τ = .ok c ∧ c.shape = [M, M, 1]) (rng : Rng σ) {z0 : Arr ℝ}
    (hz : BcOk z0.shape (pre ++ [M] ++ [paths])) (rtol : ℝ) (s : σ) :
    (∃ W, wienerNew paths (pre ++ [M]) (.proc [M, M] 1 f) .none = .ok W ∧ ∀ t dt s, ∃ d s',
      wienerCall W rng (.scalar t) (.scalar dt) s = .ok (d, s') ∧ d.shape = pre ++ [M] ++ [paths]) ∧
    (∃ r, askNew paths (pre ++ [M]) (.proc [M, M] 1 f) .none 0 rtol z0 rng (.scalar 1) none s = .ok r) ∧
    askNew paths (pre ++ [M]) (.proc [M, M] 1 f) .none 0 rtol z0 rng ⟨[2], fun i => if i = [0] then 1 else 1 / 2⟩ none s =
      .error .valueError := by
  have hf' : ∀ τ, ∃ c, f τ = .ok c ∧ (c.shape = [M, M] ∨ c.shape = [M, M, 1]) := fun τ => by
    obtain ⟨c, h1, h2⟩ := hf τ
    exact ⟨c, h1, .inr h2⟩
  have hnew : wienerNew paths (pre ++ [M]) (.proc [M, M] 1 f) .none =
      .ok ⟨paths, pre ++ [M], .fn (some [M, M, 1]) f⟩ :=
    wienerNew_ok ((C32_corr_process [M, M] 1 f .none).1 ⟨M, .inl ⟨rfl, rfl⟩⟩) (by simp)
      (by rintro s ⟨⟩; exact .inr rfl) paths pre
  obtain ⟨w, s', h1⟩ := outside_fn paths pre (sh := some [M, M, 1]) rng hf'
    (z := ⟨pre ++ [M] ++ [paths], z0.bget⟩) rfl s
  refine ⟨⟨_, hnew, fun t dt s => call_shape_fn paths pre rng hf' t dt s⟩, ?_, ?_⟩
  · rw [askNew_eq hz hnew]
    have hl : (ndindex (Arr.scalar (1 : ℝ)).shape).map (Arr.scalar (1 : ℝ)).get = [1] := rfl
    have := get_one (S := trueWienerArr 0 rtol ⟨paths, pre ++ [M], .fn (some [M, M, 1]) f⟩ rng) h1
    simp only [TrueSrc.callArr, TrueSrc.call, hl, this]
    exact ⟨_, rfl⟩
  · rw [askNew_eq hz hnew]
    have hl : (ndindex [2]).map (fun i : List ℕ => if i = [0] then (1 : ℝ) else 1 / 2) = [1, 1 / 2] := by
      simp [ndindex, List.range_succ]
    have ha : pyAssert (((0 : ℝ) ≤ 0 ∧ (0 : ℝ) < 1 / 2 ∧ (1 / 2 : ℝ) < 1) ∨
        ((1 : ℝ) < 1 / 2 ∧ (1 / 2 : ℝ) < 0 ∧ (0 : ℝ) ≤ 0)) = .ok () := by
      rw [pyAssert, if_pos]
      norm_num
    have := get_error (S := trueWienerArr 0 rtol ⟨paths, pre ++ [M], .fn (some [M, M, 1]) f⟩ rng)
      (e := .valueError) h1 (by
        simp only [trueWienerArr, arrInside, if_neg (show ¬ (1 : ℝ) ≤ 0 by norm_num), ha, bind, Except.bind,
          bridge_trailing (W := ⟨paths, pre ++ [M], .fn (some [M, M, 1]) f⟩) rfl hf])
    simp only [TrueSrc.callArr, TrueSrc.call, hl, this]

theorem bridge_singular {M : ℕ} {W : WienerSrc} {sh : Option (List ℕ)} {f : ℝ → Py (Arr ℝ)} (hW : W.corr = .fn sh f)
    {C : ℝ → Matrix (Fin M) (Fin M) ℝ} (hf : ∀ τ, ∃ c, f τ = .ok c ∧ IsMat c (C τ)) {t1 t2 s : ℝ}
    (hd : ((s - t1) • C ((t1 + s) / 2) + (t2 - s) • C ((s + t2) / 2)).det = 0) (rng : Rng σ) (w1 w2 : Arr ℝ)
    (st : σ) : arrBridge W rng w1 w2 t1 t2 s st = .error .valueError := by
  obtain ⟨cA, a1, a2⟩ := hf ((t1 + s) / 2)
  obtain ⟨cB, b1, b2⟩ := hf ((s + t2) / 2)
  obtain ⟨AB, k1, k2⟩ := isMat_add (isMat_scale a2 (s - t1)) (isMat_scale b2 (t2 - s))
  simp only [arrBridge, hW, bind, Except.bind, a1, b1, k1, (isMat_inv k2).1 hd]

/-- **C82**, what does not hold: perfect correlation, `rho = 1`, is accepted as a constant (`C82_law_partial`), and
by `wiener_source` as a function of time; but a source with memory that gets it as a function of time raises a
`ValueError` (`LinAlgError`) when asked for the values at 1 and 1/2. -/
theorem C82_singular_false (paths : ℕ) (pre : List ℕ) (rng : Rng σ) {z0 : Arr ℝ}
    (hz : BcOk z0.shape (pre ++ [2] ++ [paths])) (rtol : ℝ) (s : σ) :
    (∃ W, wienerNew paths (pre ++ [2]) .none (.fn fun _ => .ok (.scalar 1)) = .ok W ∧ ∀ t dt s, ∃ d s',
      wienerCall W rng (.scalar t) (.scalar dt) s = .ok (d, s') ∧ d.shape = pre ++ [2] ++ [paths]) ∧
    askNew paths (pre ++ [2]) .none (.fn fun _ => .ok (.scalar 1)) 0 rtol z0 rng
      ⟨[2], fun i => if i = [0] then 1 else 1 / 2⟩ none s = .error .valueError := by
  obtain ⟨p, hnew, hp⟩ := corrInput_new (CorrInput.rhoFn (n := 1) (f := fun _ => .ok (.scalar 1))
    (r := fun _ _ => 1) fun τ => ⟨_, rfl, .scalar _⟩) paths pre
  generalize hCC : (Corr.fn fun τ : ℝ => rhoCorr 1 ((fun _ _ => 1) τ)) = CC at hp
  cases hp with
  | const h => cases hCC
  | fn hf =>
    rename_i sh f C
    cases hCC
    replace hnew : wienerNew paths (pre ++ [2]) .none (.fn fun _ => .ok (.scalar 1)) =
      .ok ⟨paths, pre ++ [2], .fn sh f⟩ := hnew
    have hf' : ∀ τ, ∃ c, f τ = .ok c ∧ (c.shape = [2, 2] ∨ c.shape = [2, 2, 1]) := fun τ => by
      obtain ⟨c, h1, h2⟩ := hf τ
      exact ⟨c, h1, .inl h2.1⟩
    obtain ⟨w, s', h1⟩ := outside_fn paths pre (sh := sh) rng hf'
      (z := ⟨pre ++ [2] ++ [paths], z0.bget⟩) rfl s
    refine ⟨⟨_, hnew, fun t dt s => call_shape_fn paths pre rng hf' t dt s⟩, ?_⟩
    rw [askNew_eq hz hnew]
    have hl : (ndindex [2]).map (fun i : List ℕ => if i = [0] then (1 : ℝ) else 1 / 2) = [1, 1 / 2] := by
      simp [ndindex, List.range_succ]
    have ha : pyAssert (((0 : ℝ) ≤ 0 ∧ (0 : ℝ) < 1 / 2 ∧ (1 / 2 : ℝ) < 1) ∨
        ((1 : ℝ) < 1 / 2 ∧ (1 / 2 : ℝ) < 0 ∧ (0 : ℝ) ≤ 0)) = .ok () := by
      rw [pyAssert, if_pos]
      norm_num
    have hd : (((1 / 2 : ℝ) - 0) • rhoCorr 1 (fun _ => 1) + ((1 : ℝ) - 1 / 2) • rhoCorr 1 (fun _ => 1)).det = 0 := by
      rw [← add_smul, show ((1 / 2 : ℝ) - 0) + (1 - 1 / 2) = 1 by norm_num, one_smul]
      change (rhoCorr 1 (fun _ => 1) : Matrix (Fin 2) (Fin 2) ℝ).det = 0
      rw [Matrix.det_fin_two]
      simp [rhoCorr]
    have := get_error (S := trueWienerArr 0 rtol ⟨paths, pre ++ [2], .fn sh f⟩ rng)
      (e := .valueError) h1 (by
        simp only [trueWienerArr, arrInside, if_neg (show ¬ (1 : ℝ) ≤ 0 by norm_num), ha, bind, Except.bind,
          bridge_singular (W := ⟨paths, pre ++ [2], .fn sh f⟩) rfl hf hd])
    simp only [TrueSrc.callArr, TrueSrc.call, hl, this]

end

/-! ### The hypotheses can be met -/

theorem rhoCorr_psd {r : ℝ} (h : r ^ 2 ≤ 1) : (rhoCorr 1 (fun _ => r)).PosSemidef := by
  have e : rhoCorr 1 (fun _ => r) = (!![1, r; r, 1] : Matrix (Fin 2) (Fin 2) ℝ) := by
    ext i j
    fin_cases i <;> fin_cases j <;> simp [rhoCorr]
  rw [e]
  refine Matrix.PosSemidef.of_dotProduct_mulVec_nonneg ?_ ?_
  · ext i j; fin_cases i <;> fin_cases j <;> simp [Matrix.conjTranspose]
  · intro x
    simp [Matrix.mulVec, dotProduct, Fin.sum_univ_two]
    nlinarith [sq_nonneg (x 0 + r * x 1), sq_nonneg (x 1), mul_nonneg (sub_nonneg.2 h) (sq_nonneg (x 1))]

/-- Perfect correlation as a constant: asking for the values at 1 and 1/2, of a source with values of shape `(3, 2)` and
4 paths that starts from 5. -/
example : ∃ (Ω : Type) (_ : MeasurableSpace Ω) (P : Measure Ω) (rng : Rng (Ω × ℕ)) (u : List ℕ → ℝ)
    (W : ℝ → Ω → List ℕ × ℕ → Fin 2 → ℝ), (∀ i, InRange [2] i → u i = if i = [0] then 1 else 1 / 2) ∧
      IsWienerProcess P (fun t => t • rhoCorr 1 fun _ => 1) 0 (fun _ _ => 5) ({0} ∪ u '' {i | InRange [2] i}) W ∧
      ReturnsArr (fun ω => askNew 4 [3, 2] .none (.arr (.scalar 1)) 0 0 (.scalar 5) rng
        ⟨[2], fun i => if i = [0] then 1 else 1 / 2⟩ none (ω, 0)) [2] [3, 2, 4]
        (fun i (k : Fin 2) => i.1 ++ [(k : ℕ), i.2]) (fun ω i => W (u i) ω) := by
  obtain ⟨Ω, mΩ, P, N0, N, hP, h0, -, hN, hJ0, hJ⟩ := exists_rng
  obtain ⟨u, W, h1, h2, h3⟩ := C82_law_partial (N0 := N0) (N := N) (paths := 4) (pre := [3])
    (CorrInput.rho (n := 1) (a := .scalar 1) (r := fun _ => 1) (.scalar _))
    (corrOk_const (rhoCorr_psd (by norm_num))) (hN 2) (hJ 2) le_rfl (Set.mem_univ 0) (z0 := .scalar 5)
    (bcOk_scalar _ _) ⟨[2], fun i => if i = [0] then 1 else 1 / 2⟩ (fun _ _ => Set.mem_univ _)
  refine ⟨Ω, mΩ, P, seededRng N0 N, u, W, fun i hi => ?_, h2, h3⟩
  have := h1 i hi
  rw [zero_mul, abs_nonpos_iff, sub_eq_zero] at this
  exact this.symm

/-- A correlation that grows linearly with time, `rho(t) = t/2`, on the interval from 0 to 1. -/
example : ∃ (C : Corr (Fin 2)) (F : ℝ → Matrix (Fin 2) (Fin 2) ℝ),
    CorrInput 2 .none (.fn fun t => .ok (.scalar (t / 2))) C ∧ CorrOk C (Set.Icc 0 1) F := by
  have e : ∀ t : ℝ, rhoCorr 1 (fun _ => t / 2) =
      (1 : Matrix (Fin 2) (Fin 2) ℝ) + t • (!![0, 1/2; 1/2, 0] : Matrix (Fin 2) (Fin 2) ℝ) := by
    intro t
    ext i j
    fin_cases i <;> fin_cases j <;> simp [rhoCorr] <;> ring
  refine ⟨_, fun t => t • 1 + (t ^ 2 / 2) • !![0, 1/2; 1/2, 0],
    CorrInput.rhoFn (n := 1) (r := fun t _ => t / 2) fun τ => ⟨_, rfl, .scalar _⟩, ?_⟩
  have : (Corr.fn fun τ : ℝ => rhoCorr 1 fun _ => τ / 2) = .fn fun t => (1 : Matrix (Fin 2) (Fin 2) ℝ) +
      t • (!![0, 1/2; 1/2, 0] : Matrix (Fin 2) (Fin 2) ℝ) := congrArg Corr.fn (funext e)
  rw [this]
  apply corrOk_linear
  intro t ht
  refine Matrix.PosDef.of_dotProduct_mulVec_pos ?_ ?_
  · ext i j
    fin_cases i <;> fin_cases j <;> simp
  · intro x hx
    have hx' : x 0 ≠ 0 ∨ x 1 ≠ 0 := by
      by_contra h
      push Not at h
      apply hx
      funext i
      fin_cases i
      · exact h.1
      · exact h.2
    simp [Matrix.mulVec, dotProduct, Fin.sum_univ_two, Matrix.add_apply, Matrix.smul_apply]
    obtain ⟨h1, h2⟩ := ht
    rcases hx' with h | h
    · have := sq_pos_of_ne_zero h
      nlinarith [sq_nonneg (x 0 + x 1), sq_nonneg (x 0 - x 1), sq_nonneg (x 1)]
    · have := sq_pos_of_ne_zero h
      nlinarith [sq_nonneg (x 0 + x 1), sq_nonneg (x 0 - x 1), sq_nonneg (x 0)]

/-- Correlations given as a process, equal to the unit matrix at all times. -/
example : (∀ τ : ℝ, ∃ c, (fun _ : ℝ => (.ok ⟨[2, 2, 1], fun i => if i = [0, 0, 0] ∨ i = [1, 1, 0] then 1 else 0⟩ :
    Py (Arr ℝ))) τ = .ok c ∧ c.shape = [2, 2, 1]) ∧ BcOk (Arr.scalar (0 : ℝ)).shape ([] ++ [2] ++ [3]) :=
  ⟨fun _ => ⟨_, rfl, rfl⟩, bcOk_scalar _ _⟩

/-- Independent scalar values: increments over steps of 1/2, from times 0 and 1. -/
example : ∃ (Ω : Type) (_ : MeasurableSpace Ω) (P : Measure Ω) (N0 : ℕ → Ω → List ℕ → ℝ), IsProbabilityMeasure P ∧
    StdNormals P N0 ∧ IsGaussianProcess (fun (p : ℕ × List ℕ) ω => N0 p.1 ω p.2) P ∧
    BcOk (Arr.scalar (0 : ℝ)).shape ([] ++ [3]) ∧
    bcShape (⟨[2], fun i => i.headD 0⟩ : Arr ℝ).shape (Arr.scalar (1 / 2 : ℝ)).shape = some [2] := by
  obtain ⟨Ω, mΩ, P, N0, N, hP, h0, -, hN, hJ0, hJ⟩ := exists_rng
  exact ⟨Ω, mΩ, P, N0, hP, h0, hJ0, bcOk_scalar _ _, rfl⟩

end Sdepy
