import Verif.Spec.Params
import Mathlib.Algebra.Order.Star.Real
import Mathlib.Data.Matrix.Block
import Mathlib.Logic.Equiv.Fin.Basic
import Mathlib.Tactic.Linarith
import Mathlib.Tactic.Ring
import Mathlib.Tactic.NormNum

/-!
# Correlation matrices (C32), set up of sources (C57)
-/

open Matrix

namespace Sdepy

open Spec

section
variable {K : Type} [Zero K] [One K]

/-- **C32**, the matrix: correlations `rho`, whether a scalar, a vector, or a vector with a trailing
axis of size 1, give the matrix with unit diagonal that correlates the `i`-th and `n + i`-th
values by `rho[i]`, and no others. -/
theorem C32_rho_matrix {rho : Arr K} {n : ℕ} {r : ℕ → K} (h : RhoArr rho n r) :
    ∃ C, rhoToCorr rho = .ok C ∧ RhoMatrix n r C := by
  have key : ∀ (n : ℕ) (v : ℕ → K),
      RhoMatrix n v (hcat (vcat (npEye n) (npDiag n v)) (vcat (npDiag n v) (npEye n))) := by
    intro n v
    refine ⟨by simp [hcat, vcat, npEye, npDiag, two_mul], ?_⟩
    intro i hi j hj
    show (if j < n then (if i < n then (if i = j then 1 else 0)
        else if i - n = j then v (i - n) else 0)
      else (if i < n then (if i = j - n then v i else 0)
        else if i - n = j - n then 1 else 0)) = _
    split_ifs <;> first | rfl | omega | (congr; done) | (congr 1; omega)
  have one : ∀ x : K, RhoMatrix 1 (fun _ => x)
      ⟨[2, 2], fun i => if i = [0, 1] ∨ i = [1, 0] then x else 1⟩ := by
    intro x
    refine ⟨rfl, ?_⟩
    intro i hi j hj
    have h1 : i = 0 ∨ i = 1 := by omega
    have h2 : j = 0 ∨ j = 1 := by omega
    rcases h1 with rfl | rfl <;> rcases h2 with rfl | rfl <;> simp
  cases h with
  | scalar g => exact ⟨_, by simp [rhoToCorr], one (g [])⟩
  | vec n g =>
    by_cases hn : n = 1
    · subst hn
      refine ⟨⟨[2, 2], fun i => if i = [0, 1] ∨ i = [1, 0] then g [0] else 1⟩,
        by simp [rhoToCorr], ?_⟩
      have := one (g [0])
      refine ⟨this.1, fun i hi j hj => ?_⟩
      rw [this.2 i hi j hj]
      rcases (by omega : i = 0 ∨ i = 1) with rfl | rfl <;>
        rcases (by omega : j = 0 ∨ j = 1) with rfl | rfl <;> simp
    · exact ⟨_, by simp [rhoToCorr, hn], key n _⟩
  | vec1 n g =>
    by_cases hn : n = 1
    · subst hn
      refine ⟨⟨[2, 2], fun i => if i = [0, 1] ∨ i = [1, 0] then g [0, 0] else 1⟩,
        by simp [rhoToCorr], ?_⟩
      have := one (g [0, 0])
      refine ⟨this.1, fun i hi j hj => ?_⟩
      rw [this.2 i hi j hj]
      rcases (by omega : i = 0 ∨ i = 1) with rfl | rfl <;>
        rcases (by omega : j = 0 ∨ j = 1) with rfl | rfl <;> simp
    · exact ⟨_, by simp [rhoToCorr, hn], key n _⟩

/-- **C32**, rejections: an array `rho` that is not a scalar nor a vector, possibly with a trailing
axis of size 1, is a `ValueError`. -/
theorem C32_rho_rejected {rho : Arr K} (h : ¬ ∃ n r, RhoArr rho n r) :
    rhoToCorr rho = .error .valueError := by
  obtain ⟨s, g⟩ := rho
  unfold rhoToCorr
  simp only
  rw [if_pos]
  rintro (h1 | h1 | h1)
  · subst h1; exact h ⟨_, _, .scalar g⟩
  · generalize s.prod = n at h1
    subst h1; exact h ⟨_, _, .vec n g⟩
  · generalize s.prod = n at h1
    subst h1; exact h ⟨_, _, .vec1 n g⟩

theorem badCorrShape_iff (s : List ℕ) : badCorrShape (some s) ↔ ¬ SquareShape s := by
  unfold badCorrShape SquareShape
  split
  · simp_all
  · rename_i a b h; cases h
    simp only [List.cons.injEq, reduceCtorEq, and_false, and_true, or_false, ne_eq, not_exists,
      not_and]
    exact ⟨by rintro h x rfl rfl; exact h rfl, by rintro h rfl; exact h a rfl rfl⟩
  · rename_i a b c h; cases h
    simp only [List.cons.injEq, reduceCtorEq, and_false, and_true, false_or, ne_eq, not_exists,
      not_and]
    constructor
    · rintro (h | h) x rfl rfl
      · exact absurd rfl h
      · exact h
    · intro h
      by_cases hab : a = b
      · subst hab; exact .inr (h a rfl rfl)
      · exact .inl hab
  · rename_i s' h2 h3 h; cases h
    simp only [true_iff, not_exists, not_or]
    intro n
    constructor
    · rintro rfl; exact h2 _ _ rfl
    · rintro rfl; exact h3 _ _ _ rfl

/-- **C32**, correlations given as `corr`: `rho` is ignored, and the matrix is used as it is, unless
its shape (that of a test value, for callables) is known, and is not that of a square matrix,
possibly with a trailing axis of size 1. -/
theorem C32_corr_overrides {corr : RawParam K} (h : corr ≠ .none) (rho : RawParam K) :
    ((∀ s, corr.setup.shape = some s → SquareShape s) → getCorrMatrix corr rho = .ok corr.setup) ∧
    ((∃ s, corr.setup.shape = some s ∧ ¬ SquareShape s) →
      getCorrMatrix corr rho = .error .valueError) := by
  have e : getCorrMatrix corr rho =
      if badCorrShape corr.setup.shape then .error .valueError else .ok corr.setup := by
    cases corr with
    | none => exact absurd rfl h
    | _ => rfl
  rw [e]
  constructor
  · intro h1
    rw [if_neg]
    cases hs : corr.setup.shape with
    | none => simp [badCorrShape]
    | some s => rw [badCorrShape_iff]; exact not_not.2 (h1 s hs)
  · rintro ⟨s, hs, h1⟩
    rw [if_pos]
    rw [hs, badCorrShape_iff]; exact h1

/-- **C32**, correlations given as `rho`: none if `rho` is `None`; as in `C32_rho_matrix` for arrays;
for callables, at each time as if the value at that time had been given, the shape of the result
being known if that of `rho` is; other shapes are a `ValueError`. -/
theorem C32_rho :
    getCorrMatrix (.none : RawParam K) .none = .ok .none ∧
    (∀ (a : Arr K) n r, RhoArr a n r →
      ∃ C, getCorrMatrix .none (.arr a) = .ok (.arr C) ∧ RhoMatrix n r C) ∧
    (∀ a : Arr K, (¬ ∃ n r, RhoArr a n r) →
      getCorrMatrix .none (.arr a) = .error .valueError) ∧
    (∀ f : K → Py (Arr K), (∀ t e, f t ≠ .error e) →
      (∀ t a, f t = .ok a → ∃ n r, RhoArr a n r) →
      ∃ n c, getCorrMatrix .none (.fn f) = .ok (.fn (some [2 * n, 2 * n]) c) ∧
        (∃ a r, f 1 = .ok a ∧ RhoArr a n r) ∧
        ∀ t a m r, f t = .ok a → RhoArr a m r → ∃ C, c t = .ok C ∧ RhoMatrix m r C) := by
  refine ⟨rfl, ?_, ?_, ?_⟩
  · intro a n r h
    obtain ⟨C, hC, hm⟩ := C32_rho_matrix h
    refine ⟨C, ?_, hm⟩
    have hb : ¬ badRhoShape (some a.shape) := by
      cases h <;> simp [badRhoShape]
    show (if badRhoShape (some a.shape) then (.error .valueError : Py (Param K)) else
      match rhoToCorr a with
      | .error e => .error e
      | .ok c => .ok (.arr c)) = _
    rw [if_neg hb, hC]
  · intro a h
    show (if badRhoShape (some a.shape) then (.error .valueError : Py (Param K)) else
      match rhoToCorr a with
      | .error e => .error e
      | .ok c => .ok (.arr c)) = _
    split
    · rfl
    · rw [C32_rho_rejected h]
  · intro f hf hr
    cases h1 : f 1 with
    | error e => exact absurd h1 (hf 1 e)
    | ok a =>
      obtain ⟨n, r, ha⟩ := hr 1 a h1
      have hb : ¬ badRhoShape (some a.shape) := by
        cases ha <;> simp [badRhoShape]
      refine ⟨n, fun t => match f t with
          | .error e => .error e
          | .ok a => rhoToCorr a, ?_, ⟨a, r, rfl, ha⟩, ?_⟩
      · simp only [getCorrMatrix, RawParam.setup, h1, corrOfRho]
        rw [if_neg (by exact hb)]
        cases ha <;> rfl
      · intro t b m q ht hb
        simp only [ht]
        exact C32_rho_matrix hb

end

/-- **C32**, when it is a correlation matrix: the matrix is symmetric with unit diagonal, and it is
positive semidefinite if and only if all correlations are between -1 and 1. -/
theorem C32_psd {n : ℕ} {r : ℕ → ℝ} {C : Arr ℝ} (h : RhoMatrix n r C) :
    (toMatrix (2 * n) C).IsSymm ∧ (∀ i, toMatrix (2 * n) C i i = 1) ∧
    ((toMatrix (2 * n) C).PosSemidef ↔ ∀ i < n, |r i| ≤ 1) := by
  have hsymm : (toMatrix (2 * n) C).IsSymm := by
    ext i j
    simp only [transpose_apply, toMatrix, of_apply]
    rw [h.2 _ j.2 _ i.2, h.2 _ i.2 _ j.2]
    split_ifs <;> (first | rfl | omega)
  refine ⟨hsymm, fun i => by simp [toMatrix, h.2 _ i.2 _ i.2], ?_⟩
  let e : Fin n ⊕ Fin n ≃ Fin (2 * n) := finSumFinEquiv.trans (finCongr (two_mul n).symm)
  have he1 : ∀ k, ((e (.inl k) : Fin (2 * n)) : ℕ) = k := fun k => by simp [e]
  have he2 : ∀ k, ((e (.inr k) : Fin (2 * n)) : ℕ) = n + k := fun k => by simp [e]; omega
  let D : Matrix (Fin n) (Fin n) ℝ := diagonal fun k => r k
  have hM : (toMatrix (2 * n) C).submatrix e e = fromBlocks 1 D D 1 := by
    ext i j
    rcases i with i | i <;> rcases j with j | j <;>
      simp only [submatrix_apply, toMatrix, of_apply, fromBlocks_apply₁₁, fromBlocks_apply₁₂,
        fromBlocks_apply₂₁, fromBlocks_apply₂₂, he1, he2] <;>
      rw [h.2 _ (by omega) _ (by omega)] <;>
      simp only [D, one_apply, diagonal_apply, Fin.ext_iff] <;>
      split_ifs <;> first | rfl | omega | (congr 1; omega)
  have hq : ∀ a b : Fin n → ℝ,
      Sum.elim a b ⬝ᵥ (fromBlocks 1 D D 1 *ᵥ Sum.elim a b) =
        ∑ k, (a k * a k + 2 * r k * (a k * b k) + b k * b k) := by
    intro a b
    rw [fromBlocks_mulVec, dotProduct, Fintype.sum_sum_type, ← Finset.sum_add_distrib]
    refine Finset.sum_congr rfl fun k _ => ?_
    simp [D, mulVec_diagonal]
    ring
  rw [← posSemidef_submatrix_equiv e, hM]
  constructor
  · intro hp i hi
    have h1 := hp.dotProduct_mulVec_nonneg (Sum.elim (Pi.single ⟨i, hi⟩ 1) (Pi.single ⟨i, hi⟩ 1))
    have h2 := hp.dotProduct_mulVec_nonneg (Sum.elim (Pi.single ⟨i, hi⟩ 1) (Pi.single ⟨i, hi⟩ (-1)))
    rw [star_trivial, hq, Finset.sum_eq_single ⟨i, hi⟩ (by
      intro b _ hb; simp [hb]) (by simp)] at h1 h2
    simp only [Pi.single_eq_same] at h1 h2
    rw [abs_le]; constructor <;> linarith
  · intro hr
    refine .of_dotProduct_mulVec_nonneg ?_ ?_
    · rw [← hM]
      have := hsymm.submatrix e
      unfold IsHermitian
      rw [conjTranspose_eq_transpose_of_trivial]
      exact this
    · intro x
      have hx : x = Sum.elim (x ∘ Sum.inl) (x ∘ Sum.inr) := by ext i; cases i <;> rfl
      rw [hx, star_trivial, hq]
      refine Finset.sum_nonneg fun k _ => ?_
      have := abs_le.1 (hr k k.2)
      generalize (x ∘ Sum.inl) k = a
      generalize (x ∘ Sum.inr) k = b
      nlinarith [mul_nonneg (by linarith : 0 ≤ 1 + r k) (mul_self_nonneg (a + b)),
        mul_nonneg (by linarith : 0 ≤ 1 - r k) (mul_self_nonneg (a - b))]

section
variable {K : Type} [Zero K] [One K]

theorem corrOfRho_follows (sh : Option (List ℕ)) (f : K → Py (Arr K)) (h : ¬ badRhoShape sh) :
    ∃ c, corrOfRho (.fn sh f) = .ok (.fn
      (sh.map fun s => match s with | [] => [2, 2] | k :: _ => [2 * k, 2 * k]) c) ∧ Follows f c := by
  refine ⟨fun t => match f t with
    | .error e => .error e
    | .ok a => rhoToCorr a, ?_, ?_⟩
  · simp only [corrOfRho]
    rw [if_neg (by exact h)]
    rfl
  · intro t
    refine ⟨fun e he => by simp only [he], fun a ha => ⟨fun n r hr => ?_, fun hn => ?_⟩⟩
    · simp only [ha]; exact C32_rho_matrix hr
    · simp only [ha]; exact C32_rho_rejected hn

theorem badRhoShape_iff (a : Arr K) : badRhoShape (some a.shape) ↔ ¬ ∃ n r, RhoArr a n r := by
  constructor
  · rintro h ⟨n, r, hr⟩
    cases hr <;> simp [badRhoShape] at h
  · intro h
    obtain ⟨s, g⟩ := a
    match s with
    | [] => exact absurd ⟨_, _, .scalar g⟩ h
    | [n] => exact absurd ⟨_, _, .vec n g⟩ h
    | [n, m] =>
      by_cases hm : m = 1
      · subst hm; exact absurd ⟨_, _, .vec1 n g⟩ h
      · simp [badRhoShape, hm]
    | _ :: _ :: _ :: _ => simp [badRhoShape]

/-- **C32**, callable `rho`: it is accepted if the test value, at time 1, is an array of correlations,
or cannot be computed (then, the shape of the matrix is not known), and is a `ValueError` otherwise; the
matrix follows `rho` at all times, whatever its value there. -/
theorem C32_callable (f : K → Py (Arr K)) :
    (∀ a n r, f 1 = .ok a → RhoArr a n r → ∃ c, getCorrMatrix .none (.fn f) =
      .ok (.fn (some [2 * n, 2 * n]) c) ∧ Follows f c) ∧
    (∀ a, f 1 = .ok a → (¬ ∃ n r, RhoArr a n r) → getCorrMatrix .none (.fn f) = .error .valueError) ∧
    (∀ e, f 1 = .error e → ∃ c, getCorrMatrix .none (.fn f) = .ok (.fn none c) ∧ Follows f c) := by
  refine ⟨?_, ?_, ?_⟩
  · intro a n r ha hr
    obtain ⟨c, h1, h2⟩ := corrOfRho_follows (some a.shape) f
      (fun h => (badRhoShape_iff a).1 h ⟨n, r, hr⟩)
    refine ⟨c, ?_, h2⟩
    simp only [getCorrMatrix, RawParam.setup, ha]
    rw [h1]
    cases hr <;> rfl
  · intro a ha hr
    simp only [getCorrMatrix, RawParam.setup, ha, corrOfRho]
    rw [if_pos (by exact (badRhoShape_iff a).2 hr)]
  · intro e he
    obtain ⟨c, h1, h2⟩ := corrOfRho_follows none f (by simp [badRhoShape])
    refine ⟨c, ?_, h2⟩
    simp only [getCorrMatrix, RawParam.setup, he]
    exact h1

/-- **C32**, `rho` given as a process: with values of shape `(n,)` and one path, it gives `n`
correlations; with scalar values, the paths count as so many correlations (one path gives one
correlation); others are a `ValueError`. -/
theorem C32_rho_process (vshape : List ℕ) (paths : ℕ) (f : K → Py (Arr K)) :
    (∀ n, vshape = [n] → paths = 1 → ∃ c, getCorrMatrix .none (.proc vshape paths f) =
      .ok (.fn (some [2 * n, 2 * n]) c) ∧ Follows f c) ∧
    (vshape = [] → ∃ c, getCorrMatrix .none (.proc vshape paths f) =
      .ok (.fn (some [2 * paths, 2 * paths]) c) ∧ Follows f c) ∧
    (vshape ≠ [] → (¬ ∃ n, vshape = [n] ∧ paths = 1) →
      getCorrMatrix .none (.proc vshape paths f) = .error .valueError) := by
  refine ⟨?_, ?_, ?_⟩
  · rintro n rfl rfl
    obtain ⟨c, h1, h2⟩ := corrOfRho_follows (some [n, 1]) f (by simp [badRhoShape])
    exact ⟨c, h1, h2⟩
  · rintro rfl
    obtain ⟨c, h1, h2⟩ := corrOfRho_follows (some [paths]) f (by simp [badRhoShape])
    exact ⟨c, h1, h2⟩
  · intro hv hn
    simp only [getCorrMatrix, RawParam.setup, corrOfRho]
    refine if_pos ?_
    match vshape with
    | [] => exact absurd rfl hv
    | [n] =>
      have : paths ≠ 1 := fun h => hn ⟨n, rfl, h⟩
      simp [badRhoShape, Param.shape, this]
    | _ :: _ :: _ => simp [badRhoShape, Param.shape]

/-- **C32**, `corr` given as a process: it is used as it is if its values are square matrices, and it
has one path, or if they are vectors, of the size of the number of paths; it is a `ValueError` otherwise. -/
theorem C32_corr_process (vshape : List ℕ) (paths : ℕ) (f : K → Py (Arr K)) (rho : RawParam K) :
    ((∃ n, vshape = [n, n] ∧ paths = 1 ∨ vshape = [n] ∧ paths = n) →
      getCorrMatrix (.proc vshape paths f) rho = .ok (.fn (some (vshape ++ [paths])) f)) ∧
    ((¬ ∃ n, vshape = [n, n] ∧ paths = 1 ∨ vshape = [n] ∧ paths = n) →
      getCorrMatrix (.proc vshape paths f) rho = .error .valueError) := by
  obtain ⟨h1, h2⟩ := C32_corr_overrides (corr := .proc vshape paths f) (by simp) rho
  constructor
  · rintro ⟨n, ⟨rfl, rfl⟩ | ⟨rfl, rfl⟩⟩
    · refine h1 fun s hs => ?_
      simp [RawParam.setup, Param.shape] at hs
      exact ⟨n, .inr hs.symm⟩
    · refine h1 fun s hs => ?_
      simp [RawParam.setup, Param.shape] at hs
      exact ⟨paths, .inl hs.symm⟩
  · intro hn
    refine h2 ⟨_, rfl, ?_⟩
    rintro ⟨n, h | h⟩
    · match vshape with
      | [] => simp at h
      | [a] =>
        simp at h
        exact hn ⟨n, .inr (by simp [h])⟩
      | [_, _] => simp at h
      | _ :: _ :: _ :: _ => simp at h
    · match vshape with
      | [] => simp at h
      | [_] => simp at h
      | [a, b] =>
        simp at h
        exact hn ⟨n, .inl (by simp [h])⟩
      | _ :: _ :: _ :: _ => simp at h

/-- A correlation that grows with time, and that is not defined at time 1. -/
example : ∃ c, getCorrMatrix (K := ℚ) .none (.fn fun t => if t < 1 then .ok (.scalar t) else
    .error .valueError) = .ok (.fn none c) ∧
    Follows (fun t => if t < 1 then .ok (.scalar t) else .error .valueError) c :=
  (C32_callable _).2.2 .valueError (by simp)

end

/-- Two pairs of values. -/
example : RhoArr (K := ℝ) ⟨[2], fun i => if i = [0] then 1/2 else -1⟩ 2
    (fun k => if [k] = [0] then 1/2 else -1) := .vec 2 _

/-- A matrix as in the hypothesis of `C32_psd`. -/
example : ∃ C : Arr ℝ, RhoMatrix 2 (fun k => if [k] = [0] then 1/2 else -1) C ∧
    (toMatrix 4 C).PosSemidef := by
  obtain ⟨C, _, h⟩ := C32_rho_matrix
    (RhoArr.vec 2 (fun i => if i = [0] then (1/2 : ℝ) else -1))
  refine ⟨C, h, (C32_psd h).2.2.2 ?_⟩
  intro i hi
  rcases (by omega : i = 0 ∨ i = 1) with rfl | rfl <;> norm_num

/-- A matrix that is not square. -/
example : ¬ ∃ n r, RhoArr (K := ℝ) ⟨[2, 3], fun _ => 0⟩ n r := by
  rintro ⟨n, r, h⟩; cases h

example : ¬ SquareShape [2, 3] := by
  rintro ⟨n, h⟩; simp at h; omega

/-! ### sources -/

/-- **C57**: `None` and classes are instantiated with the required `paths` and `vshape`; an
instance is accepted, and used as it is, if and only if it is callable, with `paths` as required
and `vshape` that can be broadcast to the required one; it is a `ValueError` otherwise. -/
theorem C57_source_setup {Cl S : Type} (default : Cl) (make : Cl → ℕ → List ℕ → Py S) (paths : ℕ)
    (vshape : List ℕ) :
    sourceSetup .none default make paths vshape = make default paths vshape ∧
    (∀ c, sourceSetup (.cls c) default make paths vshape = make c paths vshape) ∧
    ∀ s callable p v,
      ((callable = true ∧ p = some paths ∧ ∃ w g, v = some w ∧
          ∃ b, (Arr.mk (α := ℕ) w g).broadcastTo vshape = .ok b) →
        sourceSetup (.obj s callable p v) default make paths vshape = .ok s) ∧
      (¬ (callable = true ∧ p = some paths ∧ ∃ w g, v = some w ∧
          ∃ b, (Arr.mk (α := ℕ) w g).broadcastTo vshape = .ok b) →
        sourceSetup (.obj s callable p v) default make paths vshape = .error .valueError) := by
  refine ⟨rfl, fun _ => rfl, ?_⟩
  intro s callable p v
  have hb : ∀ w g, (∃ b, (Arr.mk (α := ℕ) w g).broadcastTo vshape = .ok b) ↔ BcOk w vshape := by
    intro w g
    unfold Arr.broadcastTo
    simp only
    split <;> simp_all
  have e : (callable = true ∧ p = some paths ∧ ∃ w g, v = some w ∧
      ∃ b, (Arr.mk (α := ℕ) w g).broadcastTo vshape = .ok b) ↔
      callable = true ∧ p = some paths ∧ ∃ w, v = some w ∧ BcOk w vshape := by
    simp only [hb]
    constructor
    · rintro ⟨h1, h2, w, _, h3, h4⟩; exact ⟨h1, h2, w, h3, h4⟩
    · rintro ⟨h1, h2, w, h3, h4⟩; exact ⟨h1, h2, w, fun _ => 0, h3, h4⟩
  rw [e]
  constructor
  · rintro ⟨rfl, rfl, w, rfl, h⟩
    simp [sourceSetup, checkSource, h]
  · intro h
    cases callable with
    | false => simp [sourceSetup, checkSource]
    | true =>
      cases p with
      | none => simp [sourceSetup, checkSource]
      | some p =>
        cases v with
        | none => simp [sourceSetup, checkSource]
        | some w =>
          simp only [sourceSetup, checkSource]
          rw [if_pos]
          by_contra h'
          push Not at h'
          exact h ⟨rfl, by rw [h'.1], w, rfl, h'.2⟩

/-- A source with values of shape `(3,)` serves a process of shape `(2, 3)`. -/
example : ∃ w g, some [3] = some w ∧ ∃ b, (Arr.mk (α := ℕ) w g).broadcastTo [2, 3] = .ok b :=
  ⟨[3], fun _ => 0, rfl, _, if_pos (by decide)⟩

end Sdepy
