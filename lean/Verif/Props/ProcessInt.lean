import Verif.Model.ProcessInt
import Verif.Props.ProcessSummary
import Verif.Props.ProcessTime

/-!
# Statistics and differences of processes of integers
-/

namespace Sdepy
open Spec

variable {T : Type}

theorem isTrunc_tdiv (a : ℤ) {n : ℕ} (h0 : 0 < n) : IsTrunc ((a : ℚ) / n) (a.tdiv n) := by
  have h := npMeanInt_trunc (l := a :: List.replicate (n - 1) 0) (by simp)
  have e : (a :: List.replicate (n - 1) (0 : ℤ)).length = n := by simp; omega
  have e2 : (a :: List.replicate (n - 1) (0 : ℤ)).sum = a := by simp
  unfold npMeanInt at h
  rwa [npSum_eq, e2, e] at h

/-- Sum of squares of deviations from any number, by those from the mean. -/
theorem sum_sq_dev (l : List ℚ) (m c : ℚ) (hm : m * l.length = l.sum) :
    (l.map fun a => (a - c) ^ 2).sum = (l.map fun a => (a - m) ^ 2).sum + l.length * (m - c) ^ 2 := by
  have h : ∀ l : List ℚ, (l.map fun a => (a - c) ^ 2).sum =
      (l.map fun a => (a - m) ^ 2).sum + 2 * (m - c) * (l.sum - m * l.length) + l.length * (m - c) ^ 2 := by
    intro l
    induction l with
    | nil => simp
    | cons a l ih =>
      simp only [List.map_cons, List.sum_cons, List.length_cons, ih]
      push_cast
      ring
  rw [h, hm]
  ring

theorem map_cast_sum (l : List ℤ) (m : ℤ) :
    (((l.map fun a : ℤ => (a - m) ^ 2).sum : ℤ) : ℚ) = (l.map fun a : ℤ => ((a : ℚ) - m) ^ 2).sum := by
  induction l with
  | nil => simp
  | cons a l ih =>
    simp only [List.map_cons, List.sum_cons]
    rw [Int.cast_add, ih]
    push_cast
    rfl

/-- An integer that stands for the variance of integers, with what is lost by truncation: less than one below,
less than `n / (n - ddof)` above. -/
def Spec.NearVar (ddof : ℕ) (l : List ℤ) (y : ℤ) : Prop :=
  0 ≤ y ∧ ∀ v : ℚ, IsVar ddof (l.map fun a : ℤ => (a : ℚ)) v →
    v - 1 < y ∧ y < v + (l.length : ℚ) / (l.length - ddof)

/-- The variance computed from the mean truncated to an integer, truncated. -/
def Spec.IsVarTrunc (ddof : ℕ) (l : List ℤ) (y : ℤ) : Prop :=
  ∃ m : ℤ, IsTrunc ((l.sum : ℚ) / l.length) m ∧
    IsTrunc ((l.map fun a : ℤ => ((a : ℚ) - m) ^ 2).sum / (l.length - ddof)) y

theorem npVarInt_trunc {l : List ℤ} {ddof : ℕ} (hd : ddof < l.length) : IsVarTrunc ddof l (npVarInt ddof l) := by
  refine ⟨npMeanInt l, npMeanInt_trunc (by rintro rfl; simp at hd), ?_⟩
  have h := isTrunc_tdiv (npSum (l.map fun a => (a - npMeanInt l) ^ 2)) (n := l.length - ddof) (by omega)
  rw [npSum_eq, map_cast_sum, Nat.cast_sub hd.le] at h
  rw [npVarInt, npSum_eq]
  exact h

theorem Spec.IsTrunc.abs_lt {q : ℚ} {m : ℤ} (h : IsTrunc q m) : |q - m| < 1 := by
  rw [_root_.abs_lt]
  rcases le_total 0 q with h0 | h0
  · have := h.1 h0; constructor <;> linarith
  · have := h.2 h0; constructor <;> linarith

theorem Spec.IsVarTrunc.near {l : List ℤ} {ddof : ℕ} (hd : ddof < l.length) {y : ℤ} (h : IsVarTrunc ddof l y) :
    NearVar ddof l y := by
  obtain ⟨m, hm, hy⟩ := h
  have hn : (0 : ℚ) < l.length := by exact_mod_cast (by omega : 0 < l.length)
  have hnd : (0 : ℚ) < l.length - ddof := by
    have : (ddof : ℚ) < l.length := by exact_mod_cast hd
    linarith
  have hsq : 0 ≤ (l.map fun a : ℤ => ((a : ℚ) - m) ^ 2).sum := by
    apply List.sum_nonneg
    simp only [List.mem_map, forall_exists_index, and_imp]
    rintro _ a _ rfl
    positivity
  have hq := hy.1 (div_nonneg hsq hnd.le)
  constructor
  · have : (-1 : ℚ) < y := by have := div_nonneg hsq hnd.le; linarith
    have : (-1 : ℤ) < y := by exact_mod_cast this
    omega
  · rintro v ⟨c, hc, hv⟩
    have hs : (l.map fun a : ℤ => (a : ℚ)).sum = l.sum := by
      rw [← Int.cast_list_sum]
    have hlen : (l.map fun a : ℤ => (a : ℚ)).length = l.length := by simp
    have hdev := sum_sq_dev (l.map fun a : ℤ => (a : ℚ)) c m hc
    rw [hlen] at hdev hv
    rw [← hv, List.map_map] at hdev
    have hcm : (c - m) ^ 2 < 1 := by
      unfold IsMean at hc
      rw [hs, hlen] at hc
      have : (l.sum : ℚ) / l.length = c := by rw [← hc]; field_simp
      rw [this] at hm
      exact (sq_lt_one_iff_abs_lt_one _).2 hm.abs_lt
    have hdev' : (l.map fun a : ℤ => ((a : ℚ) - m) ^ 2).sum = v * (l.length - ddof) + l.length * (c - m) ^ 2 := hdev
    rw [hdev', add_div, mul_div_cancel_right₀ _ hnd.ne'] at hq
    have h0 : 0 ≤ (l.length : ℚ) * (c - m) ^ 2 / (l.length - ddof) := by positivity
    have h1 : (l.length : ℚ) * (c - m) ^ 2 / (l.length - ddof) < l.length / (l.length - ddof) := by
      gcongr
      nlinarith
    constructor <;> linarith

/-- **C47** (integers). For processes of integers, `pvar` and `tvar` give the integer obtained truncating the mean,
and then the average of squared deviations from it. It is not negative, and differs from the variance by less
than 1 below, `n / (n - ddof)` above, `n` being the count of values. -/
theorem C47_int_var (p : Proc T ℤ) (hp : IsProc p) :
    (2 ≤ p.x.shape.length → ∀ ddof < p.paths,
      PathSummary (IsVarTrunc ddof) p (p.pred (npVarInt ddof)) ∧
      PathSummary (NearVar ddof) p (p.pred (npVarInt ddof))) ∧
    ∀ ddof < p.t.length, TimeSummary (IsVarTrunc ddof) p (p.tred (npVarInt ddof)) ∧
      TimeSummary (NearVar ddof) p (p.tred (npVarInt ddof)) :=
  ⟨fun h2 ddof hd =>
    ⟨pred_summary p hp h2 fun l hl => npVarInt_trunc (hl ▸ hd),
      pred_summary p hp h2 fun l hl => (npVarInt_trunc (hl ▸ hd)).near (hl ▸ hd)⟩,
    fun ddof hd => ⟨tred_summary p hp fun l hl => npVarInt_trunc (hl ▸ hd),
      tred_summary p hp fun l hl => (npVarInt_trunc (hl ▸ hd)).near (hl ▸ hd)⟩⟩

/-- **C47**, the negation for variances of integers: the variance of values 1
and 2 is 1/4, `pvar` gives 0; that of values 0, 2 and 2 is 8/9, `tvar` gives 1. -/
theorem C47_int_var_false : ∃ p q zp zq : Proc ℚ ℤ, IsProc p ∧ IsProc q ∧
    p.pred (npVarInt 0) = .ok zp ∧ acrossPaths p 0 [] = [1, 2] ∧ zp.x.get [0, 0] = 0 ∧
    IsVar 0 ((acrossPaths p 0 []).map fun a : ℤ => (a : ℚ)) (1 / 4) ∧
    q.tred (npVarInt 0) = .ok zq ∧ alongTime q [0] = [0, 2, 2] ∧ zq.x.get [0, 0] = 1 ∧
    IsVar 0 ((alongTime q [0]).map fun a : ℤ => (a : ℚ)) (8 / 9) :=
  ⟨⟨[0], ⟨[1, 2], fun i => (i.getD 1 0 + 1 : ℕ)⟩⟩, ⟨[0, 1, 2], ⟨[3, 1], fun i => [0, 2, 2].getD (i.headD 0) 0⟩⟩, _, _,
    ⟨by simp, rfl⟩, ⟨by simp, rfl⟩, rfl, rfl, rfl, ⟨3 / 2, by unfold IsMean; decide +kernel, by decide +kernel⟩,
    rfl, rfl, rfl, ⟨4 / 3, by unfold IsMean; decide +kernel, by decide +kernel⟩⟩

/-- **C47**. With real values, `pstd` and `tstd` give the standard deviation. With integers, they raise
`TypeError`, whatever the process, instead of the standard deviation. -/
theorem C47_int_std_false (p : Proc T ℝ) (hp : IsProc p) :
    (∀ ddof, p.pstdOf .int ddof = .error .typeError ∧ p.tstdOf .int ddof = .error .typeError) ∧
    (2 ≤ p.x.shape.length → ∀ ddof < p.paths, PathSummary (IsStd ddof) p (p.pstdOf .float ddof)) ∧
    ∀ ddof < p.t.length, TimeSummary (IsStd ddof) p (p.tstdOf .float ddof) :=
  ⟨fun _ => ⟨rfl, rfl⟩, fun h2 => (C47_std_partial p hp).1 h2, (C47_std_partial p hp).2.2⟩

/-- **C48**. `p.tdiff(dt_exp)` of a process of integers raises `TypeError` if `dt_exp` is not 0, so that `tder` always
does; with `dt_exp` 0, or real values, it gives differences, as stated by `C48_tdiff`. -/
theorem C48_int_tder_false {K E : Type} [Field K] [LinearOrder K] [IsStrictOrderedRing K] [Zero E] [DecidableEq E]
    (pw : K → E → K) (h1 : ∀ d, pw d 0 = 1) (e : E) (fwd : Bool) (p : Proc K K) (hp : IsProc p)
    (hN : 2 ≤ p.t.length) :
    (e ≠ 0 → p.tdiffOf .int pw e fwd = .error .typeError) ∧
    ∀ d, (e = 0 ∨ d = .float) →
      ∃ z, p.tdiffOf d pw e fwd = .ok z ∧ z.t.length = p.t.length - 1 ∧
        z.x.shape = (p.t.length - 1) :: p.x.shape.tail ∧
        ∀ (k : ℕ) a b, p.t[k]? = some a → p.t[k + 1]? = some b → z.t[k]? = some (if fwd then a else b) ∧
          ∀ r, z.x.get (k :: r) = (p.x.get ((k + 1) :: r) - p.x.get (k :: r)) / pw (b - a) e := by
  refine ⟨fun he => ?_, fun d hd => ?_⟩
  · unfold Proc.tdiffOf
    rw [if_neg he]
    rfl
  · have : p.tdiffOf d pw e fwd = p.tdiff pw e fwd := by
      unfold Proc.tdiffOf
      rcases hd with rfl | rfl
      · rw [if_pos rfl]
      · by_cases he : e = 0
        · rw [if_pos he]
        · rw [if_neg he]; rfl
    rw [this]
    exact C48_tdiff pw h1 e fwd p hp hN

example := C47_int_var (⟨[0, 1], ⟨[2, 3], fun i => (i.getD 1 0 : ℕ) - 1⟩⟩ : Proc ℚ ℤ) ⟨by simp, rfl⟩
example := C47_int_std_false (⟨[0, 1], ⟨[2, 1], fun _ => 1⟩⟩ : Proc ℝ ℝ) ⟨by simp, rfl⟩
example := C48_int_tder_false (fun (d : ℚ) (k : ℕ) => d ^ k) (fun d => pow_zero d) 1 true exProc exProc_isProc
  (by simp [exProc])

end Sdepy
