import Verif.Lemmas.PathsCall
import Verif.Spec.OuLaw
import Verif.Spec.PathsGenerator
import Mathlib.Analysis.SpecialFunctions.Exponential
import Mathlib.Analysis.Complex.Exponential

/-!
# The Euler scheme for Ornstein-Uhlenbeck processes is of first order
-/

open Real

namespace Sdepy

open Spec

/-- Errors accumulated along steps that are no longer than `δ`. -/
theorem chain_error {F : ℝ → ℝ → ℝ → ℝ} {run : ℝ → ℝ → List ℝ → ℝ} (h0 : ∀ t e, run t e [] = e)
    (hs : ∀ t e u l, run t e (u :: l) = run u (F t e u) l) {y : ℝ → ℝ} {L M δ a b : ℝ} (hL : 0 ≤ L)
    (hM : 0 ≤ M)
    (hF : ∀ t e u, a ≤ t → t ≤ u → u ≤ b → u - t ≤ δ →
      |F t e u - y u| ≤ exp (L * (u - t)) * |e - y t| + M * (u - t)) :
    ∀ (l : List ℝ) (t e : ℝ), a ≤ t → (t :: l).IsChain (fun u v => u ≤ v ∧ v - u ≤ δ) →
      (∀ u ∈ t :: l, u ≤ b) →
      |run t e l - y ((t :: l).getLastD 0)| ≤
        exp (L * ((t :: l).getLastD 0 - t)) * (|e - y t| + M * ((t :: l).getLastD 0 - t)) ∧
      t ≤ (t :: l).getLastD 0 := by
  intro l
  induction l with
  | nil => intro t e _ _ _; simp [h0]
  | cons u l ih =>
    intro t e hat hc hb
    obtain ⟨⟨htu, hd⟩, hc'⟩ := List.isChain_cons_cons.1 hc
    obtain ⟨h1, h2⟩ := ih u (F t e u) (hat.trans htu) hc' fun v hv => hb v (by simp [hv])
    have hf := hF t e u hat htu (hb u (by simp)) hd
    have hlast : (t :: u :: l).getLastD 0 = (u :: l).getLastD 0 := by simp [List.getLastD]
    rw [hs, hlast]
    set b' := (u :: l).getLastD 0
    refine ⟨h1.trans ?_, htu.trans h2⟩
    have e1 : exp (L * (b' - t)) = exp (L * (b' - u)) * exp (L * (u - t)) := by
      rw [← exp_add]; congr 1; ring
    have e2 : exp (L * (b' - u)) ≤ exp (L * (b' - t)) := by
      apply exp_le_exp.2
      exact mul_le_mul_of_nonneg_left (by linarith) hL
    calc exp (L * (b' - u)) * (|F t e u - y u| + M * (b' - u))
        ≤ exp (L * (b' - u)) * (exp (L * (u - t)) * |e - y t| + M * (u - t) + M * (b' - u)) := by
          gcongr
      _ = exp (L * (b' - t)) * |e - y t| + exp (L * (b' - u)) * (M * (b' - t)) := by rw [e1]; ring
      _ ≤ exp (L * (b' - t)) * |e - y t| + exp (L * (b' - t)) * (M * (b' - t)) := by
          gcongr
          exact mul_nonneg hM (by linarith)
      _ = _ := by ring

theorem abs_one_sub_le (k d : ℝ) (hd : 0 ≤ d) : |1 - k * d| ≤ exp (|k| * d) := by
  have h1 : |1 - k * d| ≤ 1 + |k| * d := by
    calc |1 - k * d| ≤ |1| + |k * d| := abs_sub _ _
      _ = 1 + |k| * d := by rw [abs_one, abs_mul, abs_of_nonneg hd]
  have := add_one_le_exp (|k| * d)
  linarith

theorem abs_exp_neg_sub (k : ℝ) {d : ℝ} (hd : |k| * d ≤ 1) (hd0 : 0 ≤ d) :
    |1 - k * d - exp (-k * d)| ≤ k ^ 2 * d ^ 2 := by
  have h := abs_exp_sub_one_sub_id_le (x := -k * d) (by
    rw [abs_mul, abs_neg, abs_of_nonneg hd0]; exact hd)
  rw [abs_sub_comm]
  calc |exp (-k * d) - (1 - k * d)| = |exp (-k * d) - 1 - -k * d| := by congr 1; ring
    _ ≤ (-k * d) ^ 2 := h
    _ = _ := by ring

theorem exp_neg_mul_le (k : ℝ) {s T : ℝ} (h0 : 0 ≤ s) (h : s ≤ T) : exp (-k * s) ≤ exp (|k| * T) := by
  apply exp_le_exp.2
  have := neg_le_abs k
  have h1 : -k * s ≤ |k| * s := mul_le_mul_of_nonneg_right this h0
  exact h1.trans (mul_le_mul_of_nonneg_left h (abs_nonneg k))

/-- The mean after steps no longer than `δ`. -/
theorem eulerMean_error (theta k x0 : ℝ) {t0 T δ : ℝ} (hδ0 : 0 ≤ δ) (hδ : |k| * δ ≤ 1) {l : List ℝ}
    (hc : (t0 :: l).IsChain (fun u v => u ≤ v ∧ v - u ≤ δ)) (hT : ∀ u ∈ t0 :: l, u ≤ t0 + T) {t : ℝ}
    (ht : (t0 :: l).getLastD 0 = t) :
    |eulerMean (fun _ => theta) (fun _ => k) t0 x0 l - (theta - exp (-k * (t - t0)) * (theta - x0))| ≤
      exp (|k| * (t - t0)) * (k ^ 2 * (exp (|k| * T) * |theta - x0|) * δ * (t - t0)) := by
  have := (chain_error (F := fun t m u => m + k * (theta - m) * (u - t))
    (run := eulerMean (fun _ => theta) (fun _ => k)) (fun _ _ => rfl) (fun _ _ _ _ => rfl)
    (y := fun t => theta - exp (-k * (t - t0)) * (theta - x0)) (L := |k|)
    (M := k ^ 2 * (exp (|k| * T) * |theta - x0|) * δ) (δ := δ) (a := t0) (b := t0 + T)
    (abs_nonneg k) (by positivity) ?_ l t0 x0 le_rfl hc hT).1
  · rw [ht] at this
    simpa using this
  · intro s e u h1 h2 h3 h4
    have hd : 0 ≤ u - s := by linarith
    have hy : exp (-k * (u - t0)) = exp (-k * (u - s)) * exp (-k * (s - t0)) := by
      rw [← exp_add]; congr 1; ring
    have e1 : e + k * (theta - e) * (u - s) - (theta - exp (-k * (u - t0)) * (theta - x0)) =
        (1 - k * (u - s)) * (e - (theta - exp (-k * (s - t0)) * (theta - x0))) -
          (1 - k * (u - s) - exp (-k * (u - s))) * (exp (-k * (s - t0)) * (theta - x0)) := by
      rw [hy]; ring
    change |e + k * (theta - e) * (u - s) - (theta - exp (-k * (u - t0)) * (theta - x0))| ≤ _
    rw [e1]
    refine (abs_sub _ _).trans ?_
    rw [abs_mul, abs_mul]
    refine add_le_add (mul_le_mul_of_nonneg_right (abs_one_sub_le k _ hd) (abs_nonneg _)) ?_
    have b1 := abs_exp_neg_sub k (d := u - s) (by
      exact (mul_le_mul_of_nonneg_left h4 (abs_nonneg k)).trans hδ) hd
    have b2 : |exp (-k * (s - t0)) * (theta - x0)| ≤ exp (|k| * T) * |theta - x0| := by
      rw [abs_mul, abs_of_pos (exp_pos _)]
      exact mul_le_mul_of_nonneg_right (exp_neg_mul_le k (by linarith) (by linarith)) (abs_nonneg _)
    calc _ ≤ k ^ 2 * (u - s) ^ 2 * (exp (|k| * T) * |theta - x0|) :=
          mul_le_mul b1 b2 (abs_nonneg _) (by positivity)
      _ = k ^ 2 * (exp (|k| * T) * |theta - x0|) * ((u - s) * (u - s)) := by ring
      _ ≤ k ^ 2 * (exp (|k| * T) * |theta - x0|) * (δ * (u - s)) := by gcongr
      _ = _ := by ring

/-- The covariance after steps no longer than `δ`. -/
theorem eulerCov_error (ka kb s1 s2 r : ℝ) (hk : ka + kb ≠ 0) {t0 T δ : ℝ} (hδ0 : 0 ≤ δ)
    (hδ : |ka + kb| * δ ≤ 1) {l : List ℝ}
    (hc : (t0 :: l).IsChain (fun u v => u ≤ v ∧ v - u ≤ δ)) (hT : ∀ u ∈ t0 :: l, u ≤ t0 + T) {t : ℝ}
    (ht : (t0 :: l).getLastD 0 = t) :
    |eulerCov (fun _ => ka) (fun _ => kb) (fun _ => s1) (fun _ => s2) (fun _ => r) t0 0 l -
        s1 * s2 * r / (ka + kb) * (1 - exp (-(ka + kb) * (t - t0)))| ≤
      exp ((|ka| + |kb|) * (t - t0)) * (((|ka * kb| + (ka + kb) ^ 2) *
        (|s1 * s2 * r / (ka + kb)| * (1 + exp (|ka + kb| * T))) +
        |s1 * s2 * r / (ka + kb)| * (ka + kb) ^ 2) * δ * (t - t0)) := by
  set K := ka + kb with hK
  set q := s1 * s2 * r / K with hq
  have hqK : s1 * s2 * r = q * K := by rw [hq]; field_simp
  have := (chain_error (F := fun t c u => (1 - ka * (u - t)) * (1 - kb * (u - t)) * c +
      s1 * s2 * r * |u - t|)
    (run := eulerCov (fun _ => ka) (fun _ => kb) (fun _ => s1) (fun _ => s2) (fun _ => r))
    (fun _ _ => rfl) (fun _ _ _ _ => rfl)
    (y := fun t => q * (1 - exp (-K * (t - t0)))) (L := |ka| + |kb|)
    (M := ((|ka * kb| + K ^ 2) * (|q| * (1 + exp (|K| * T))) + |q| * K ^ 2) * δ)
    (δ := δ) (a := t0) (b := t0 + T)
    (by positivity) (by positivity) ?_ l t0 0 le_rfl hc hT).1
  · rw [ht] at this
    simpa using this
  · intro s e u h1 h2 h3 h4
    have hd : 0 ≤ u - s := by linarith
    have hy : exp (-K * (u - t0)) = exp (-K * (u - s)) * exp (-K * (s - t0)) := by
      rw [← exp_add]; congr 1; ring
    rw [abs_of_nonneg hd, hqK]
    have e1 : (1 - ka * (u - s)) * (1 - kb * (u - s)) * e + q * K * (u - s) -
          q * (1 - exp (-K * (u - t0))) =
        (1 - ka * (u - s)) * (1 - kb * (u - s)) * (e - q * (1 - exp (-K * (s - t0)))) +
        ((ka * kb * (u - s) ^ 2 + (1 - K * (u - s) - exp (-K * (u - s)))) *
          (q * (1 - exp (-K * (s - t0)))) - q * (1 - K * (u - s) - exp (-K * (u - s)))) := by
      rw [hy, hK]; ring
    rw [e1]
    have b1 := abs_exp_neg_sub K (d := u - s) (by
      exact (mul_le_mul_of_nonneg_left h4 (abs_nonneg K)).trans hδ) hd
    have b2 : |q * (1 - exp (-K * (s - t0)))| ≤ |q| * (1 + exp (|K| * T)) := by
      rw [abs_mul]
      refine mul_le_mul_of_nonneg_left ?_ (abs_nonneg _)
      refine (abs_sub _ _).trans ?_
      rw [abs_one, abs_of_pos (exp_pos _)]
      have := exp_neg_mul_le K (s := s - t0) (T := T) (by linarith) (by linarith)
      linarith
    have b3 : |ka * kb * (u - s) ^ 2 + (1 - K * (u - s) - exp (-K * (u - s)))| ≤
        (|ka * kb| + K ^ 2) * (u - s) ^ 2 := by
      refine (abs_add_le _ _).trans ?_
      rw [abs_mul, abs_of_nonneg (sq_nonneg (u - s))]
      linarith
    refine (abs_add_le _ _).trans ?_
    refine add_le_add ?_ ?_
    · rw [abs_mul, abs_mul, add_mul, exp_add]
      exact mul_le_mul_of_nonneg_right (mul_le_mul (abs_one_sub_le ka _ hd)
        (abs_one_sub_le kb _ hd) (abs_nonneg _) (exp_nonneg _)) (abs_nonneg _)
    · refine (abs_sub _ _).trans ?_
      have b4 : |q * (1 - K * (u - s) - exp (-K * (u - s)))| ≤ |q| * (K ^ 2 * (u - s) ^ 2) := by
        rw [abs_mul]; gcongr
      rw [abs_mul]
      calc _ ≤ (|ka * kb| + K ^ 2) * (u - s) ^ 2 * (|q| * (1 + exp (|K| * T))) +
            |q| * (K ^ 2 * (u - s) ^ 2) :=
            add_le_add (mul_le_mul b3 b2 (abs_nonneg _) (by positivity)) b4
        _ = ((|ka * kb| + K ^ 2) * (|q| * (1 + exp (|K| * T))) + |q| * K ^ 2) *
            ((u - s) * (u - s)) := by ring
        _ ≤ ((|ka * kb| + K ^ 2) * (|q| * (1 + exp (|K| * T))) + |q| * K ^ 2) *
            (δ * (u - s)) := by gcongr
        _ = _ := by ring

/-- Steps on a grid with a given mesh. -/
theorem chain_of_mesh {δ : ℝ} : ∀ {l : List ℝ}, l.Pairwise (· < ·) →
    (∀ a ∈ l, ∀ b ∈ l, a < b → (∀ c ∈ l, ¬ (a < c ∧ c < b)) → b - a ≤ δ) →
    l.IsChain (fun u v => u ≤ v ∧ v - u ≤ δ) := by
  intro l
  induction l with
  | nil => intro _ _; exact List.isChain_nil
  | cons a l ih =>
    intro hp hm
    cases l with
    | nil => exact List.isChain_singleton _
    | cons b l =>
      have hp' := List.pairwise_cons.1 hp
      have hab := hp'.1 b (by simp)
      refine List.isChain_cons_cons.2 ⟨⟨hab.le, hm a (by simp) b (by simp) hab ?_⟩,
        ih hp'.2 fun x hx y hy hxy hn => hm x (by simp [hx]) y (by simp [hy]) hxy ?_⟩
      · rintro c hc ⟨h1, h2⟩
        rcases List.mem_cons.1 hc with rfl | hc
        · exact lt_irrefl _ h1
        · rcases List.mem_cons.1 hc with rfl | hc
          · exact lt_irrefl _ h2
          · exact absurd ((List.pairwise_cons.1 hp'.2).1 c hc) (not_lt.2 h2.le)
      · rintro c hc ⟨h1, h2⟩
        rcases List.mem_cons.1 hc with rfl | hc
        · exact absurd (hp'.1 x hx) (not_lt.2 h1.le)
        · exact hn c hc ⟨h1, h2⟩

/-- The steps from `t0` to a later time. -/
theorem stepsTo_chain {grid : List ℝ} (hg : grid.Pairwise (· < ·)) {δ : ℝ} (hm : Mesh grid δ)
    {t0 t : ℝ} (h0 : t0 ∈ grid) (ht : t ∈ grid) (h : t0 ≤ t) :
    (t0 :: stepsTo grid t0 t).IsChain (fun u v => u ≤ v ∧ v - u ≤ δ) ∧
      (∀ u ∈ t0 :: stepsTo grid t0 t, u ≤ t) ∧ (t0 :: stepsTo grid t0 t).getLastD 0 = t := by
  have hmem : ∀ u, u ∈ t0 :: stepsTo grid t0 t ↔ u ∈ grid ∧ t0 ≤ u ∧ u ≤ t := by
    intro u
    rw [stepsTo, if_pos h]
    simp only [List.mem_cons, List.mem_filter, decide_eq_true_eq]
    constructor
    · rintro (rfl | ⟨h1, h2, h3⟩)
      · exact ⟨h0, le_rfl, h⟩
      · exact ⟨h1, h2.le, h3⟩
    · rintro ⟨h1, h2, h3⟩
      rcases h2.eq_or_lt with rfl | h2
      · exact .inl rfl
      · exact .inr ⟨h1, h2, h3⟩
  have hp : (t0 :: stepsTo grid t0 t).Pairwise (· < ·) := by
    rw [List.pairwise_cons, stepsTo, if_pos h]
    refine ⟨fun a ha => ?_, hg.filter _⟩
    simp at ha
    exact ha.2.1
  refine ⟨chain_of_mesh hp ?_, fun u hu => ((hmem u).1 hu).2.2, ?_⟩
  · intro a ha b hb hab hn
    have ha' := (hmem a).1 ha
    have hb' := (hmem b).1 hb
    refine hm a ha'.1 b hb'.1 hab ?_
    rintro c hc ⟨h1, h2⟩
    exact hn c ((hmem c).2 ⟨hc, ha'.2.1.trans h1.le, h2.le.trans hb'.2.2⟩) ⟨h1, h2⟩
  · have htm := (hmem t).2 ⟨ht, h, le_rfl⟩
    have hne : t0 :: stepsTo grid t0 t ≠ [] := by simp
    have hl : (t0 :: stepsTo grid t0 t).getLastD 0 = (t0 :: stepsTo grid t0 t).getLast hne := by
      rw [List.getLastD_eq_getLast?, List.getLast?_eq_getLast_of_ne_nil hne]; rfl
    rw [hl]
    refine le_antisymm (((hmem _).1 (List.getLast_mem hne)).2.2) ?_
    obtain ⟨l1, l2, e⟩ := List.append_of_mem htm
    rw [e] at hp
    have : (t0 :: stepsTo grid t0 t).getLast hne = (l1 ++ t :: l2).getLast (by simp) := by
      congr 1
    rw [this, List.getLast_append_of_ne_nil _ (by simp)]
    cases l2 with
    | nil => simp
    | cons b l2 =>
      have h1 := (List.pairwise_append.1 hp).2.1
      exact ((List.pairwise_cons.1 h1).1 _ (by
        rw [List.getLast_cons (by simp)]; exact List.getLast_mem _)).le

/-- The integer number of steps given bounds the mesh. -/
theorem mesh_int {tt grid : List ℝ} {n : ℕ} (hn : 2 ≤ n) (hg : IsGrid (.int n) tt grid)
    {a b : ℝ} (hs : ∀ t ∈ tt, a ≤ t ∧ t ≤ b) (ha : tt.head? = some a) (hb : tt.getLast? = some b) :
    Mesh grid ((b - a) / (n - 1)) := by
  intro x hx y hy hxy hno
  have hr : ∀ u ∈ grid, a ≤ u ∧ u ≤ b := by
    intro u hu
    rcases (hg.2 u).1 hu with h | ⟨-, ⟨v, hv, hvu⟩, w, hw, huw⟩
    · exact hs u h
    · exact ⟨(hs v hv).1.trans hvu, huw.trans (hs w hw).2⟩
  have hn1 : (0 : ℝ) < n - 1 := by
    have : (2 : ℝ) ≤ n := by exact_mod_cast hn
    linarith
  by_contra hlt
  push Not at hlt
  set h := (b - a) / ((n : ℝ) - 1) with hh
  have hpos : 0 < h := by
    have h1 := (hr x hx).1
    have h2 := (hr y hy).2
    exact div_pos (by linarith) hn1
  have hbn : b - a = h * (n - 1) := by rw [hh]; field_simp
  set k := ⌊(x - a) / h⌋₊ + 1 with hk
  have hk0 : 0 ≤ (x - a) / h := div_nonneg (by linarith [(hr x hx).1]) hpos.le
  have h1 : x < a + k * h := by
    have := Nat.lt_floor_add_one ((x - a) / h)
    rw [div_lt_iff₀ hpos] at this
    rw [hk]; push_cast; linarith
  have h2 : a + k * h ≤ x + h := by
    have := Nat.floor_le hk0
    rw [le_div_iff₀ hpos] at this
    rw [hk]; push_cast; linarith
  have hkn : k < n := by
    have h3 : (k : ℝ) * h < (n - 1) * h := by
      have := (hr y hy).2
      linarith
    have h4 := lt_of_mul_lt_mul_right h3 hpos.le
    have : (k : ℝ) < n := by linarith
    exact_mod_cast this
  refine hno (a + k * h) ((hg.2 _).2 (.inr ⟨requested_int.2 ⟨a, b, ha, hb, k, by exact_mod_cast hkn, ?_⟩,
    ⟨a, List.mem_of_mem_head? ha, ?_⟩, ⟨b, List.mem_of_getLast? hb, ?_⟩⟩)) ⟨h1, by linarith⟩
  · rw [hh]; push_cast; rfl
  · linarith [(hr x hx).1]
  · linarith [(hr y hy).2]

end Sdepy
