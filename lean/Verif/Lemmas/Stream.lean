import Mathlib.Probability.ProductMeasure
import Mathlib.MeasureTheory.Measure.Prod

/-!
# Sequences of independent draws
-/

open MeasureTheory

namespace Sdepy

variable {E : Type} [MeasurableSpace E] (μ : Measure E) [IsProbabilityMeasure μ]

/-- A sequence, with one more item in front. -/
def consSeq (p : E × (ℕ → E)) : ℕ → E
  | 0 => p.1
  | n + 1 => p.2 n

/-- The first item, and those that follow. -/
def unconsSeq (s : ℕ → E) : E × (ℕ → E) := (s 0, fun n => s (n + 1))

theorem measurable_consSeq : Measurable (consSeq (E := E)) := by
  rw [measurable_pi_iff]
  intro n
  cases n with
  | zero => exact measurable_fst
  | succ n => exact (measurable_pi_apply n).comp measurable_snd

theorem measurable_unconsSeq : Measurable (unconsSeq (E := E)) := by
  unfold unconsSeq
  fun_prop

theorem stream_cons : (μ.prod (Measure.infinitePi fun _ : ℕ => μ)).map consSeq =
    Measure.infinitePi fun _ : ℕ => μ := by
  refine Measure.eq_infinitePi _ fun s t ht => ?_
  rw [Measure.map_apply measurable_consSeq (.pi s.countable_toSet fun i _ => ht i)]
  set s' : Finset ℕ := s.preimage Nat.succ (Nat.succ_injective.injOn) with hs'
  have hpre : consSeq ⁻¹' (Set.pi s t) =
      (if 0 ∈ s then t 0 else Set.univ) ×ˢ Set.pi s' (fun n => t (n + 1)) := by
    ext ⟨e, q⟩
    simp only [Set.mem_preimage, Set.mem_pi, Set.mem_prod, hs', Finset.coe_preimage,
      Finset.mem_coe]
    constructor
    · intro h
      refine ⟨?_, fun i hi => h (i + 1) hi⟩
      split_ifs with h0
      · exact h 0 h0
      · trivial
    · rintro ⟨h0, h1⟩ i hi
      cases i with
      | zero => rw [if_pos hi] at h0; exact h0
      | succ i => exact h1 i hi
  rw [hpre, Measure.prod_prod, Measure.infinitePi_pi _ fun i _ => ht (i + 1)]
  have himg : s'.image Nat.succ = s.erase 0 := by
    ext n
    simp only [hs', Finset.mem_image, Finset.mem_preimage, Finset.mem_erase]
    constructor
    · rintro ⟨a, ha, rfl⟩; exact ⟨by omega, ha⟩
    · rintro ⟨h0, hn⟩
      exact ⟨n - 1, by rwa [Nat.succ_eq_add_one, Nat.sub_add_cancel (by omega)], by omega⟩
  have hprod : ∏ i ∈ s', μ (t (i + 1)) = ∏ i ∈ s.erase 0, μ (t i) := by
    rw [← himg, Finset.prod_image (fun a _ b _ h => Nat.succ_injective h)]
  rw [hprod]
  by_cases h0 : 0 ∈ s
  · rw [if_pos h0, Finset.mul_prod_erase s (fun i => μ (t i)) h0]
  · rw [if_neg h0, measure_univ, one_mul, Finset.erase_eq_of_notMem h0]

/-- The first item of a sequence of independent draws is independent of the others, that are again
such a sequence. -/
theorem stream_uncons : (Measure.infinitePi fun _ : ℕ => μ).map unconsSeq =
    μ.prod (Measure.infinitePi fun _ : ℕ => μ) := by
  conv_lhs => rw [← stream_cons μ]
  rw [Measure.map_map measurable_unconsSeq measurable_consSeq]
  have : unconsSeq ∘ consSeq (E := E) = id := rfl
  rw [this, Measure.map_id]

/-- In terms of events. -/
theorem stream_event {A : Set E} (hA : MeasurableSet A) {B : Set (ℕ → E)} (hB : MeasurableSet B) :
    MeasurableSet {s : ℕ → E | s 0 ∈ A ∧ (fun n => s (n + 1)) ∈ B} ∧
    (Measure.infinitePi fun _ : ℕ => μ) {s | s 0 ∈ A ∧ (fun n => s (n + 1)) ∈ B} =
      μ A * (Measure.infinitePi fun _ : ℕ => μ) B := by
  have e : {s : ℕ → E | s 0 ∈ A ∧ (fun n => s (n + 1)) ∈ B} = unconsSeq ⁻¹' (A ×ˢ B) := rfl
  rw [e]
  refine ⟨measurable_unconsSeq (hA.prod hB), ?_⟩
  rw [← Measure.map_apply measurable_unconsSeq (hA.prod hB), stream_uncons, Measure.prod_prod]

end Sdepy
