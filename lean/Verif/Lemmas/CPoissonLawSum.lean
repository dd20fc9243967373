import Verif.Lemmas.CPoissonLawIdeal

/-!
# Paths of the Poisson source along a grid of times, and the ideal compound Poisson process along it
-/

set_option linter.unusedSectionVars false
set_option linter.unusedSimpArgs false

open MeasureTheory ProbabilityTheory

namespace Sdepy

open Spec

/-! ### Positions along a grid -/

section grid
variable {L : List ℝ}

/-- Number of grid times before a time. -/
noncomputable def gpos (L : List ℝ) (u : ℝ) : ℕ := (L.filter (· < u)).length

theorem gpos_mono {a b : ℝ} (h : a ≤ b) : gpos L a ≤ gpos L b := by
  unfold gpos
  refine List.Sublist.length_le (List.monotone_filter_right _ fun u hu => ?_)
  simp only [decide_eq_true_eq] at hu ⊢
  exact hu.trans_le h

theorem gpos_get (hL : L.Pairwise (· < ·)) {k : ℕ} (hk : k < L.length) : gpos L (L.getD k 0) = k := by
  unfold gpos
  have hg : L.getD k 0 = L[k] := by simp [List.getD_eq_getElem?_getD, hk]
  rw [hg]
  generalize hv : L[k] = v
  have hd := hL
  rw [← List.take_append_drop k L, List.pairwise_append] at hd
  have hkd : L.drop k = v :: L.drop (k + 1) := hv ▸ List.drop_eq_getElem_cons hk
  rw [← List.take_append_drop k L, List.filter_append, hkd]
  rw [hkd] at hd
  have h1 : (L.take k).filter (fun u => decide (u < v)) = L.take k := by
    rw [List.filter_eq_self]
    intro u hu
    simpa using hd.2.2 u hu v (by simp)
  have h2 : (v :: L.drop (k + 1)).filter (fun u => decide (u < v)) = [] := by
    rw [List.filter_eq_nil_iff]
    intro u hu
    simp only [decide_eq_true_eq, not_lt]
    rcases List.mem_cons.1 hu with h | h
    · exact h.ge
    · exact ((List.pairwise_cons.1 hd.2.1).1 u h).le
  rw [h1, h2, List.append_nil, List.length_take]
  omega

theorem grid_lt (hL : L.Pairwise (· < ·)) {p q : ℕ} (h : p < q) (hq : q < L.length) :
    L.getD p 0 < L.getD q 0 := by
  have hp : p < L.length := h.trans hq
  simp only [List.getD_eq_getElem?_getD, List.getElem?_eq_getElem hp, List.getElem?_eq_getElem hq,
    Option.getD_some]
  exact List.pairwise_iff_getElem.1 hL p q hp hq h

theorem mem_grid {u : ℝ} (hu : u ∈ L) : ∃ p ≤ L.length - 1, u = L.getD p 0 := by
  obtain ⟨p, hp, rfl⟩ := List.mem_iff_getElem.1 hu
  exact ⟨p, by omega, by simp [List.getD_eq_getElem?_getD, hp]⟩

theorem cgrid_mem (hL : L ≠ []) {p : ℕ} (hp : p ≤ L.length - 1) : L.getD p 0 ∈ L := by
  have : 0 < L.length := List.length_pos_iff.2 hL
  have hp : p < L.length := by omega
  simp [List.getD_eq_getElem?_getD, hp]

end grid

/-! ### The ideal process -/

section ideal
variable {ι : Type} [Fintype ι] {L : List ℝ}

/-- An array of steps, null after the last one. -/
def gext {α : Type} [Zero α] {n : ℕ} (g : Fin n → α) (k : ℕ) : α := if h : k < n then g ⟨k, h⟩ else 0

/-- The process with given increments along the grid. -/
noncomputable def idealX (L : List ℝ) (t0 : ℝ) (u : ℝ) (inc : Fin (L.length - 1) → ι → ℝ) : ι → ℝ :=
  ∑ k ∈ Finset.range (gpos L u), gext inc k - ∑ k ∈ Finset.range (gpos L t0), gext inc k

/-- Independent increments with the laws of a compound Poisson process. -/
noncomputable def idealLaw (ι : Type) [Fintype ι] (lam : ℝ) (ν : Measure ℝ) (L : List ℝ) :
    Measure (Fin (L.length - 1) → ι → ℝ) :=
  Measure.pi fun k => Measure.pi fun _ => compoundPoisson (lam * (L.getD (k + 1) 0 - L.getD k 0)) ν

instance (lam : ℝ) (ν : Measure ℝ) [IsProbabilityMeasure ν] (L : List ℝ) :
    IsProbabilityMeasure (idealLaw ι lam ν L) := by
  unfold idealLaw; infer_instance

theorem measurable_idealX (t0 u : ℝ) :
    Measurable fun inc : Fin (L.length - 1) → ι → ℝ => idealX L t0 u inc := by
  have h : ∀ k, Measurable fun inc : Fin (L.length - 1) → ι → ℝ => gext inc k := by
    intro k
    unfold gext
    split_ifs
    · fun_prop
    · fun_prop
  unfold idealX
  exact (Finset.measurable_sum _ fun k _ => h k).sub (Finset.measurable_sum _ fun k _ => h k)

theorem idealX_step (hL : L.Pairwise (· < ·)) (t0 : ℝ) {p : ℕ} (hp : p < L.length - 1)
    (inc : Fin (L.length - 1) → ι → ℝ) :
    idealX L t0 (L.getD (p + 1) 0) inc - idealX L t0 (L.getD p 0) inc = inc ⟨p, hp⟩ := by
  unfold idealX
  rw [gpos_get hL (by omega), gpos_get hL (by omega), Finset.sum_range_succ]
  simp only [gext, dif_pos hp]
  abel

theorem idealX_levy {lam : ℝ} (hl : 0 ≤ lam) (ν : Measure ℝ) [IsProbabilityMeasure ν]
    (hL : L.Pairwise (· < ·)) (hne : L ≠ []) (t0 : ℝ) :
    IsLevyProcess (idealLaw ι lam ν L) (fun h => Measure.pi fun _ : ι => compoundPoisson (lam * h) ν) t0
      {v | v ∈ L} (idealX L t0) := by
  have hset : {v | v ∈ L} = {v | ∃ p ≤ L.length - 1, v = L.getD p 0} := by
    ext v
    constructor
    · exact mem_grid
    · rintro ⟨p, hp, rfl⟩
      exact cgrid_mem hne hp
  rw [hset]
  have hlen : 0 < L.length := List.length_pos_iff.2 hne
  have hs : (fun (p : Fin (L.length - 1)) inc => idealX (ι := ι) L t0 (L.getD (p + 1) 0) inc -
      idealX L t0 (L.getD p 0) inc) = fun p inc => inc p := by
    funext p inc
    exact idealX_step hL t0 p.2 inc
  refine levy_of_steps (compoundPoisson_conv hl ν) (N := L.length - 1) (u := fun p => L.getD p 0)
    (fun p q h hq => grid_lt hL h (by omega)) ?_ (fun p _ => measurable_idealX _ _) ?_ ?_
  · intro inc
    simp [idealX]
  · rw [hs]
    exact iIndepFun_pi (X := fun _ w => w) fun _ => aemeasurable_id
  · intro p hp
    have e : (fun inc => idealX (ι := ι) L t0 (L.getD (p + 1) 0) inc - idealX L t0 (L.getD p 0) inc) =
        Function.eval (⟨p, hp⟩ : Fin (L.length - 1)) := by
      funext inc
      exact idealX_step hL t0 hp inc
    rw [e]
    exact ⟨(measurable_pi_apply _).aemeasurable, (measurePreserving_eval (fun k : Fin (L.length - 1) =>
      Measure.pi fun _ : ι => compoundPoisson (lam * (L.getD (k + 1) 0 - L.getD k 0)) ν) ⟨p, hp⟩).map_eq⟩

/-- The ideal law, by number of jumps and sums of jumps. -/
theorem idealLaw_bind {lam : ℝ} (ν : Measure ℝ) [IsProbabilityMeasure ν]
    {A : Set (Fin (L.length - 1) → ι → ℝ)} (hA : MeasurableSet A) :
    idealLaw ι lam ν L A = ∑' D : Fin (L.length - 1) × ι → ℤ,
      (Measure.pi fun kc : Fin (L.length - 1) × ι => (poissonMeasure
        (lam * (L.getD (kc.1 + 1) 0 - L.getD kc.1 0)).toNNReal).map ((↑) : ℕ → ℤ)) {D} *
      (Measure.pi fun kc => sumLaw ν (D kc).toNat) {g | (fun k c => g (k, c)) ∈ A} := by
  have hu : (idealLaw ι lam ν L).map (fun f (kc : Fin (L.length - 1) × ι) => f kc.1 kc.2) =
      Measure.pi fun kc : Fin (L.length - 1) × ι =>
        compoundPoisson (lam * (L.getD (kc.1 + 1) 0 - L.getD kc.1 0)) ν := by
    symm
    refine Measure.pi_eq fun S hS => ?_
    rw [Measure.map_apply (by fun_prop) (MeasurableSet.univ_pi hS)]
    have e : (fun (f : Fin (L.length - 1) → ι → ℝ) (kc : Fin (L.length - 1) × ι) => f kc.1 kc.2) ⁻¹'
        Set.univ.pi S = Set.univ.pi fun k => Set.univ.pi fun c => S (k, c) := by
      ext f
      simp [Set.mem_pi]
    rw [e, idealLaw, Measure.pi_pi, Fintype.prod_prod_type]
    exact Finset.prod_congr rfl fun k _ => Measure.pi_pi _ _
  have hA' : MeasurableSet {g : Fin (L.length - 1) × ι → ℝ | (fun k c => g (k, c)) ∈ A} :=
    (by fun_prop : Measurable fun (g : Fin (L.length - 1) × ι → ℝ) k c => g (k, c)) hA
  have e1 : idealLaw ι lam ν L A = (Measure.pi fun kc : Fin (L.length - 1) × ι =>
      compoundPoisson (lam * (L.getD (kc.1 + 1) 0 - L.getD kc.1 0)) ν)
      {g | (fun k c => g (k, c)) ∈ A} := by
    rw [← hu, Measure.map_apply (by fun_prop) hA']
    rfl
  have hb := bind_poisson (fun kc : Fin (L.length - 1) × ι =>
    lam * (L.getD (kc.1 + 1) 0 - L.getD kc.1 0)) ν 1
  simp only [one_mul] at hb
  have hid : ∀ m : Measure ℝ, m.map (fun x => x) = m := fun m => Measure.map_id
  simp only [hid] at hb
  rw [e1, ← hb, Measure.bind_apply hA' (Measurable.aemeasurable .of_discrete), lintegral_countable']
  exact tsum_congr fun D => mul_comm _ _

end ideal

/-! ### Paths with given increments -/

section paths
variable {ι : Type} [Fintype ι] {L : List ℝ} {tn : ℝ} {n0 : ι → ℤ}
  {D : Fin (L.length - 1) × ι → ℤ}

/-- Number of jumps over a step. -/
def dstep (D : Fin (L.length - 1) × ι → ℤ) (k : ℕ) (c : ι) : ℤ :=
  if h : k < L.length - 1 then ((D (⟨k, h⟩, c)).toNat : ℤ) else 0

theorem dstep_nonneg (k : ℕ) (c : ι) : 0 ≤ dstep D k c := by
  unfold dstep; split_ifs <;> simp

/-- Path after a number of steps. -/
noncomputable def pathQ (tn : ℝ) (n0 : ι → ℤ) (D : Fin (L.length - 1) × ι → ℤ) (q : ℕ) (c : ι) : ℤ :=
  n0 c - ∑ k ∈ Finset.range (gpos L tn), dstep D k c + ∑ k ∈ Finset.range q, dstep D k c

/-- Path with given increments, and a given value. -/
noncomputable def pathD (tn : ℝ) (n0 : ι → ℤ) (D : Fin (L.length - 1) × ι → ℤ) (u : ℝ) : ι → ℤ :=
  pathQ tn n0 D (gpos L u)

theorem pathQ_succ (q : ℕ) (c : ι) : pathQ tn n0 D (q + 1) c = pathQ tn n0 D q c + dstep D q c := by
  unfold pathQ
  rw [Finset.sum_range_succ]
  ring

theorem pathQ_mono {p q : ℕ} (h : p ≤ q) (c : ι) : pathQ tn n0 D p c ≤ pathQ tn n0 D q c := by
  induction q, h using Nat.le_induction with
  | base => exact le_rfl
  | succ q _ ih =>
    rw [pathQ_succ]
    have := dstep_nonneg (D := D) q c
    omega

theorem pathD_mono : Monotone (pathD tn n0 D) := fun _ _ h c => pathQ_mono (gpos_mono h) c

theorem pathD_start : pathD tn n0 D tn = n0 := by
  funext c
  simp [pathD, pathQ]

theorem pathD_grid (hL : L.Pairwise (· < ·)) {k : ℕ} (hk : k < L.length) :
    pathD tn n0 D (L.getD k 0) = pathQ tn n0 D k := by
  rw [pathD, gpos_get hL hk]

theorem pathD_prob {lam : ℝ} (hl : 0 ≤ lam) (hL : L.Pairwise (· < ·)) (hD : ∀ kc, 0 ≤ D kc) :
    ENNReal.ofReal (poissonPathProb lam (pathD tn n0 D) L) =
      (Measure.pi fun kc : Fin (L.length - 1) × ι => (poissonMeasure
        (lam * (L.getD (kc.1 + 1) 0 - L.getD kc.1 0)).toNNReal).map ((↑) : ℕ → ℤ)) {D} := by
  have hp : ∀ m : ℝ, IsProbabilityMeasure ((poissonMeasure m.toNNReal).map ((↑) : ℕ → ℤ)) := fun m =>
    Measure.isProbabilityMeasure_map (by fun_prop)
  have hpos : ∀ k : Fin (L.length - 1), 0 ≤ lam * (L.getD (k + 1) 0 - L.getD k 0) := fun k =>
    mul_nonneg hl (sub_nonneg.2 (grid_lt hL (by omega) (by omega)).le)
  rw [Measure.pi_singleton, pathProb_steps, Finset.prod_range]
  have e : ∀ k : Fin (L.length - 1), (∏ c, poissonProb (lam * (L.getD (k + 1) 0 - L.getD k 0))
      (pathD tn n0 D (L.getD (k + 1) 0) c - pathD tn n0 D (L.getD k 0) c)) =
      ∏ c, poissonProb (lam * (L.getD (k + 1) 0 - L.getD k 0)) (D (k, c)) := by
    intro k
    refine Finset.prod_congr rfl fun c _ => ?_
    rw [pathD_grid hL (by omega), pathD_grid hL (by omega), pathQ_succ, add_sub_cancel_left]
    congr 1
    simp [dstep, hD]
  rw [Finset.prod_congr rfl fun k _ => e k, ← Fintype.prod_prod_type', ENNReal.ofReal_prod_of_nonneg]
  · exact Finset.prod_congr rfl fun kc _ => (poissonProb_measure (hpos kc.1) _).symm
  · exact fun kc _ => poissonProb_nonneg (hpos kc.1) _

theorem pathD_inj (hL : L.Pairwise (· < ·)) {D' : Fin (L.length - 1) × ι → ℤ} (hD : ∀ kc, 0 ≤ D kc)
    (hD' : ∀ kc, 0 ≤ D' kc) (h : ∀ u ∈ L, pathD tn n0 D u = pathD tn n0 D' u) : D = D' := by
  funext ⟨k, c⟩
  have hne : L ≠ [] := by
    rintro rfl
    exact absurd k.2 (by simp)
  have h1 := congrFun (h _ (cgrid_mem hne (p := k + 1) (by omega))) c
  have h0 := congrFun (h _ (cgrid_mem hne (p := k) (by omega))) c
  rw [pathD_grid hL (by omega), pathD_grid hL (by omega), pathQ_succ, pathQ_succ] at h1
  rw [pathD_grid hL (by omega), pathD_grid hL (by omega)] at h0
  have e : dstep D k c = dstep D' k c := by omega
  have a := hD (k, c)
  have b := hD' (k, c)
  simp only [dstep, k.2, dif_pos, Fin.eta] at e
  omega

/-- Sums of the jumps over each step. -/
noncomputable def binc (tn : ℝ) (n0 : ι → ℤ) (D : Fin (L.length - 1) × ι → ℤ) (Y : ι × ℤ → ℝ)
    (kc : Fin (L.length - 1) × ι) : ℝ :=
  ∑ i : Fin (D kc).toNat, Y (kc.2, pathQ tn n0 D kc.1 kc.2 + (i : ℕ))

theorem measurable_binc : Measurable (binc (L := L) tn n0 D) := by
  unfold binc
  fun_prop

theorem binc_law (ν : Measure ℝ) [IsProbabilityMeasure ν] :
    (Measure.infinitePi fun _ : ι × ℤ => ν).map (binc (L := L) tn n0 D) =
      Measure.pi fun kc => sumLaw ν (D kc).toNat := by
  classical
  refine blocks_law ν (n := fun kc : Fin (L.length - 1) × ι => (D kc).toNat)
    (e := fun kc i => (kc.2, pathQ tn n0 D kc.1 kc.2 + ((i : ℕ) : ℤ))) ?_
  rintro ⟨k, c⟩ i ⟨k', c'⟩ i' h
  simp only [Prod.mk.injEq] at h
  obtain ⟨rfl, h⟩ := h
  have h1 : pathQ tn n0 D (k + 1) c = pathQ tn n0 D k c + ((D (k, c)).toNat : ℤ) := by
    rw [pathQ_succ]; simp [dstep]
  have h2 : pathQ tn n0 D (k' + 1) c = pathQ tn n0 D k' c + ((D (k', c)).toNat : ℤ) := by
    rw [pathQ_succ]; simp [dstep]
  have i1 := i.2
  have i2 := i'.2
  have hk : k = k' := by
    rcases lt_trichotomy k k' with hlt | heq | hlt
    · have := pathQ_mono (tn := tn) (n0 := n0) (D := D) (show (k : ℕ) + 1 ≤ k' from hlt) c
      omega
    · exact heq
    · have := pathQ_mono (tn := tn) (n0 := n0) (D := D) (show (k' : ℕ) + 1 ≤ k from hlt) c
      omega
  subst hk
  exact ⟨rfl, by omega⟩

theorem psum_path (f : ℤ → ℝ) (c : ι) (q : ℕ) :
    psum f (pathQ tn n0 D q c) = psum f (pathQ tn n0 D 0 c) +
      ∑ k ∈ Finset.range q, ∑ i ∈ Finset.range (dstep D k c).toNat, f (pathQ tn n0 D k c + i) := by
  induction q with
  | zero => simp
  | succ q ih =>
    have := psum_add f (pathQ tn n0 D q c) (dstep D q c).toNat
    rw [Int.toNat_of_nonneg (dstep_nonneg q c)] at this
    rw [pathQ_succ, this, ih, Finset.sum_range_succ]
    ring

theorem gext_binc (Y : ι × ℤ → ℝ) (k : ℕ) (c : ι) :
    gext (fun (k : Fin (L.length - 1)) c => binc tn n0 D Y (k, c)) k c =
      ∑ i ∈ Finset.range (dstep D k c).toNat, Y (c, pathQ tn n0 D k c + i) := by
  unfold gext dstep
  split_ifs with h
  · rw [Int.toNat_natCast, Finset.sum_range]
    rfl
  · simp

end paths

theorem jv_path {shape : List ℕ} {L : List ℝ} {tn t0 : ℝ} {n0 : Pos shape → ℤ}
    {D : Fin (L.length - 1) × Pos shape → ℤ} {z0 : Pos shape → ℝ} (Y : Pos shape × ℤ → ℝ) (u : ℝ) :
    jv z0 t0 (pathD tn n0 D) Y u = z0 + idealX L t0 u fun k c => binc tn n0 D Y (k, c) := by
  funext c
  simp only [jv, pathD, Pi.add_apply, idealX, Pi.sub_apply, Finset.sum_apply, gext_binc]
  rw [psum_path _ _ (gpos L u), psum_path _ _ (gpos L t0)]
  ring

end Sdepy
