import Verif.Lemmas.JumpLaw
import Verif.Props.TrueCPoisson
import Mathlib.Dynamics.Ergodic.MeasurePreserving

/-!
# Jumps of a compound Poisson source with memory, as a redraw of independent variates
-/

set_option linter.unusedSectionVars false
set_option linter.unusedSimpArgs false

open MeasureTheory ProbabilityTheory

namespace Sdepy

open Spec

/-! ### Replacing independent variates by others -/

section put
variable {I : Type} {n j : ℕ}

open Classical in
/-- The variates at the positions `e` are replaced by those in `y`. -/
noncomputable def putAt (e : Fin n × Fin j → I) (Y : I → ℝ) (y : Fin n → Fin j → ℝ) : I → ℝ := fun i =>
  if h : ∃ p, e p = i then y h.choose.1 h.choose.2 else Y i

theorem putAt_at {e : Fin n × Fin j → I} (he : Function.Injective e) (Y : I → ℝ)
    (y : Fin n → Fin j → ℝ) (r : Fin n) (k : Fin j) : putAt e Y y (e (r, k)) = y r k := by
  have h : ∃ p, e p = e (r, k) := ⟨_, rfl⟩
  have h2 := he h.choose_spec
  unfold putAt
  rw [dif_pos h, h2]

theorem putAt_off {e : Fin n × Fin j → I} (Y : I → ℝ) (y : Fin n → Fin j → ℝ) {i : I}
    (h : ∀ p, e p ≠ i) : putAt e Y y i = Y i := by
  unfold putAt
  rw [dif_neg]
  rintro ⟨p, hp⟩
  exact h p hp

theorem measurable_putAt (e : Fin n × Fin j → I) :
    Measurable fun q : (I → ℝ) × (Fin n → Fin j → ℝ) => putAt e q.1 q.2 := by
  refine measurable_pi_lambda _ fun i => ?_
  unfold putAt
  split_ifs
  · fun_prop
  · fun_prop

theorem putAt_law (ν : Measure ℝ) [IsProbabilityMeasure ν] {e : Fin n × Fin j → I}
    (he : Function.Injective e) :
    ((Measure.infinitePi fun _ : I => ν).prod
      (Measure.pi fun _ : Fin n => Measure.pi fun _ : Fin j => ν)).map (fun q => putAt e q.1 q.2) =
      Measure.infinitePi fun _ : I => ν := by
  classical
  refine Measure.eq_infinitePi _ fun s t ht => ?_
  have hbox : MeasurableSet (Set.pi (s : Set I) t) :=
    MeasurableSet.pi s.countable_toSet fun i _ => ht i
  rw [Measure.map_apply (measurable_putAt e) hbox]
  let U : Finset I := s.filter fun i => ∀ p, e p ≠ i
  let V : Finset I := s.filter fun i => ¬ ∀ p, e p ≠ i
  let T : Fin n → Fin j → Set ℝ := fun r k => if e (r, k) ∈ s then t (e (r, k)) else Set.univ
  have hset : (fun q : (I → ℝ) × (Fin n → Fin j → ℝ) => putAt e q.1 q.2) ⁻¹' Set.pi (s : Set I) t =
      (Set.pi (U : Set I) t) ×ˢ Set.pi Set.univ fun r => Set.pi Set.univ (T r) := by
    ext ⟨Y, y⟩
    simp only [Set.mem_preimage, Set.mem_pi, Finset.mem_coe, Set.mem_prod, Set.mem_univ,
      true_implies, U, Finset.mem_filter, T]
    constructor
    · intro h
      refine ⟨fun i hi => ?_, fun r k => ?_⟩
      · have := h i hi.1
        rwa [putAt_off Y y hi.2] at this
      · split_ifs with hin
        · have := h _ hin
          rwa [putAt_at he] at this
        · trivial
    · rintro ⟨h1, h2⟩ i hi
      by_cases hp : ∀ p, e p ≠ i
      · rw [putAt_off Y y hp]; exact h1 i ⟨hi, hp⟩
      · push Not at hp
        obtain ⟨⟨r, k⟩, rfl⟩ := hp
        have := h2 r k
        rw [if_pos hi] at this
        rwa [putAt_at he]
  rw [hset, Measure.prod_prod, Measure.infinitePi_pi _ (fun i _ => ht i)]
  simp only [Measure.pi_pi]
  rw [← Finset.prod_filter_mul_prod_filter_not s (fun i => ∀ p, e p ≠ i)]
  congr 1
  rw [← Fintype.prod_prod_type (f := fun p : Fin n × Fin j => ν (T p.1 p.2))]
  have hV : V = (Finset.univ.filter fun p => e p ∈ s).image e := by
    ext i
    simp only [V, Finset.mem_filter, Finset.mem_image, Finset.mem_univ, true_and]
    constructor
    · rintro ⟨hi, hp⟩
      push Not at hp
      obtain ⟨p, rfl⟩ := hp
      exact ⟨p, hi, rfl⟩
    · rintro ⟨p, hp, rfl⟩
      exact ⟨hp, fun h => h p rfl⟩
  change _ = ∏ i ∈ V, ν (t i)
  rw [hV, Finset.prod_image (fun a _ b _ h => he h), Finset.prod_filter]
  refine Finset.prod_congr rfl fun p _ => ?_
  simp only [T]
  split_ifs <;> simp

/-- Variates drawn from the generator are as good as those they replace. -/
theorem putAt_preserving {σ : Type} [MeasurableSpace σ] {μ : Measure σ} [IsProbabilityMeasure μ]
    (ν : Measure ℝ) [IsProbabilityMeasure ν] {e : Fin n × Fin j → I} (he : Function.Injective e)
    {g : σ → (Fin n → Fin j → ℝ) × σ} (hg : Measurable g)
    (hm : μ.map g = (Measure.pi fun _ : Fin n => Measure.pi fun _ : Fin j => ν).prod μ) :
    MeasurePreserving (fun q : (I → ℝ) × σ => (putAt e q.1 (g q.2).1, (g q.2).2))
      ((Measure.infinitePi fun _ : I => ν).prod μ) ((Measure.infinitePi fun _ : I => ν).prod μ) := by
  have hme : Measurable fun q : (I → ℝ) × σ => (putAt e q.1 (g q.2).1, (g q.2).2) :=
    ((measurable_putAt e).comp (measurable_fst.prodMk (measurable_fst.comp (hg.comp measurable_snd)))).prodMk
      (measurable_snd.comp (hg.comp measurable_snd))
  refine ⟨hme, ?_⟩
  set π := Measure.infinitePi fun _ : I => ν
  set ρ := Measure.pi fun _ : Fin n => Measure.pi fun _ : Fin j => ν
  have h1 : (π.prod μ).map (fun q : (I → ℝ) × σ => (q.1, g q.2)) = π.prod (ρ.prod μ) := by
    have := Measure.map_prod_map π μ (f := id) (g := g) measurable_id hg
    rw [Measure.map_id, hm] at this
    rw [this]; rfl
  have h2 : (π.prod (ρ.prod μ)).map (fun q => ((q.1, q.2.1), q.2.2)) = (π.prod ρ).prod μ := by
    have := (measurePreserving_prodAssoc π ρ μ).symm.map_eq
    exact this
  have h3 : ((π.prod ρ).prod μ).map (fun q => (putAt e q.1.1 q.1.2, q.2)) = π.prod μ := by
    have := Measure.map_prod_map (π.prod ρ) μ (f := fun q => putAt e q.1 q.2) (g := id)
      (measurable_putAt e) measurable_id
    rw [Measure.map_id, putAt_law ν he] at this
    rw [this]; rfl
  have m1 : Measurable fun q : (I → ℝ) × σ => (q.1, g q.2) :=
    measurable_fst.prodMk (hg.comp measurable_snd)
  have m2 : Measurable fun q : (I → ℝ) × (Fin n → Fin j → ℝ) × σ => ((q.1, q.2.1), q.2.2) := by
    fun_prop
  have m3 : Measurable fun q : ((I → ℝ) × (Fin n → Fin j → ℝ)) × σ => (putAt e q.1.1 q.1.2, q.2) :=
    ((measurable_putAt e).comp measurable_fst).prodMk measurable_snd
  rw [← h1, Measure.map_map m2 m1] at h2
  rw [← h2, Measure.map_map m3 (m2.comp m1)] at h3
  exact h3

end put

/-! ### The loop over the numbers of jumps -/

section loop
variable {σ Zn : Type} [MeasurableSpace σ] {μ : Measure σ} [IsProbabilityMeasure μ]
  {ν : Measure ℝ} [IsProbabilityMeasure ν] {shape : List ℕ}

theorem jumpLoop_succ {Y : Type} [CommRing Y] {σ : Type} (rvs : Rvs Y σ) (sg : ℤ) (dn : Arr ℤ) (n j : ℕ)
    (dz : Arr Y) (ys : List (YSample Y)) (s : σ) :
    jumpLoop rvs sg dn (n + 1) j dz ys s =
      if cellsAt dn j = [] then jumpLoop rvs sg dn n (j + 1) dz ys s
      else
        match rvs (cellsAt dn j).length j s with
        | .error e => .error e
        | .ok (y, s) =>
          match maskAssign dz dn.shape (cellsAt dn j)
              (fun r => (sg : Y) * ((List.range j).map (y r)).sum) with
          | .error e => .error e
          | .ok dz => jumpLoop rvs sg dn n (j + 1) dz (ys ++ [⟨(cellsAt dn j).length, j, y⟩]) s := rfl

theorem redraw_loop {rvs : Rvs ℝ σ} (hv : VariatesLaw μ ν rvs) (sg : ℤ) (d b : Pos shape → ℤ) (n j : ℕ) :
    ∃ Φ : (Pos shape × ℤ → ℝ) × σ → (Pos shape × ℤ → ℝ) × σ,
      MeasurePreserving Φ ((Measure.infinitePi fun _ : Pos shape × ℤ => ν).prod μ)
        ((Measure.infinitePi fun _ : Pos shape × ℤ => ν).prod μ) ∧
      ∀ (Y : Pos shape × ℤ → ℝ) (m : Mem ℝ Zn σ) dz ys, dz.shape = shape → ∃ dz' new,
        jumpLoop (rvsMem rvs) sg (ofPos 0 d) n j dz ys m =
          .ok ((dz', ys ++ new), { m with s := (Φ (Y, m.s)).2 }) ∧
        (∀ y ∈ new, ∀ r (c : Pos shape), (cellsAt (ofPos 0 d) y.j)[r]? = some c.1 → ∀ k < y.j,
          y.val r k = (Φ (Y, m.s)).1 (c, b c + k)) ∧
        ∀ c k, ¬ (j ≤ d c ∧ b c ≤ k ∧ k < b c + d c) → (Φ (Y, m.s)).1 (c, k) = Y (c, k) := by
  induction n generalizing j with
  | zero =>
    refine ⟨id, MeasurePreserving.id _, fun Y m dz ys _ => ⟨dz, [], ?_, by simp, fun _ _ _ => rfl⟩⟩
    simp [jumpLoop]
  | succ n ih =>
    obtain ⟨Φ, hΦ, hrun⟩ := ih (j + 1)
    by_cases hc : cellsAt (ofPos 0 d) j = []
    · refine ⟨Φ, hΦ, fun Y m dz ys hs => ?_⟩
      obtain ⟨dz', new, h1, h2, h3⟩ := hrun Y m dz ys hs
      refine ⟨dz', new, ?_, h2, fun c k hk => h3 c k fun h => hk ⟨by push_cast at h; omega, h.2⟩⟩
      rw [← h1, jumpLoop_succ, if_pos hc]
    · set cells := cellsAt (ofPos 0 d) j with hcells
      have hin : ∀ r : Fin cells.length, InRange shape cells[r] := fun r =>
        (mem_cellsAt.1 (List.getElem_mem r.2)).1
      have hdj : ∀ r : Fin cells.length, d ⟨cells[r], hin r⟩ = j := fun r => by
        have := (mem_cellsAt.1 (List.getElem_mem r.2)).2
        rwa [show cells[r.1] = (⟨cells[r], hin r⟩ : Pos shape).1 from rfl, ofPos_get] at this
      let e : Fin cells.length × Fin j → Pos shape × ℤ := fun p =>
        (⟨cells[p.1], hin p.1⟩, b ⟨cells[p.1], hin p.1⟩ + (p.2 : ℕ))
      have he : Function.Injective e := by
        rintro ⟨r, k⟩ ⟨r', k'⟩ h
        simp only [e, Prod.mk.injEq, Subtype.mk.injEq] at h
        have hr : r = r' := Fin.ext ((cellsAt_nodup _ _).getElem_inj_iff.1 h.1)
        subst hr
        refine Prod.ext rfl (Fin.ext ?_)
        have := h.2
        simp at this ⊢
        omega
      obtain ⟨g, hg, hgr, hgm⟩ := hv cells.length j
      have hp := putAt_preserving ν he hg hgm
      refine ⟨Φ ∘ fun q => (putAt e q.1 (g q.2).1, (g q.2).2), hΦ.comp hp, fun Y m dz ys hs => ?_⟩
      have hgs : (rvs cells.length j m.s).map (fun r =>
          (fun (a : Fin cells.length) (b : Fin j) => r.1 a b, r.2)) = .ok (g m.s) := hgr m.s
      cases hrv : rvs cells.length j m.s with
      | error e => rw [hrv] at hgs; cases hgs
      | ok r =>
        rw [hrv] at hgs
        simp only [Except.map, Except.ok.injEq] at hgs
        have hs2 : (g m.s).2 = r.2 := by rw [← hgs]
        obtain ⟨dz1, e1, e2, e3⟩ := maskAssign_full (dz := dz) (cells := cells)
          (v := fun a => (sg : ℝ) * ((List.range j).map (r.1 a)).sum)
          (fun i hi => by rw [hs]; exact (mem_cellsAt.1 hi).1)
        obtain ⟨dz', new, h1, h2, h3⟩ := hrun (putAt e Y (g m.s).1) { m with s := r.2 } dz1
          (ys ++ [⟨cells.length, j, r.1⟩]) (e2.trans hs)
        simp only at h1 h2 h3
        simp only [Function.comp_apply, hs2]
        refine ⟨dz', ⟨cells.length, j, r.1⟩ :: new, ?_, ?_, ?_⟩
        · have hs' : (ofPos 0 d : Arr ℤ).shape = dz.shape := hs.symm
          rw [jumpLoop_succ, if_neg hc, ← hcells]
          simp only [rvsMem, hrv]
          rw [← hs'] at e1
          rw [e1]
          simp only
          rw [h1]
          simp
        · intro y hy s c hcs k hk
          rcases List.mem_cons.1 hy with rfl | hy
          · simp only at hcs hk ⊢
            obtain ⟨hlt, hcc⟩ := List.getElem?_eq_some_iff.1 hcs
            have hd : d c = j := by
              have := hdj ⟨s, hlt⟩
              rwa [show (⟨cells[(⟨s, hlt⟩ : Fin cells.length)], hin ⟨s, hlt⟩⟩ : Pos shape) = c from
                Subtype.ext hcc] at this
            rw [h3 c _ (by push_cast; omega)]
            have hput := putAt_at he Y (g m.s).1 ⟨s, hlt⟩ ⟨k, hk⟩
            have hee : e (⟨s, hlt⟩, ⟨k, hk⟩) = (c, b c + k) := by
              have : (⟨cells[(⟨s, hlt⟩ : Fin cells.length)], hin ⟨s, hlt⟩⟩ : Pos shape) = c :=
                Subtype.ext hcc
              simp only [e, this]
            rw [hee] at hput
            rw [hput, ← hgs]
          · exact h2 y hy s c hcs k hk
        · intro c k hk
          rw [h3 c k (fun h => hk ⟨by push_cast at h; omega, h.2⟩)]
          refine putAt_off _ _ fun p hp => ?_
          have hd := hdj p.1
          simp only [e, Prod.mk.injEq] at hp
          rw [hp.1] at hd hp
          have := p.2.2
          omega

end loop

end Sdepy
