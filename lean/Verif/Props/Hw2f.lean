import Verif.Props.ArrAnalytical
import Verif.Props.ArrSDE

/-!
# C70: parameters of the analytical results for a Hull-White process with two factors
-/

namespace Sdepy

open Spec Real

theorem list_cases2 (s : List ℕ) : s = [] ∨ (∃ n, s = [n]) ∨ ∃ pre w u, s = pre ++ [w, u] := by
  rcases s.eq_nil_or_concat' with rfl | ⟨l, u, rfl⟩
  · exact .inl rfl
  · rcases l.eq_nil_or_concat' with rfl | ⟨l', w, rfl⟩
    · exact .inr (.inl ⟨u, rfl⟩)
    · exact .inr (.inr ⟨l', w, u, by simp⟩)

theorem otherAxes_two (pre : List ℕ) (w u : ℕ) : otherAxes (pre ++ [w, u]) = pre ++ [u] := by
  unfold otherAxes
  rw [if_neg (by simp)]
  have h1 : (pre ++ [w, u]).dropLast.dropLast = pre := by
    rw [show pre ++ [w, u] = pre ++ [w] ++ [u] by simp, List.dropLast_concat, List.dropLast_concat]
  have h2 : (pre ++ [w, u]).drop ((pre ++ [w, u]).length - 1) = [u] := by
    rw [show pre ++ [w, u] = pre ++ [w] ++ [u] by simp]
    simp
  rw [h1, h2]

theorem sizeFromLast_zero (pre : List ℕ) (u : ℕ) : sizeFromLast (pre ++ [u]) 0 = u := by
  simp [sizeFromLast]

theorem sizeFromLast_succ (pre : List ℕ) (u j : ℕ) :
    sizeFromLast (pre ++ [u]) (j + 1) = sizeFromLast pre j := by
  simp [sizeFromLast]

theorem factorShape_short {s : List ℕ} (h : FactorShape s) (hl : s.length ≤ 1) :
    s = [] ∨ s = [1] ∨ s = [2] := by
  rcases s with _ | ⟨n, _ | ⟨m, t⟩⟩
  · exact .inl rfl
  · exact .inr (h.1 rfl)
  · simp at hl

/-- Setup of numbers and vectors. -/
theorem hw2fSetup_vectors {x0 theta k sigma : Arr ℝ}
    (hs : ∀ j, FactorShape ((![x0, theta, k, sigma] : Fin 4 → Arr ℝ) j).shape)
    (hl : ∀ j, ((![x0, theta, k, sigma] : Fin 4 → Arr ℝ) j).shape.length ≤ 1) :
    ∃ v, hw2fSetup x0 theta k sigma = .ok v ∧ ∀ f p, (v f p).shape = [] ∧
      ∀ i c, (v f p).get i = factorValue ((![x0, theta, k, sigma] : Fin 4 → Arr ℝ) p) f c := by
  set a : Fin 4 → Arr ℝ := ![x0, theta, k, sigma] with ha
  have hsh : ∀ j, (a j).shape = [] ∨ (a j).shape = [1] ∨ (a j).shape = [2] :=
    fun j => factorShape_short (hs j) (hl j)
  have hfit : ∀ s ∈ (List.ofFn fun j => (a j).shape), Fits s [2] := by
    intro s hs'
    obtain ⟨j, rfl⟩ := (List.mem_ofFn' _ _).1 hs'
    show Fits (a j).shape [2]
    rcases hsh j with h | h | h <;> rw [h, fits_iff]
    · exact fitsRev_nil _
    · exact fitsRev_cons.2 ⟨.inl rfl, fitsRev_nil _⟩
    · exact fitsRev_refl _
  obtain ⟨S, hS, hf⟩ := joint_of_fits hfit
  have hmem : ∀ j, (a j).shape ∈ List.ofFn fun j => (a j).shape := fun j => (List.mem_ofFn' _ _).2 ⟨j, rfl⟩
  have hSs : S = [] ∨ S = [1] ∨ S = [2] := by
    by_cases hne : S = []
    · exact .inl hne
    · obtain ⟨s, hs', e⟩ := hS.length hne
      obtain ⟨j, rfl⟩ := (List.mem_ofFn' _ _).1 hs'
      have h1 : S.length ≤ 1 := by rw [← e]; exact hl j
      obtain ⟨n, rfl⟩ : ∃ n, S = [n] := by
        rcases S with _ | ⟨n, _ | ⟨m, t⟩⟩
        · exact absurd rfl hne
        · exact ⟨n, rfl⟩
        · simp at h1
      have := hf 0
      simp [sizeFromLast] at this
      simpa using this
  have hb : bcAll a = .ok fun j => ⟨S, (a j).bget⟩ := by
    unfold bcAll; rw [bcShapes_iff.2 hS]
  have hval : ∀ p, S = [] → (a p).shape = [] := by
    intro p hS0
    have := hS.length_le _ (hmem p)
    rw [hS0] at this
    exact List.length_eq_zero_iff.1 (by simpa using this)
  have hone : ∀ p, S = [1] → (a p).shape ≠ [2] := by
    intro p h1 h2
    have := hS.fits _ (hmem p) 0
    rw [h1, h2] at this
    simp [sizeFromLast] at this
  unfold hw2fSetup
  rw [← ha, hb]
  rcases hSs with rfl | rfl | rfl
  · refine ⟨_, rfl, fun f p => ⟨rfl, fun i c => ?_⟩⟩
    have := hval p rfl
    simp only [Arr.bget, factorValue, this]
    rfl
  · refine ⟨_, rfl, fun f p => ⟨rfl, fun i c => ?_⟩⟩
    rcases hsh p with h | h | h
    · simp only [Arr.scalar, Arr.bget, factorValue, h]; rfl
    · simp only [Arr.scalar, Arr.bget, factorValue, h]; simp [bcIdxRev]
    · exact absurd h (hone p rfl)
  · refine ⟨_, rfl, fun f p => ⟨rfl, fun i c => ?_⟩⟩
    rcases hsh p with h | h | h
    · simp only [Arr.scalar, Arr.bget, factorValue, h]; rfl
    · simp only [Arr.scalar, Arr.bget, factorValue, h]; simp [bcIdxRev]
    · simp only [Arr.scalar, Arr.bget, factorValue, h]
      fin_cases f <;> simp [bcIdxRev]

theorem fitsRev_drop {u w p n : ℕ} {z pre : List ℕ} (h : FitsRev (u :: w :: z) (p :: n :: pre)) :
    FitsRev (u :: z) (p :: pre) := by
  rw [fitsRev_cons, List.tail_cons, fitsRev_cons, List.tail_cons] at h
  rw [fitsRev_cons, List.tail_cons]
  exact ⟨by simpa using h.1, h.2.2⟩

/-- Removing the axis of factors from shapes and from their joint shape. -/
theorem joint_otherAxes {l : List (List ℕ)} {pre : List ℕ} {n p : ℕ} (h : Joint l (pre ++ [n, p]))
    (hv : ∀ s ∈ l, s.length = 1 → s = [1]) : Joint (l.map otherAxes) (pre ++ [p]) := by
  have hr : (pre ++ [n, p]).reverse = p :: n :: pre.reverse := by simp
  refine ⟨?_, ?_, ?_, ?_⟩
  · intro s' hs'
    obtain ⟨s, hs, rfl⟩ := List.mem_map.1 hs'
    rcases list_cases2 s with rfl | ⟨m, rfl⟩ | ⟨q, w, u, rfl⟩
    · exact fitsRev_nil _
    · exact fitsRev_nil _
    · rw [otherAxes_two, fits_iff]
      have := fits_iff.1 (h.fits _ hs)
      rw [hr, show (q ++ [w, u]).reverse = u :: w :: q.reverse by simp] at this
      rw [List.reverse_append, List.reverse_append]
      exact fitsRev_drop this
  · intro s' hs'
    obtain ⟨s, hs, rfl⟩ := List.mem_map.1 hs'
    rcases list_cases2 s with rfl | ⟨m, rfl⟩ | ⟨q, w, u, rfl⟩
    · simp [otherAxes]
    · simp [otherAxes]
    · have := h.length_le _ hs
      rw [otherAxes_two]
      simp only [List.length_append, List.length_cons, List.length_nil] at this ⊢
      omega
  · intro j hj
    cases j with
    | zero =>
      rw [sizeFromLast_zero] at hj
      have e0 : sizeFromLast (pre ++ [n, p]) 0 = p := by
        rw [show pre ++ [n, p] = pre ++ [n] ++ [p] by simp, sizeFromLast_zero]
      obtain ⟨s, hs, e⟩ := h.sizes 0 (by rw [e0]; exact hj)
      refine ⟨otherAxes s, List.mem_map.2 ⟨s, hs, rfl⟩, ?_⟩
      rw [sizeFromLast_zero]
      rw [e0] at e
      rcases list_cases2 s with rfl | ⟨m, rfl⟩ | ⟨q, w, u, rfl⟩
      · exact absurd e.symm (by simpa [sizeFromLast] using hj)
      · have := hv _ hs rfl
        rw [this] at e
        exact absurd e.symm (by simpa [sizeFromLast] using hj)
      · rw [otherAxes_two, sizeFromLast_zero]
        rw [show q ++ [w, u] = q ++ [w] ++ [u] by simp, sizeFromLast_zero] at e
        exact e
    | succ j =>
      have e0 : sizeFromLast (pre ++ [n, p]) (j + 2) = sizeFromLast pre j := by
        rw [show pre ++ [n, p] = pre ++ [n] ++ [p] by simp, sizeFromLast_succ, sizeFromLast_succ]
      rw [sizeFromLast_succ] at hj
      obtain ⟨s, hs, e⟩ := h.sizes (j + 2) (by rw [e0]; exact hj)
      refine ⟨otherAxes s, List.mem_map.2 ⟨s, hs, rfl⟩, ?_⟩
      rw [sizeFromLast_succ]
      rw [e0] at e
      rcases list_cases2 s with rfl | ⟨m, rfl⟩ | ⟨q, w, u, rfl⟩
      · exact absurd e.symm (by simpa [sizeFromLast] using hj)
      · exact absurd e.symm (by simpa [sizeFromLast] using hj)
      · rw [otherAxes_two, sizeFromLast_succ]
        rw [show q ++ [w, u] = q ++ [w] ++ [u] by simp, sizeFromLast_succ, sizeFromLast_succ] at e
        exact e
  · intro _
    obtain ⟨s, hs, e⟩ := h.length (by simp)
    refine ⟨otherAxes s, List.mem_map.2 ⟨s, hs, rfl⟩, ?_⟩
    rcases list_cases2 s with rfl | ⟨m, rfl⟩ | ⟨q, w, u, rfl⟩
    · simp at e
    · simp at e
    · rw [otherAxes_two]
      simp only [List.length_append, List.length_cons, List.length_nil] at e ⊢
      omega

/-- If shapes without the axis of factors can be broadcast, so can the shapes. -/
theorem fits_of_otherAxes {l : List (List ℕ)} {D : List ℕ} {m : ℕ} (h : ∀ s ∈ l.map otherAxes, Fits s D)
    (hD : ∀ s ∈ l, 2 ≤ s.length → D ≠ []) (hv : ∀ s ∈ l, s.length = 1 → s = [1])
    (hm : ∀ s ∈ l, 2 ≤ s.length → sizeFromLast s 1 = 1 ∨ sizeFromLast s 1 = m) :
    ∀ s ∈ l, Fits s (insertFactor D m) := by
  intro s hs
  rcases list_cases2 s with rfl | ⟨q, rfl⟩ | ⟨q, w, u, rfl⟩
  · exact fitsRev_nil _
  · rw [hv _ hs rfl, fits_iff]
    exact fitsRev_cons.2 ⟨.inl rfl, fitsRev_nil _⟩
  · have hne := hD _ hs (by simp)
    obtain ⟨pre, p, rfl⟩ := (D.eq_nil_or_concat').resolve_left hne
    have h1 := fits_iff.1 (h _ (List.mem_map.2 ⟨_, hs, rfl⟩))
    rw [otherAxes_two, List.reverse_append, List.reverse_append] at h1
    have h2 := hm _ hs (by simp)
    rw [show q ++ [w, u] = q ++ [w] ++ [u] by simp, sizeFromLast_succ, sizeFromLast_zero] at h2
    have e : insertFactor (pre ++ [p]) m = pre ++ [m] ++ [p] := by
      simp [insertFactor]
    rw [e, fits_iff]
    simp only [List.reverse_append, List.reverse_cons, List.reverse_nil, List.nil_append,
      List.singleton_append, List.cons_append] at h1 ⊢
    rw [fitsRev_cons, List.tail_cons] at h1
    rw [fitsRev_cons, List.tail_cons, fitsRev_cons, List.tail_cons]
    exact ⟨by simpa using h1.1, by simpa using h2, h1.2⟩

theorem insertFactor_snoc (cp : List ℕ) (i k : ℕ) : insertFactor (cp ++ [i]) k = cp ++ [k, i] := by
  simp [insertFactor]

theorem fits_insertFactor {D T : List ℕ} (h : Fits D T) (hD : D ≠ []) (hl : D.length ≤ T.length) (m : ℕ) :
    Fits (insertFactor D m) (insertFactor T m) := by
  obtain ⟨d, p, rfl⟩ := (D.eq_nil_or_concat').resolve_left hD
  obtain ⟨t, u, rfl⟩ := (T.eq_nil_or_concat').resolve_left (by rintro rfl; simp at hl)
  rw [insertFactor_snoc, insertFactor_snoc, fits_iff]
  rw [fits_iff] at h
  simp only [List.reverse_append, List.reverse_cons, List.reverse_nil, List.nil_append,
    List.singleton_append, List.cons_append] at h ⊢
  rw [fitsRev_cons, List.tail_cons] at h ⊢
  rw [fitsRev_cons, List.tail_cons]
  exact ⟨by simpa using h.1, .inr (by simp), h.2⟩

theorem inRange_insertFactor {t c : List ℕ} {u i : ℕ} (h : InRange (t ++ [u]) (c ++ [i])) (k : Fin 2) :
    InRange (t ++ [2, u]) (c ++ [(k : ℕ), i]) := by
  have := insertFactor_inRange (vshape := t) (F := 2) (p := u) ⟨c ++ [i], h⟩ k
  simpa [insertFactor_snoc] using this

theorem inRange_concat {T c : List ℕ} (h : InRange T c) (hT : T ≠ []) :
    ∃ t u d i, T = t ++ [u] ∧ c = d ++ [i] := by
  have hl := h.length_eq
  obtain ⟨t, u, rfl⟩ := (T.eq_nil_or_concat').resolve_left hT
  obtain ⟨d, i, rfl⟩ := (c.eq_nil_or_concat').resolve_left (by rintro rfl; simp at hl)
  exact ⟨t, u, d, i, rfl, rfl⟩

/-- Setup of parameters, as arrays with a value for each factor. -/
theorem hw2fSetup_ew {x0 theta k sigma : Arr ℝ}
    (hs : ∀ j, FactorShape ((![x0, theta, k, sigma] : Fin 4 → Arr ℝ) j).shape)
    (hu : Unmixed (![x0, theta, k, sigma] : Fin 4 → Arr ℝ)) {l : List (List ℕ)}
    (hl : l = List.ofFn fun j => otherAxes ((![x0, theta, k, sigma] : Fin 4 → Arr ℝ) j).shape) :
    ((∃ S, Joint l S) → ∃ v, hw2fSetup x0 theta k sigma = .ok v ∧ ∀ f p,
      Ew l (.ok (v f p)) (factorValue ((![x0, theta, k, sigma] : Fin 4 → Arr ℝ) p) f)) ∧
    ((¬ ∃ S, Joint l S) → hw2fSetup x0 theta k sigma = .error .valueError) := by
  by_cases hshort : ∀ j, ((![x0, theta, k, sigma] : Fin 4 → Arr ℝ) j).shape.length ≤ 1
  · obtain ⟨v, hv, hv'⟩ := hw2fSetup_vectors hs hshort
    have h0 : Joint l [] := by
      have hm : ∀ s ∈ l, s = [] := by
        intro s hs'
        rw [hl] at hs'
        obtain ⟨j, rfl⟩ := (List.mem_ofFn' _ _).1 hs'
        exact if_pos (hshort j)
      refine ⟨?_, ?_, fun j hj => absurd (by simp [sizeFromLast]) hj, by simp⟩
      · intro s hs'; rw [hm s hs']; exact fitsRev_nil _
      · intro s hs'; rw [hm s hs']
    refine ⟨fun _ => ⟨v, hv, fun f p => ⟨fun S hS => ⟨_, rfl, ?_, fun T c _ _ _ => ?_⟩, fun hn => absurd ⟨_, h0⟩ hn⟩⟩,
      fun hn => absurd ⟨_, h0⟩ hn⟩
    · rw [(hv' f p).1]; exact h0.unique hS
    · exact (hv' f p).2 _ c
  have hne2 := hu.resolve_left hshort
  push Not at hshort
  obtain ⟨j0, hj0⟩ := hshort
  set a : Fin 4 → Arr ℝ := ![x0, theta, k, sigma] with ha
  set ls := List.ofFn fun j => (a j).shape with hls
  have hlm : l = ls.map otherAxes := by rw [hl, hls, List.map_ofFn]; rfl
  have hmem : ∀ j, (a j).shape ∈ ls := fun j => (List.mem_ofFn' _ _).2 ⟨j, rfl⟩
  have hv : ∀ s ∈ ls, s.length = 1 → s = [1] := by
    intro s hs' h1
    obtain ⟨j, rfl⟩ := (List.mem_ofFn' _ _).1 hs'
    exact ((hs j).1 h1).resolve_right (hne2 j)
  have hm : ∀ s ∈ ls, 2 ≤ s.length → sizeFromLast s 1 = 1 ∨ sizeFromLast s 1 = 2 := by
    intro s hs' h1
    obtain ⟨j, rfl⟩ := (List.mem_ofFn' _ _).1 hs'
    exact (hs j).2 h1
  have hlong : ∀ S, Joint ls S → ∃ pre n p, S = pre ++ [n, p] := by
    intro S hS
    have := hS.length_le _ (hmem j0)
    rcases list_cases2 S with rfl | ⟨n, rfl⟩ | h
    · simp only [List.length_nil] at this; omega
    · simp only [List.length_cons, List.length_nil] at this; omega
    · exact h
  refine ⟨fun ⟨D, hD⟩ => ?_, fun hn => ?_⟩
  swap
  · have : bcShapes ls = none := bcShapes_none fun ⟨S, hS⟩ => by
      obtain ⟨pre, n, p, rfl⟩ := hlong S hS
      exact hn ⟨_, hlm ▸ joint_otherAxes hS hv⟩
    unfold hw2fSetup bcAll
    rw [← ha, ← hls, this]
  · rw [hlm] at hD
    have hDne : ∀ s ∈ ls, 2 ≤ s.length → D ≠ [] := by
      rintro s hs' h1 rfl
      have := hD.length_le _ (List.mem_map.2 ⟨s, hs', rfl⟩)
      rcases list_cases2 s with rfl | ⟨n, rfl⟩ | ⟨q, w, u, rfl⟩
      · simp at h1
      · simp at h1
      · rw [otherAxes_two] at this; simp at this
    have hDn : D ≠ [] := hDne _ (hmem j0) hj0
    obtain ⟨S, hS, hSf⟩ := joint_of_fits (fits_of_otherAxes hD.fits hDne hv hm)
    obtain ⟨pre, n, p, rfl⟩ := hlong S hS
    obtain rfl := (joint_otherAxes hS hv).unique hD
    have hn : n = 1 ∨ n = 2 := by
      have := hSf 1
      rw [insertFactor_snoc, show pre ++ [n, p] = pre ++ [n] ++ [p] by simp,
        show pre ++ [2, p] = pre ++ [2] ++ [p] by simp, sizeFromLast_succ, sizeFromLast_zero,
        sizeFromLast_succ, sizeFromLast_zero] at this
      exact this
    have hb : bcAll a = .ok fun j => ⟨pre ++ [n, p], (a j).bget⟩ := by
      unfold bcAll; rw [← hls, bcShapes_iff.2 hS]
    refine ⟨fun f q => (⟨pre ++ [n, p], (a q).bget⟩ : Arr ℝ).pick2 (if f = 0 then 0 else n - 1), ?_, fun f q => ?_⟩
    · unfold hw2fSetup
      rw [← ha, hb]
      simp only [List.reverse_append, List.reverse_cons, List.reverse_nil, List.nil_append,
        List.singleton_append, List.cons_append]
      rw [if_neg (by omega), if_pos hn]
    · have hsh : ((⟨pre ++ [n, p], (a q).bget⟩ : Arr ℝ).pick2 (if f = 0 then 0 else n - 1)).shape = pre ++ [p] := by
        show (pre ++ [n, p]).dropLast.dropLast ++ (pre ++ [n, p]).getLast?.toList = _
        rw [show pre ++ [n, p] = pre ++ [n] ++ [p] by simp, List.dropLast_concat, List.dropLast_concat]
        simp
      refine ⟨fun S' hS' => ⟨_, rfl, hsh.trans (hD.unique (hlm ▸ hS')), fun T c hT hlT hc => ?_⟩,
        fun hn' => absurd ⟨_, hlm ▸ hD⟩ hn'⟩
      obtain rfl := hD.unique (hlm ▸ hS')
      have hins := fits_trans hSf (fits_insertFactor hT hDn hlT 2)
      obtain ⟨t, u, d, i, rfl, rfl⟩ := inRange_concat hc (by rintro rfl; simp at hlT)
      rw [insertFactor_snoc] at hins
      have hc' := inRange_insertFactor hc f
      have hfa := hS.fits _ (hmem q)
      have key : cellValue ((⟨pre ++ [n, p], (a q).bget⟩ : Arr ℝ).pick2 (if f = 0 then 0 else n - 1)) (d ++ [i])
          = (a q).bget (d ++ [(f : ℕ), i]) := by
        rw [cellValue_eq _ (hsh ▸ hT) hc]
        have hg : ∀ b : Arr ℝ, b.bget (d ++ [i]) =
            b.get ((bcIdxRev b.shape.reverse (d ++ [i]).reverse).reverse) := fun _ => rfl
        rw [hg, hsh]
        rw [← bget_bcast (a q) (hS.bcOk (hmem q)) (d ++ [(f : ℕ), i])]
        show (a q).bget _ = (a q).bget _
        congr 1
        simp only [List.reverse_append, List.reverse_cons, List.reverse_nil, List.nil_append,
          List.singleton_append, List.cons_append, bcIdxRev]
        simp
        fin_cases f <;> rcases hn with rfl | rfl <;> simp
      rw [key]
      rcases list_cases2 (a q).shape with h | ⟨w, h⟩ | ⟨z, w, y, h⟩
      · simp only [factorValue, h, Arr.bget]; simp [bcIdxRev]
      · have hw : [w] = [1] := by rw [← h]; exact hv _ (hmem q) (by rw [h]; rfl)
        obtain rfl : w = 1 := by simpa using hw
        simp only [factorValue, h, Arr.bget]
        simp [bcIdxRev]
      · have e : factorValue (a q) f (d ++ [i]) = cellValue (a q) (insertFactor (d ++ [i]) f) := by
          unfold factorValue
          split
          · rename_i h'; rw [h'] at h; simp at h
          · rename_i h'; rw [h'] at h
            have := congrArg List.length h
            simp at this
          · rfl
        rw [e, insertFactor_snoc, cellValue_eq _ (fits_trans hfa hins) hc']

theorem Ew.mono {β : Type} {l : List (List ℕ)} {r : Py (Arr β)} {f g : List ℕ → β} (h : Ew l r f)
    (e : f = g) : Ew l r g := e ▸ h

/-- Elementwise operations on parameters, for each factor, and on more arguments. -/
theorem ew_hw2fEwise {x0 theta k sigma : Arr ℝ}
    (hs : ∀ j, FactorShape ((![x0, theta, k, sigma] : Fin 4 → Arr ℝ) j).shape)
    (hu : Unmixed (![x0, theta, k, sigma] : Fin 4 → Arr ℝ))
    {m : ℕ} {β : Type} (f : (Fin (8 + m) → ℝ) → β) {more : Fin m → Arr ℝ}
    {L : Fin m → List (List ℕ)} {g : Fin m → List ℕ → ℝ} (h : ∀ j, Ew (L j) (.ok (more j)) (g j))
    (hL : ∀ j, ∃ S, Joint (L j) S) :
    Ew ((List.ofFn fun j => otherAxes ((![x0, theta, k, sigma] : Fin 4 → Arr ℝ) j).shape) ++ (List.ofFn L).flatten)
      (hw2fEwise f x0 theta k sigma more)
      (fun c => f (Fin.append ![factorValue x0 0 c, factorValue x0 1 c, factorValue theta 0 c,
        factorValue theta 1 c, factorValue k 0 c, factorValue k 1 c, factorValue sigma 0 c,
        factorValue sigma 1 c] fun j => g j c)) := by
  set l := List.ofFn fun j => otherAxes ((![x0, theta, k, sigma] : Fin 4 → Arr ℝ) j).shape with hl
  obtain ⟨h1, h2⟩ := hw2fSetup_ew hs hu hl
  by_cases hj : ∃ S, Joint l S
  swap
  · refine ⟨fun S hS => ?_, fun _ => by unfold hw2fEwise; rw [h2 hj]⟩
    obtain ⟨u, hu', _⟩ := joint_of_fits (l := l) fun s hs => hS.fits s (by simp [hs])
    exact absurd ⟨u, hu'⟩ hj
  obtain ⟨v, hv, hv'⟩ := h1 hj
  have key := ew_ewise f
    (a := Fin.append ![v 0 0, v 1 0, v 0 1, v 1 1, v 0 2, v 1 2, v 0 3, v 1 3] more)
    (L := Fin.append (fun _ : Fin 8 => l) L)
    (g := Fin.append ![factorValue x0 0, factorValue x0 1, factorValue theta 0,
        factorValue theta 1, factorValue k 0, factorValue k 1, factorValue sigma 0,
        factorValue sigma 1] g)
    (by
      refine Fin.addCases (fun j => ?_) fun j => ?_
      · simp only [Fin.append_left]
        fin_cases j
        · exact hv' 0 0
        · exact hv' 1 0
        · exact hv' 0 1
        · exact hv' 1 1
        · exact hv' 0 2
        · exact hv' 1 2
        · exact hv' 0 3
        · exact hv' 1 3
      · simp only [Fin.append_right]; exact h j)
    (by
      refine Fin.addCases (fun j => ?_) fun j => ?_
      · simp only [Fin.append_left]; exact hj
      · simp only [Fin.append_right]; exact hL j)
  have hc := key.congr (l' := l ++ (List.ofFn L).flatten) (fun s => by
    simp only [List.mem_append, List.mem_flatten, List.mem_ofFn', Set.mem_range]
    constructor
    · rintro ⟨w, ⟨j, rfl⟩, hs⟩
      revert hs
      refine Fin.addCases (fun j => ?_) (fun j => ?_) j
      · rw [Fin.append_left]; exact .inl
      · rw [Fin.append_right]; exact fun hs => .inr ⟨_, ⟨j, rfl⟩, hs⟩
    · rintro (hs | ⟨w, ⟨j, rfl⟩, hs⟩)
      · exact ⟨l, ⟨Fin.castAdd m 0, by rw [Fin.append_left]⟩, hs⟩
      · exact ⟨_, ⟨Fin.natAdd 8 j, by rw [Fin.append_right]⟩, hs⟩)
  have hr : hw2fEwise f x0 theta k sigma more
      = ewise f (Fin.append ![v 0 0, v 1 0, v 0 1, v 1 1, v 0 2, v 1 2, v 0 3, v 1 3] more) := by
    unfold hw2fEwise; rw [hv]
  rw [hr]
  refine hc.mono ?_
  funext c
  congr 1
  funext j
  refine Fin.addCases (fun j => ?_) (fun j => ?_) j
  · simp only [Fin.append_left]
    fin_cases j <;> rfl
  · simp only [Fin.append_right]

theorem factorwise_of_ew {n m : ℕ} {β : Type} {F : (Fin n → Arr ℝ) → (Fin m → Arr ℝ) → Py (Arr β)}
    {f : (Fin n → Fin 2 → ℝ) → (Fin m → ℝ) → β} {p : Fin n → Arr ℝ} {a : Fin m → Arr ℝ}
    {l : List (List ℕ)}
    (hl : ∀ s, s ∈ l ↔ s ∈ (List.ofFn fun j => otherAxes (p j).shape) ++ List.ofFn fun j => (a j).shape)
    (h : Ew l (F p a) (fun c => f (fun j k => factorValue (p j) k c) (fun j => cellValue (a j) c))) :
    Factorwise F f p a := by
  have h := h.congr hl
  refine ⟨fun S hS => ?_, h.2⟩
  obtain ⟨r, h1, h2, h3⟩ := h.1 S hS
  refine ⟨r, h1, h2, fun c hc => ?_⟩
  exact (cellValue_self r (h2 ▸ hc)).symm.trans (h3 S c (fitsRev_refl _) le_rfl hc)

theorem Ew.congr_joint {β : Type} {l l' : List (List ℕ)} {r : Py (Arr β)} {f : List ℕ → β}
    (h : Ew l r f) (hl : ∀ S, Joint l S ↔ Joint l' S) : Ew l' r f :=
  ⟨fun S hS => h.1 S ((hl S).2 hS), fun hn => h.2 fun ⟨S, hS⟩ => hn ⟨S, (hl S).1 hS⟩⟩

/-- Arguments in excess, after broadcasting. -/
theorem hw2fVars_ew {x0 theta k sigma : Arr ℝ}
    (hs : ∀ j, FactorShape ((![x0, theta, k, sigma] : Fin 4 → Arr ℝ) j).shape)
    (hu : Unmixed (![x0, theta, k, sigma] : Fin 4 → Arr ℝ)) (rho t x : Arr ℝ) {l : List (List ℕ)}
    (hl : l = (List.ofFn fun j => otherAxes ((![x0, theta, k, sigma] : Fin 4 → Arr ℝ) j).shape) ++
      [rho.shape, t.shape, x.shape]) :
    ((∃ S, Joint l S) → ∃ rho' t' x', hw2fVars x0 theta k sigma rho t x = .ok (rho', t', x') ∧
      Ew l (.ok rho') (cellValue rho) ∧ Ew l (.ok t') (cellValue t) ∧ Ew l (.ok x') (cellValue x)) ∧
    ((¬ ∃ S, Joint l S) → hw2fVars x0 theta k sigma rho t x = .error .valueError) := by
  set lp := List.ofFn fun j => otherAxes ((![x0, theta, k, sigma] : Fin 4 → Arr ℝ) j).shape with hlp
  obtain ⟨h1, h2⟩ := hw2fSetup_ew hs hu hlp
  by_cases hj : ∃ S, Joint lp S
  swap
  · refine ⟨fun ⟨S, hS⟩ => ?_, fun _ => by unfold hw2fVars; rw [h2 hj]⟩
    obtain ⟨u, hu', _⟩ := joint_of_fits (l := lp) fun s hs => hS.fits s (by simp [hl, hs])
    exact absurd ⟨u, hu'⟩ hj
  obtain ⟨v, hv, hv'⟩ := h1 hj
  obtain ⟨D, hD⟩ := hj
  have hsh : ∀ f p, (v f p).shape = D := by
    intro f p
    obtain ⟨r, e, h, _⟩ := (hv' f p).1 D hD
    cases e; exact h
  set b : Fin 11 → Arr ℝ := ![v 0 0, v 1 0, v 0 1, v 1 1, v 0 2, v 1 2, v 0 3, v 1 3, rho, t, x] with hb
  have hof : (List.ofFn fun j => (b j).shape) =
      [D, D, D, D, D, D, D, D, rho.shape, t.shape, x.shape] := by
    simp [List.ofFn_succ, hb, hsh]
  have hJ : ∀ S, Joint (List.ofFn fun j => (b j).shape) S ↔ Joint l S := by
    intro S
    rw [hof, Joint.congr (l' := [D, rho.shape, t.shape, x.shape]) (by intro s; simp)]
    have := Joint.flatten (L := [(lp, D), ([rho.shape], rho.shape), ([t.shape], t.shape), ([x.shape], x.shape)])
      (S := S) (by
        intro p hp
        simp only [List.mem_cons, List.not_mem_nil, or_false] at hp
        rcases hp with rfl | rfl | rfl | rfl
        · exact hD
        all_goals exact joint_single _)
    rw [hl]
    simpa using this
  refine ⟨fun ⟨S, hS⟩ => ?_, fun hn => ?_⟩
  · obtain ⟨w, hw, _, hE⟩ := ew_bcAll ((hJ S).2 hS)
    refine ⟨w 8, w 9, w 10, ?_, (hE 8).congr_joint hJ, (hE 9).congr_joint hJ, (hE 10).congr_joint hJ⟩
    unfold hw2fVars
    rw [hv]
    simp only [← hb, hw]
  · unfold hw2fVars
    rw [hv]
    simp only [← hb, bcAll, bcShapes_none fun ⟨S, hS⟩ => hn ⟨S, (hJ S).1 hS⟩]

theorem ew_hw2f_two {x0 theta k sigma : Arr ℝ}
    (hs : ∀ j, FactorShape ((![x0, theta, k, sigma] : Fin 4 → Arr ℝ) j).shape)
    (hu : Unmixed (![x0, theta, k, sigma] : Fin 4 → Arr ℝ)) {rho t : Arr ℝ} {l l' : List (List ℕ)}
    {gr gt : List ℕ → ℝ} (hr : Ew l (.ok rho) gr) (ht : Ew l' (.ok t) gt)
    (hl : ∃ S, Joint l S) (hl' : ∃ S, Joint l' S) :
    Ew ((List.ofFn fun j => otherAxes ((![x0, theta, k, sigma] : Fin 4 → Arr ℝ) j).shape) ++ (l ++ l'))
      (hw2fMeanA t x0 theta k sigma rho)
      (fun c => hw2fMean (factorValue x0 0 c) (factorValue x0 1 c) (factorValue theta 0 c)
        (factorValue theta 1 c) (factorValue k 0 c) (factorValue k 1 c) (factorValue sigma 0 c)
        (factorValue sigma 1 c) (gr c) (gt c)) ∧
    Ew ((List.ofFn fun j => otherAxes ((![x0, theta, k, sigma] : Fin 4 → Arr ℝ) j).shape) ++ (l ++ l'))
      (hw2fVarA t x0 theta k sigma rho)
      (fun c => hw2fVar (factorValue x0 0 c) (factorValue x0 1 c) (factorValue theta 0 c)
        (factorValue theta 1 c) (factorValue k 0 c) (factorValue k 1 c) (factorValue sigma 0 c)
        (factorValue sigma 1 c) (gr c) (gt c)) := by
  have hm : ∀ j, Ew ((![l, l'] : Fin 2 → _) j) (.ok ((![rho, t] : Fin 2 → Arr ℝ) j)) ((![gr, gt] : Fin 2 → _) j) := by
    intro j; fin_cases j; exacts [hr, ht]
  have hL : ∀ j, ∃ S, Joint ((![l, l'] : Fin 2 → _) j) S := by
    intro j; fin_cases j; exacts [hl, hl']
  constructor
  · have := ew_hw2fEwise hs hu (m := 2)
      (fun v => hw2fMean (v 0) (v 1) (v 2) (v 3) (v 4) (v 5) (v 6) (v 7) (v 8) (v 9)) hm hL
    rw [show (List.ofFn (![l, l'] : Fin 2 → _)).flatten = l ++ l' by simp [List.ofFn_succ]] at this
    exact this
  · have := ew_hw2fEwise hs hu (m := 2)
      (fun v => hw2fVar (v 0) (v 1) (v 2) (v 3) (v 4) (v 5) (v 6) (v 7) (v 8) (v 9)) hm hL
    rw [show (List.ofFn (![l, l'] : Fin 2 → _)).flatten = l ++ l' by simp [List.ofFn_succ]] at this
    exact this

theorem vec4_eta (p : Fin 4 → Arr ℝ) : ![p 0, p 1, p 2, p 3] = p := by
  funext j; fin_cases j <;> rfl

/-- **C70** (mean, variance and standard deviation). Parameters of a process with two factors are a number
for both factors, or a vector with a value for each factor, or arrays with the axis of factors before their
last axis. If they do not mix vectors with arrays, then results are those of the process whose parameters are,
for each cell, the values for the two factors. What is missing: parameters that mix vectors with arrays, for
which the code violates the property, see `C70_mixed_false`. -/
theorem C70_moments_partial (p : Fin 4 → Arr ℝ) (hs : ∀ j, FactorShape (p j).shape) (hu : Unmixed p)
    (rho t : Arr ℝ) :
    Factorwise (fun p a => hw2fMeanA (a 1) (p 0) (p 1) (p 2) (p 3) (a 0))
      (fun v w => hw2fMean (v 0 0) (v 0 1) (v 1 0) (v 1 1) (v 2 0) (v 2 1) (v 3 0) (v 3 1) (w 0) (w 1))
      p ![rho, t] ∧
    Factorwise (fun p a => hw2fVarA (a 1) (p 0) (p 1) (p 2) (p 3) (a 0))
      (fun v w => hw2fVar (v 0 0) (v 0 1) (v 1 0) (v 1 1) (v 2 0) (v 2 1) (v 3 0) (v 3 1) (w 0) (w 1))
      p ![rho, t] ∧
    Factorwise (fun p a => hw2fStdA (a 1) (p 0) (p 1) (p 2) (p 3) (a 0))
      (fun v w => hw2fSd (v 0 0) (v 0 1) (v 1 0) (v 1 1) (v 2 0) (v 2 1) (v 3 0) (v 3 1) (w 0) (w 1))
      p ![rho, t] := by
  have hs' := hs
  have hu' := hu
  rw [← vec4_eta p] at hs' hu'
  obtain ⟨hm, hv⟩ := ew_hw2f_two hs' hu' (ew_arr rho) (ew_arr t) ⟨_, joint_single _⟩ ⟨_, joint_single _⟩
  rw [vec4_eta p] at hm hv
  refine ⟨factorwise_of_ew ?_ hm, factorwise_of_ew ?_ hv, factorwise_of_ew ?_ (hv.app Real.sqrt)⟩ <;>
    simp [List.ofFn_succ]

/-- **C70** (densities and distribution functions). -/
theorem C70_distribution_partial (p : Fin 4 → Arr ℝ) (hs : ∀ j, FactorShape (p j).shape) (hu : Unmixed p)
    (rho t x : Arr ℝ) :
    Factorwise (fun p a => hw2fPdfA (a 1) (a 2) (p 0) (p 1) (p 2) (p 3) (a 0))
      (fun v w => hw2fPdf (v 0 0) (v 0 1) (v 1 0) (v 1 1) (v 2 0) (v 2 1) (v 3 0) (v 3 1) (w 0) (w 1) (w 2))
      p ![rho, t, x] ∧
    Factorwise (fun p a => hw2fCdfA (a 1) (a 2) (p 0) (p 1) (p 2) (p 3) (a 0))
      (fun v w => hw2fCdf (v 0 0) (v 0 1) (v 1 0) (v 1 1) (v 2 0) (v 2 1) (v 3 0) (v 3 1) (w 0) (w 1) (w 2))
      p ![rho, t, x] := by
  have hs' := hs
  have hu' := hu
  rw [← vec4_eta p] at hs' hu'
  obtain ⟨h1, h2⟩ := hw2fVars_ew hs' hu' rho t x rfl
  set lp := List.ofFn fun j => otherAxes ((![p 0, p 1, p 2, p 3] : Fin 4 → Arr ℝ) j).shape with hlp
  have hlist : (List.ofFn fun j => otherAxes (p j).shape) ++
      (List.ofFn fun j => ((![rho, t, x] : Fin 3 → Arr ℝ) j).shape)
      = lp ++ [rho.shape, t.shape, x.shape] := by
    rw [hlp, vec4_eta]; simp [List.ofFn_succ]
  by_cases hj : ∃ S, Joint (lp ++ [rho.shape, t.shape, x.shape]) S
  · obtain ⟨rho', t', x', he, hr, ht, hx⟩ := h1 hj
    obtain ⟨hm, hv⟩ := ew_hw2f_two hs' hu' hr ht hj hj
    have key := fun f : ℝ → ℝ → ℝ → Option ℝ => ew_ofMeanVar' f hx hj hm hv
    constructor
    · have h := key scipyNormPdf
      refine factorwise_of_ew (l := lp ++ [rho.shape, t.shape, x.shape]) (by rw [hlist]; simp) ?_
      have e : hw2fPdfA t x (p 0) (p 1) (p 2) (p 3) rho = ofMeanVar scipyNormPdf x'
          (hw2fMeanA t' (p 0) (p 1) (p 2) (p 3) rho') (hw2fVarA t' (p 0) (p 1) (p 2) (p 3) rho') := by
        unfold hw2fPdfA; rw [he]
      show Ew _ (hw2fPdfA t x (p 0) (p 1) (p 2) (p 3) rho) _
      rw [e]
      exact h.congr fun s => by simp only [List.mem_append, ← hlp]; tauto
    · have h := key scipyNormCdf
      refine factorwise_of_ew (l := lp ++ [rho.shape, t.shape, x.shape]) (by rw [hlist]; simp) ?_
      have e : hw2fCdfA t x (p 0) (p 1) (p 2) (p 3) rho = ofMeanVar scipyNormCdf x'
          (hw2fMeanA t' (p 0) (p 1) (p 2) (p 3) rho') (hw2fVarA t' (p 0) (p 1) (p 2) (p 3) rho') := by
        unfold hw2fCdfA; rw [he]
      show Ew _ (hw2fCdfA t x (p 0) (p 1) (p 2) (p 3) rho) _
      rw [e]
      exact h.congr fun s => by simp only [List.mem_append, ← hlp]; tauto
  · constructor
    · refine ⟨fun S hS => absurd ⟨S, hlist ▸ hS⟩ hj, fun _ => ?_⟩
      show hw2fPdfA t x (p 0) (p 1) (p 2) (p 3) rho = _
      unfold hw2fPdfA
      rw [h2 hj]
    · refine ⟨fun S hS => absurd ⟨S, hlist ▸ hS⟩ hj, fun _ => ?_⟩
      show hw2fCdfA t x (p 0) (p 1) (p 2) (p 3) rho = _
      unfold hw2fCdfA
      rw [h2 hj]

theorem hw2f_error {x0 theta k sigma : Arr ℝ} {e : PyErr} (h : hw2fSetup x0 theta k sigma = .error e)
    (rho t x : Arr ℝ) :
    hw2fMeanA t x0 theta k sigma rho = .error e ∧ hw2fVarA t x0 theta k sigma rho = .error e ∧
    hw2fStdA t x0 theta k sigma rho = .error e ∧ hw2fPdfA t x x0 theta k sigma rho = .error e ∧
    hw2fCdfA t x x0 theta k sigma rho = .error e := by
  have hv : hw2fVarA t x0 theta k sigma rho = .error e := by unfold hw2fVarA hw2fEwise; rw [h]
  refine ⟨by unfold hw2fMeanA hw2fEwise; rw [h], hv, by unfold hw2fStdA; rw [hv]; rfl, ?_, ?_⟩
  · unfold hw2fPdfA hw2fVars; rw [h]
  · unfold hw2fCdfA hw2fVars; rw [h]

/-- **C70** (rejected parameters). Parameters with three or more factors are rejected: arrays whose axis of
factors has size three or more, whatever the other parameters; vectors with three or more items, if the other
parameters are numbers or vectors. -/
theorem C70_rejected (x0 theta k sigma : Arr ℝ) (j : Fin 4)
    (h : (2 ≤ ((![x0, theta, k, sigma] : Fin 4 → Arr ℝ) j).shape.length ∧
        3 ≤ sizeFromLast ((![x0, theta, k, sigma] : Fin 4 → Arr ℝ) j).shape 1) ∨
      ((∀ i, ((![x0, theta, k, sigma] : Fin 4 → Arr ℝ) i).shape.length ≤ 1) ∧
        ∃ n ≥ 3, ((![x0, theta, k, sigma] : Fin 4 → Arr ℝ) j).shape = [n])) (rho t x : Arr ℝ) :
    hw2fMeanA t x0 theta k sigma rho = .error .valueError ∧
    hw2fVarA t x0 theta k sigma rho = .error .valueError ∧
    hw2fStdA t x0 theta k sigma rho = .error .valueError ∧
    hw2fPdfA t x x0 theta k sigma rho = .error .valueError ∧
    hw2fCdfA t x x0 theta k sigma rho = .error .valueError := by
  refine hw2f_error ?_ rho t x
  set a : Fin 4 → Arr ℝ := ![x0, theta, k, sigma] with ha
  unfold hw2fSetup
  rw [← ha]
  unfold bcAll
  cases hS : bcShapes (List.ofFn fun j => (a j).shape) with
  | none => rfl
  | some S =>
    have hJ := bcShapes_joint hS
    have hmem : ∀ j, (a j).shape ∈ List.ofFn fun j => (a j).shape := fun j => (List.mem_ofFn' _ _).2 ⟨j, rfl⟩
    have hf := hJ.fits _ (hmem j)
    have hlen := hJ.length_le _ (hmem j)
    rcases h with ⟨h2, h3⟩ | ⟨h1, n, hn, h2⟩
    · obtain ⟨pre, n, p, rfl⟩ : ∃ pre n p, S = pre ++ [n, p] := by
        rcases list_cases2 S with rfl | ⟨n, rfl⟩ | h
        · simp only [List.length_nil] at hlen; omega
        · simp only [List.length_cons, List.length_nil] at hlen; omega
        · exact h
      have h4 := (hf 1).resolve_left (by omega)
      rw [show pre ++ [n, p] = pre ++ [n] ++ [p] by simp, sizeFromLast_succ, sizeFromLast_zero] at h4
      simp only [List.reverse_append, List.reverse_cons, List.reverse_nil, List.nil_append,
        List.singleton_append, List.cons_append]
      rw [if_neg (by omega), if_neg (by omega)]
    · have hl1 : S.length ≤ 1 := by
        by_cases hne : S = []
        · simp [hne]
        · obtain ⟨s, hs, e⟩ := hJ.length hne
          obtain ⟨i, rfl⟩ := (List.mem_ofFn' _ _).1 hs
          exact e ▸ h1 i
      obtain ⟨m, rfl⟩ : ∃ m, S = [m] := by
        rw [h2] at hlen
        rcases S with _ | ⟨m, _ | ⟨q, w⟩⟩
        · simp at hlen
        · exact ⟨m, rfl⟩
        · simp at hl1
      have h4 := (hf 0).resolve_left (by rw [h2]; simp [sizeFromLast]; omega)
      rw [h2] at h4
      simp [sizeFromLast] at h4
      subst h4
      simp only [List.reverse_cons, List.reverse_nil, List.nil_append]
      rw [if_neg (by omega), if_neg (by omega)]

/-- **C70** (process). Numbers, and arrays with the axis of factors before the last one, mean the same for
`hull_white_process`: for each factor and cell, the process is given the values (`C67_hull_white`) that make
results for that cell. Vectors do not, see `C70_vectors_false`. -/
theorem C70_process_partial (a : Arr ℝ) (h : a.shape.length ≠ 1) (f : Fin 2) (c : List ℕ) :
    factorValue a f c = cellValue a (insertFactor c f) := by
  unfold factorValue
  split
  · rename_i h'; simp [cellValue, cellIndex, h']
  · rename_i h'; rw [h'] at h; simp at h
  · rfl

/-- `x0 = [[1], [2]]`. -/
def mixedX0 : Arr ℝ := ⟨[2, 1], fun i => (i.head?.getD 0 : ℕ) + 1⟩

/-- `k = (1, 2)`. -/
def mixedK : Arr ℝ := ⟨[2], fun i => (i.head?.getD 0 : ℕ) + 1⟩

theorem mixed_joint :
    Joint ((List.ofFn fun j => otherAxes ((![mixedX0, .scalar 0, mixedK, .scalar 1] : Fin 4 → Arr ℝ) j).shape) ++
      List.ofFn fun j => ((![.scalar 0, .scalar 1] : Fin 2 → Arr ℝ) j).shape) [1] := by
  rw [← bcShapes_iff]
  decide

theorem mixed_mean : ∃ r, hw2fMeanA (.scalar 1) mixedX0 (.scalar 0) mixedK (.scalar 1) (.scalar 0) = .ok r ∧
    r.shape = [2] ∧ r.get [0] = exp (-1) + 2 * exp (-1) := by
  refine ⟨_, rfl, rfl, ?_⟩
  show hw2fMean (mixedX0.get [0, 0]) (mixedX0.get [1, 0]) 0 0 (mixedK.get [0]) (mixedK.get [0]) 1 1 0 1 = _
  simp [hw2fMean, mixedX0, mixedK]
  norm_num
  ring

/-- **C70** is false of the code, if `x0 = [[1], [2]]`, `theta = 0`, `k = (1, 2)`, `sigma = 1`, `rho = 0` and
`t = 1`: the mean is not the array of shape `(1,)` with `exp(-1) + 2 exp(-2)`, but an array of shape `(2,)`;
its first item is `exp(-1) + 2 exp(-1)`. -/
theorem C70_mixed_false :
    ∃ (p : Fin 4 → Arr ℝ) (rho t : Arr ℝ), (∀ j, FactorShape (p j).shape) ∧
      ¬ Factorwise (fun p a => hw2fMeanA (a 1) (p 0) (p 1) (p 2) (p 3) (a 0))
        (fun v w => hw2fMean (v 0 0) (v 0 1) (v 1 0) (v 1 1) (v 2 0) (v 2 1) (v 3 0) (v 3 1) (w 0) (w 1))
        p ![rho, t] ∧
      ∃ r, hw2fMeanA t (p 0) (p 1) (p 2) (p 3) rho = .ok r ∧
        cellValue r [0] ≠ hw2fMean (factorValue (p 0) 0 [0]) (factorValue (p 0) 1 [0])
          (factorValue (p 1) 0 [0]) (factorValue (p 1) 1 [0]) (factorValue (p 2) 0 [0])
          (factorValue (p 2) 1 [0]) (factorValue (p 3) 0 [0]) (factorValue (p 3) 1 [0])
          (cellValue rho [0]) (cellValue t [0]) := by
  obtain ⟨r, hr, hsh, hv⟩ := mixed_mean
  refine ⟨![mixedX0, .scalar 0, mixedK, .scalar 1], .scalar 0, .scalar 1, ?_, ?_, r, hr, ?_⟩
  · intro j
    fin_cases j
    · exact ⟨fun h => by simp [mixedX0] at h, fun _ => .inr rfl⟩
    · exact ⟨fun h => by simp [Arr.scalar] at h, fun h => by simp [Arr.scalar] at h⟩
    · exact ⟨fun _ => .inr rfl, fun h => by simp [mixedK] at h⟩
    · exact ⟨fun h => by simp [Arr.scalar] at h, fun h => by simp [Arr.scalar] at h⟩
  · intro hF
    obtain ⟨r', hr', hsh', _⟩ := hF.1 [1] mixed_joint
    have e : r' = r := Except.ok.inj (hr'.symm.trans hr)
    rw [e, hsh] at hsh'
    simp at hsh'
  · have hc : cellValue r [0] = r.get [0] := by simp [cellValue, cellIndex, hsh]
    rw [hc, hv]
    show _ ≠ hw2fMean (mixedX0.get [0, 0]) (mixedX0.get [1, 0]) 0 0 (mixedK.get [0]) (mixedK.get [1]) 1 1 0 1
    have h1 : exp (-2) < exp (-1) := exp_lt_exp.2 (by norm_num)
    simp [hw2fMean, mixedX0, mixedK]
    norm_num
    intro h
    linarith

/-- Vectors do not mean the same for `hull_white_process`: if `x0 = (1, 2)`, and the process has two paths,
then both factors of the second path start from 2, while the first factor is supposed to start from 1. -/
theorem C70_vectors_false :
    ∃ (a : Arr ℝ) (paths : ℕ), FactorShape a.shape ∧ Fits a.shape ([] ++ [2] ++ [paths]) ∧
      ∃ c : Cells ([] ++ [paths]), ∃ f : Fin 2, factorValue a f c.1 ≠ cellValue a (insertFactor c.1 f) := by
  refine ⟨mixedK, 2, ⟨fun _ => .inr rfl, fun h => by simp [mixedK] at h⟩, ?_, ⟨[1], .cons (by norm_num) .nil⟩, 0, ?_⟩
  · intro j
    match j with
    | 0 => exact .inr rfl
    | j + 1 => exact .inl rfl
  · simp [factorValue, mixedK, cellValue, cellIndex, insertFactor]

/-- Two kinds of parameters that are not mixed: `x0 = (1, 2)` and `k = (1, 2)`; `x0 = [[1], [2]]` and `k = 3`.
In both cases results have the shape of times. -/
example (t : Arr ℝ) (ht : t.shape = [5]) :
    ∃ r, hw2fMeanA t mixedK (.scalar 0) mixedK (.scalar 1) (.scalar 0) = .ok r ∧ r.shape = [5] ∧
      r.get [3] = exp (-t.get [3]) + 2 * exp (-2 * t.get [3]) := by
  have h := (C70_moments_partial ![mixedK, .scalar 0, mixedK, .scalar 1] (by
      intro j
      fin_cases j
      · exact ⟨fun _ => .inr rfl, fun h => by simp [mixedK] at h⟩
      · exact ⟨fun h => by simp [Arr.scalar] at h, fun h => by simp [Arr.scalar] at h⟩
      · exact ⟨fun _ => .inr rfl, fun h => by simp [mixedK] at h⟩
      · exact ⟨fun h => by simp [Arr.scalar] at h, fun h => by simp [Arr.scalar] at h⟩)
    (.inl (by intro j; fin_cases j <;> simp [mixedK, Arr.scalar])) (.scalar 0) t).1.1 [5] (by
      rw [← bcShapes_iff]
      simp [List.ofFn_succ, ht, mixedK, Arr.scalar]
      decide)
  obtain ⟨r, h1, h2, h3⟩ := h
  refine ⟨r, h1, h2, ?_⟩
  rw [h3 [3] (.cons (by norm_num) .nil)]
  simp [hw2fMean, factorValue, mixedK, Arr.scalar, cellValue, cellIndex, ht]
  norm_num
  ring

example (t : Arr ℝ) (ht : t.shape = [5]) :
    ∃ r, hw2fMeanA t mixedX0 (.scalar 0) (.scalar 3) (.scalar 1) (.scalar 0) = .ok r ∧ r.shape = [5] ∧
      r.get [3] = 3 * exp (-3 * t.get [3]) := by
  have h := (C70_moments_partial ![mixedX0, .scalar 0, .scalar 3, .scalar 1] (by
      intro j
      fin_cases j
      · exact ⟨fun h => by simp [mixedX0] at h, fun _ => .inr rfl⟩
      all_goals exact ⟨fun h => by simp [Arr.scalar] at h, fun h => by simp [Arr.scalar] at h⟩)
    (.inr (by intro j; fin_cases j <;> simp [mixedX0, Arr.scalar])) (.scalar 0) t).1.1 [5] (by
      rw [← bcShapes_iff]
      simp [List.ofFn_succ, ht, mixedX0, Arr.scalar]
      decide)
  obtain ⟨r, h1, h2, h3⟩ := h
  refine ⟨r, h1, h2, ?_⟩
  rw [h3 [3] (.cons (by norm_num) .nil)]
  simp [hw2fMean, factorValue, mixedX0, Arr.scalar, cellValue, cellIndex, ht, insertFactor, List.range_succ]
  norm_num
  ring

/-- Three factors are rejected. -/
example : hw2fMeanA (.scalar 1) (.scalar 1) (.scalar 0) ⟨[3], fun _ => 1⟩ (.scalar 1) (.scalar 0) =
    .error .valueError :=
  (C70_rejected _ _ _ _ 2 (.inr ⟨by intro j; fin_cases j <;> simp [Arr.scalar], 3, le_rfl, rfl⟩) _ _ (.scalar 0)).1

example : hw2fMeanA (.scalar 1) (.scalar 1) (.scalar 0) ⟨[3, 1], fun _ => 1⟩ (.scalar 1) (.scalar 0) =
    .error .valueError :=
  (C70_rejected _ _ _ _ 2 (.inl ⟨by simp, by simp [sizeFromLast]⟩) _ _ (.scalar 0)).1

end Sdepy
