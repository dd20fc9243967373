import Verif.Model.ArrAnalytical
import Verif.Spec.Elementwise
import Verif.Lemmas.Broadcast

/-!
Facts on functions of array arguments.
-/

namespace Sdepy

open Spec

theorem sizeFromLast_rev (s : List ℕ) (j : ℕ) : sizeFromLast s j = s.reverse.getD j 1 := rfl

theorem Spec.Joint.unique {l : List (List ℕ)} {S T : List ℕ} (h : Joint l S) (h' : Joint l T) : S = T := by
  have key : ∀ {S T : List ℕ}, Joint l S → Joint l T → ∀ j, sizeFromLast S j ≠ 1 →
      sizeFromLast T j = sizeFromLast S j := by
    intro S T h h' j hj
    obtain ⟨s, hs, e⟩ := h.sizes j hj
    rcases h'.fits s hs j with h1 | h1
    · exact absurd (e.symm.trans h1) hj
    · rw [← h1, e]
  have hall : ∀ j, sizeFromLast S j = sizeFromLast T j := by
    intro j
    by_cases h1 : sizeFromLast S j = 1
    · by_cases h2 : sizeFromLast T j = 1
      · rw [h1, h2]
      · exact key h' h j h2
    · exact (key h h' j h1).symm
  have hlen : ∀ {S T : List ℕ}, Joint l S → Joint l T → S.length ≤ T.length := by
    intro S T h h'
    by_cases hS : S = []
    · simp [hS]
    · obtain ⟨s, hs, e⟩ := h.length hS
      rw [← e]; exact h'.length_le s hs
  have hl := le_antisymm (hlen h h') (hlen h' h)
  apply List.reverse_injective
  apply List.ext_getElem (by simp [hl])
  intro j h1 h2
  have := hall j
  rw [sizeFromLast_rev, sizeFromLast_rev, List.getD_eq_getElem?_getD, List.getD_eq_getElem?_getD,
    List.getElem?_eq_getElem h1, List.getElem?_eq_getElem h2] at this
  simpa using this

/-! ### Reversed shapes -/

theorem bc2Rev_len {s t u : List ℕ} (h : bc2Rev s t = some u) :
    u.length = max s.length t.length := by
  induction s generalizing t u with
  | nil => simp [bc2Rev] at h; subst h; simp
  | cons a s ih =>
    cases t with
    | nil => simp [bc2Rev] at h; subst h; simp
    | cons b t =>
      simp only [bc2Rev] at h
      split at h
      · simp only [Option.map_eq_some_iff] at h
        obtain ⟨v, hv, rfl⟩ := h
        simp only [List.length_cons, ih hv]; omega
      · split at h
        · simp only [Option.map_eq_some_iff] at h
          obtain ⟨v, hv, rfl⟩ := h
          simp only [List.length_cons, ih hv]; omega
        · cases h

theorem bc2Rev_sizes {s t u : List ℕ} (h : bc2Rev s t = some u) (j : ℕ) :
    u.getD j 1 = s.getD j 1 ∨ u.getD j 1 = t.getD j 1 := by
  induction s generalizing t u j with
  | nil => simp [bc2Rev] at h; subst h; exact .inr rfl
  | cons a s ih =>
    cases t with
    | nil => simp [bc2Rev] at h; subst h; exact .inl rfl
    | cons b t =>
      simp only [bc2Rev] at h
      split at h
      · simp only [Option.map_eq_some_iff] at h
        obtain ⟨v, hv, rfl⟩ := h
        cases j with
        | zero => exact .inl rfl
        | succ j => simpa using ih hv j
      · split at h
        · simp only [Option.map_eq_some_iff] at h
          obtain ⟨v, hv, rfl⟩ := h
          cases j with
          | zero => exact .inr rfl
          | succ j => simpa using ih hv j
        · cases h

theorem bcShape_rev {s t u : List ℕ} (h : bcShape s t = some u) :
    bc2Rev s.reverse t.reverse = some u.reverse := by
  unfold bcShape at h
  simp only [Option.map_eq_some_iff] at h
  obtain ⟨v, hv, rfl⟩ := h
  simpa using hv

theorem fits_trans {s t u : List ℕ} (h : Fits s t) (h' : Fits t u) : Fits s u :=
  fitsRev_trans h h'

/-- Shapes that fit the same cells can be broadcast. -/
theorem bcShapes_of_fits {l : List (List ℕ)} {S : List ℕ} (h : ∀ s ∈ l, Fits s S) :
    ∃ u, bcShapes l = some u ∧ Fits u S := by
  induction l with
  | nil => exact ⟨[], rfl, fitsRev_nil _⟩
  | cons s l ih =>
    obtain ⟨t, ht, hf⟩ := ih fun s' hs' => h s' (List.mem_cons_of_mem _ hs')
    obtain ⟨u, hu, hu'⟩ := bc2Rev_fits (fits_iff.1 (h s (by simp))) (fits_iff.1 hf)
    refine ⟨u.reverse, ?_, ?_⟩
    · simp only [bcShapes, ht, bcShape, hu, Option.map_some]
    · rw [fits_iff]; simpa using hu'

theorem bcShapes_joint {l : List (List ℕ)} {S : List ℕ} (h : bcShapes l = some S) : Joint l S := by
  induction l generalizing S with
  | nil =>
    simp only [bcShapes, Option.some.injEq] at h
    subst h
    exact ⟨by simp, by simp, fun j hj => absurd (by simp [sizeFromLast]) hj, by simp⟩
  | cons s l ih =>
    simp only [bcShapes] at h
    cases ht : bcShapes l with
    | none => simp [ht] at h
    | some t =>
      simp only [ht] at h
      have hr := bcShape_rev h
      have hj := ih ht
      have f1 : Fits s S := by
        rw [fits_iff]; exact fitsRev_of_bcOk (bc2Rev_ok hr).1
      have f2 : Fits t S := by
        rw [fits_iff]; exact fitsRev_of_bcOk (bc2Rev_ok hr).2
      have hlen := bc2Rev_len hr
      simp only [List.length_reverse] at hlen
      refine ⟨?_, ?_, ?_, ?_⟩
      · intro s' hs'
        rcases List.mem_cons.1 hs' with rfl | hs'
        · exact f1
        · exact fits_trans (hj.fits s' hs') f2
      · intro s' hs'
        rcases List.mem_cons.1 hs' with rfl | hs'
        · omega
        · have := hj.length_le s' hs'; omega
      · intro j h1
        rcases bc2Rev_sizes hr j with h2 | h2
        · exact ⟨s, by simp, h2.symm⟩
        · have h3 : sizeFromLast S j = sizeFromLast t j := h2
          obtain ⟨s', hs', e⟩ := hj.sizes j (h3 ▸ h1)
          exact ⟨s', by simp [hs'], by rw [e, h3]⟩
      · intro hne
        rcases le_total s.length t.length with hle | hle
        · by_cases hte : t = []
          · have : s.length = 0 := by rw [hte] at hle; simpa using hle
            refine ⟨s, by simp, ?_⟩
            rw [hlen, hte]; simp
          · obtain ⟨s', hs', e⟩ := hj.length hte
            exact ⟨s', by simp [hs'], by omega⟩
        · exact ⟨s, by simp, by omega⟩

theorem bcShapes_iff {l : List (List ℕ)} {S : List ℕ} : bcShapes l = some S ↔ Joint l S := by
  refine ⟨bcShapes_joint, fun h => ?_⟩
  obtain ⟨u, hu, _⟩ := bcShapes_of_fits h.fits
  rw [hu, (bcShapes_joint hu).unique h]

theorem bcShapes_none {l : List (List ℕ)} (h : ¬ ∃ S, Joint l S) : bcShapes l = none := by
  cases hs : bcShapes l with
  | none => rfl
  | some S => exact absurd ⟨S, bcShapes_joint hs⟩ h

theorem joint_of_fits {l : List (List ℕ)} {S : List ℕ} (h : ∀ s ∈ l, Fits s S) :
    ∃ u, Joint l u ∧ Fits u S := by
  obtain ⟨u, hu, hf⟩ := bcShapes_of_fits h
  exact ⟨u, bcShapes_joint hu, hf⟩

theorem joint_single (s : List ℕ) : Joint [s] s :=
  ⟨by simp [Fits], by simp, fun j hj => ⟨s, by simp, rfl⟩, fun _ => ⟨s, by simp, rfl⟩⟩

theorem bcOkRev_of_fits {s S : List ℕ} (h : FitsRev s S) (hl : s.length ≤ S.length) : bcOkRev s S := by
  induction s generalizing S with
  | nil => trivial
  | cons a s ih =>
    cases S with
    | nil => simp at hl
    | cons b S =>
      rw [fitsRev_cons] at h
      exact ⟨by simpa using h.1, ih (by simpa using h.2) (by simpa using hl)⟩

theorem Spec.Joint.bcOk {l : List (List ℕ)} {S s : List ℕ} (h : Joint l S) (hs : s ∈ l) : BcOk s S :=
  bcOkRev_of_fits (fits_iff.1 (h.fits s hs)) (by simpa using h.length_le s hs)

/-- A joint shape of joint shapes. -/
theorem Spec.Joint.flatten {L : List (List (List ℕ) × List ℕ)} (hL : ∀ p ∈ L, Joint p.1 p.2) {S : List ℕ} :
    Joint (L.map Prod.snd) S ↔ Joint (L.flatMap Prod.fst) S := by
  have key : ∀ {S : List ℕ}, Joint (L.map Prod.snd) S → Joint (L.flatMap Prod.fst) S := by
    intro S h
    refine ⟨?_, ?_, ?_, ?_⟩
    · intro s hs
      obtain ⟨p, hp, hs⟩ := List.mem_flatMap.1 hs
      exact fits_trans ((hL p hp).fits s hs) (h.fits _ (List.mem_map.2 ⟨p, hp, rfl⟩))
    · intro s hs
      obtain ⟨p, hp, hs⟩ := List.mem_flatMap.1 hs
      exact ((hL p hp).length_le s hs).trans (h.length_le _ (List.mem_map.2 ⟨p, hp, rfl⟩))
    · intro j hj
      obtain ⟨t, ht, e⟩ := h.sizes j hj
      obtain ⟨p, hp, rfl⟩ := List.mem_map.1 ht
      obtain ⟨s, hs, e'⟩ := (hL p hp).sizes j (e ▸ hj)
      exact ⟨s, List.mem_flatMap.2 ⟨p, hp, hs⟩, e'.trans e⟩
    · intro hne
      obtain ⟨t, ht, e⟩ := h.length hne
      obtain ⟨p, hp, rfl⟩ := List.mem_map.1 ht
      have hpne : p.2 ≠ [] := by
        intro h0; rw [h0] at e; exact hne (List.length_eq_zero_iff.1 e.symm)
      obtain ⟨s, hs, e'⟩ := (hL p hp).length hpne
      exact ⟨s, List.mem_flatMap.2 ⟨p, hp, hs⟩, e'.trans e⟩
  refine ⟨key, fun h => ?_⟩
  have hf : ∀ t ∈ L.map Prod.snd, Fits t S := by
    intro t ht
    obtain ⟨p, hp, rfl⟩ := List.mem_map.1 ht
    obtain ⟨u, hu, hu'⟩ := joint_of_fits (l := p.1) (S := S)
      fun s hs => h.fits s (List.mem_flatMap.2 ⟨p, hp, hs⟩)
    rw [(hL p hp).unique hu]; exact hu'
  obtain ⟨u, hu, _⟩ := joint_of_fits hf
  rw [← (key hu).unique h]; exact hu

/-- Joint shapes do not depend on order and repetitions. -/
theorem Spec.Joint.congr {l l' : List (List ℕ)} (h : ∀ s, s ∈ l ↔ s ∈ l') {S : List ℕ} :
    Joint l S ↔ Joint l' S := by
  have key : ∀ {l l' : List (List ℕ)}, (∀ s, s ∈ l ↔ s ∈ l') → Joint l S → Joint l' S := by
    intro l l' h hj
    refine ⟨fun s hs => hj.fits s ((h s).2 hs), fun s hs => hj.length_le s ((h s).2 hs), ?_, ?_⟩
    · intro j h1
      obtain ⟨s, hs, e⟩ := hj.sizes j h1
      exact ⟨s, (h s).1 hs, e⟩
    · intro h1
      obtain ⟨s, hs, e⟩ := hj.length h1
      exact ⟨s, (h s).1 hs, e⟩
  exact ⟨key h, key fun s => (h s).symm⟩

/-! ### Outcome of elementwise computations -/

/-- The outcome `r` of a computation on arrays with shapes `l`: `f` gives the value of each cell. -/
def Ew {β : Type} (l : List (List ℕ)) (r : Py (Arr β)) (f : List ℕ → β) : Prop :=
  (∀ S, Joint l S → ∃ r', r = .ok r' ∧ r'.shape = S ∧
    ∀ T c, Fits S T → S.length ≤ T.length → InRange T c → cellValue r' c = f c) ∧
  ((¬ ∃ S, Joint l S) → r = .error .valueError)

theorem Ew.congr {β : Type} {l l' : List (List ℕ)} {r : Py (Arr β)} {f : List ℕ → β}
    (h : Ew l r f) (hl : ∀ s, s ∈ l ↔ s ∈ l') : Ew l' r f :=
  ⟨fun S hS => h.1 S ((Joint.congr hl).2 hS), fun hn => h.2 fun ⟨S, hS⟩ => hn ⟨S, (Joint.congr hl).1 hS⟩⟩

theorem ew_arr {α : Type} (a : Arr α) : Ew [a.shape] (.ok a) (cellValue a) := by
  refine ⟨fun S hS => ⟨a, rfl, (joint_single a.shape).unique hS, fun _ _ _ _ _ => rfl⟩, fun h => ?_⟩
  exact absurd ⟨_, joint_single a.shape⟩ h

theorem Ew.app {α β : Type} {l : List (List ℕ)} {r : Py (Arr α)} {g : List ℕ → α} (h : Ew l r g)
    (f : α → β) : Ew l (appPy f r) (fun c => f (g c)) := by
  refine ⟨fun S hS => ?_, fun hn => by rw [h.2 hn]; rfl⟩
  obtain ⟨r', rfl, h1, h2⟩ := h.1 S hS
  refine ⟨_, rfl, h1, fun T c hT hl hc => ?_⟩
  rw [app_cell, h2 T c hT hl hc]

/-- Elementwise operations on the outcomes of several computations. -/
theorem ew_ewise {n : ℕ} {α β : Type} (f : (Fin n → α) → β) {a : Fin n → Arr α}
    {L : Fin n → List (List ℕ)} {g : Fin n → List ℕ → α} (h : ∀ j, Ew (L j) (.ok (a j)) (g j))
    (hL : ∀ j, ∃ S, Joint (L j) S) :
    Ew ((List.ofFn L).flatten) (ewise f a) (fun c => f fun j => g j c) := by
  have hj : ∀ j, Joint (L j) (a j).shape ∧
      ∀ T c, Fits (a j).shape T → (a j).shape.length ≤ T.length → InRange T c →
        cellValue (a j) c = g j c := by
    intro j
    obtain ⟨S, hS⟩ := hL j
    obtain ⟨r', h1, h2, h3⟩ := (h j).1 S hS
    cases h1
    exact ⟨h2 ▸ hS, h2 ▸ h3⟩
  have hfl : ∀ S, Joint (List.ofFn fun j => (a j).shape) S ↔ Joint ((List.ofFn L).flatten) S := by
    intro S
    have := Joint.flatten (L := List.ofFn fun j => (L j, (a j).shape)) (S := S) (by
      intro p hp
      obtain ⟨j, rfl⟩ := (List.mem_ofFn' _ _).1 hp
      exact (hj j).1)
    rw [List.map_ofFn, List.flatMap_def, List.map_ofFn] at this
    exact this
  refine ⟨fun S hS => ?_, fun hn => ?_⟩
  · have hS' := (hfl S).2 hS
    unfold ewise
    rw [bcShapes_iff.2 hS']
    refine ⟨_, rfl, rfl, fun T c hT hl hc => ?_⟩
    rw [cellValue_eq _ hT hc]
    have e : ∀ j, (a j).bget ((bcIdxRev S.reverse c.reverse).reverse) = g j c := by
      intro j
      have hm : (a j).shape ∈ List.ofFn fun j => (a j).shape := (List.mem_ofFn' _ _).2 ⟨j, rfl⟩
      have hf := fits_trans (hS'.fits _ hm) hT
      rw [← (hj j).2 T c hf ((hS'.length_le _ hm).trans hl) hc, cellValue_eq _ hf hc, ← bget_bcast (a j) (hS'.bcOk hm) c]
      rfl
    simp only [Arr.bget] at e ⊢
    congr 1
    funext j
    exact e j
  · unfold ewise
    rw [bcShapes_none fun ⟨S, hS⟩ => hn ⟨S, (hfl S).1 hS⟩]

/-- `numpy.broadcast_arrays` on the outcomes of several computations. -/
theorem ew_bcAll {n : ℕ} {α : Type} {a : Fin n → Arr α} {S : List ℕ}
    (hS : Joint (List.ofFn fun j => (a j).shape) S) :
    ∃ v, bcAll a = .ok v ∧ (∀ j, (v j).shape = S) ∧
      ∀ j, Ew (List.ofFn fun j => (a j).shape) (.ok (v j)) (cellValue (a j)) := by
  refine ⟨fun j => ⟨S, (a j).bget⟩, ?_, fun _ => rfl, fun j => ⟨fun T hT => ?_, fun hn => absurd ⟨S, hS⟩ hn⟩⟩
  · unfold bcAll
    rw [bcShapes_iff.2 hS]
  · have hm : (a j).shape ∈ List.ofFn fun j => (a j).shape := (List.mem_ofFn' _ _).2 ⟨j, rfl⟩
    refine ⟨_, rfl, hS.unique hT, fun W c hW _ hc => ?_⟩
    obtain rfl := hS.unique hT
    have hf := fits_trans (hS.fits _ hm) hW
    rw [cellValue_eq _ hW hc, cellValue_eq _ hf hc, bget_bcast _ (hS.bcOk hm)]

/-- Operations on the outcomes of two computations. -/
theorem Ew.zip {α β γ : Type} {l l' : List (List ℕ)} {x : Py (Arr α)} {y : Py (Arr β)}
    {g : List ℕ → α} {g' : List ℕ → β} (h : Ew l x g) (h' : Ew l' y g') (f : α → β → γ) :
    Ew (l ++ l') (zipPy f x y) (fun c => f (g c) (g' c)) := by
  by_cases hl : ∃ S, Joint l S
  swap
  · refine ⟨fun S hS => ?_, fun _ => by rw [h.2 hl]; rfl⟩
    obtain ⟨u, hu, _⟩ := joint_of_fits (l := l) fun s hs => hS.fits s (by simp [hs])
    exact absurd ⟨u, hu⟩ hl
  obtain ⟨S1, hS1⟩ := hl
  obtain ⟨a, rfl, ha, hac⟩ := h.1 S1 hS1
  by_cases hl' : ∃ S, Joint l' S
  swap
  · refine ⟨fun S hS => ?_, fun _ => by rw [h'.2 hl']; rfl⟩
    obtain ⟨u, hu, _⟩ := joint_of_fits (l := l') fun s hs => hS.fits s (by simp [hs])
    exact absurd ⟨u, hu⟩ hl'
  obtain ⟨S2, hS2⟩ := hl'
  obtain ⟨b, rfl, hb, hbc⟩ := h'.1 S2 hS2
  have hfl : ∀ S, Joint [S1, S2] S ↔ Joint (l ++ l') S := by
    intro S
    have := Joint.flatten (L := [(l, S1), (l', S2)]) (S := S) (by
      intro p hp
      simp only [List.mem_cons, List.not_mem_nil, or_false] at hp
      rcases hp with rfl | rfl <;> assumption)
    simpa using this
  have hbs : bcShapes [S1, S2] = bcShape S1 S2 := by
    simp only [bcShapes]
    have : bcShape S2 [] = some S2 := by
      unfold bcShape
      cases h0 : S2.reverse with
      | nil => simp [bc2Rev]; simpa using h0
      | cons q w => simp [bc2Rev]; rw [← List.reverse_cons, ← h0]; simp
    rw [this]
  refine ⟨fun S hS => ?_, fun hn => ?_⟩
  · have hS' := (hfl S).2 hS
    have hbc' := bcShapes_iff.2 hS'
    rw [hbs] at hbc'
    refine ⟨⟨S, fun i => f (a.bget i) (b.bget i)⟩, ?_, rfl, fun T c hT hl hc => ?_⟩
    · simp only [zipPy, Arr.zip, broadcast2_eq, ha, hb, hbc']
    · have f1 : Fits S1 T := fits_trans (hS'.fits S1 (by simp)) hT
      have f2 : Fits S2 T := fits_trans (hS'.fits S2 (by simp)) hT
      have b1 : BcOk a.shape S := by rw [ha]; exact hS'.bcOk (by simp)
      have b2 : BcOk b.shape S := by rw [hb]; exact hS'.bcOk (by simp)
      have l1 := (hS'.length_le S1 (by simp)).trans hl
      have l2 := (hS'.length_le S2 (by simp)).trans hl
      show _ = f (g c) (g' c)
      rw [← hac T c f1 l1 hc, ← hbc T c f2 l2 hc, cellValue_eq _ hT hc, cellValue_eq a (ha ▸ f1) hc,
        cellValue_eq b (hb ▸ f2) hc, ← bget_bcast a b1 c,
        ← bget_bcast b b2 c]
      rfl
  · have : bcShapes [S1, S2] = none := bcShapes_none fun ⟨S, hS⟩ => hn ⟨S, (hfl S).1 hS⟩
    rw [hbs] at this
    simp only [zipPy, Arr.zip, broadcast2_eq, ha, hb, this]

/-- What is expected of functions of arrays, from the outcomes of computations. -/
theorem elementwise_of_ew {n : ℕ} {α β : Type} {F : (Fin n → Arr α) → Py (Arr β)} {f : (Fin n → α) → β}
    (h : ∀ a, ∃ l, (∀ s, s ∈ l ↔ s ∈ List.ofFn fun j => (a j).shape) ∧
      Ew l (F a) (fun c => f fun j => cellValue (a j) c)) : Elementwise F f := by
  intro a
  obtain ⟨l, hl, h⟩ := h a
  have h := h.congr hl
  refine ⟨fun S hS => ?_, h.2⟩
  obtain ⟨r, h1, h2, h3⟩ := h.1 S hS
  refine ⟨r, h1, h2, fun c hc => ?_⟩
  exact (cellValue_self r (h2 ▸ hc)).symm.trans (h3 S c (fitsRev_refl _) le_rfl hc)

theorem ew_args {n : ℕ} {α β : Type} (f : (Fin n → α) → β) (a : Fin n → Arr α) :
    Ew (List.ofFn fun j => (a j).shape) (ewise f a) (fun c => f fun j => cellValue (a j) c) := by
  have h := ew_ewise f (fun j => ew_arr (a j)) (fun j => ⟨_, joint_single _⟩)
  refine h.congr fun s => ?_
  rw [List.mem_flatten]
  constructor
  · rintro ⟨l, hl, hs⟩
    obtain ⟨j, rfl⟩ := (List.mem_ofFn' _ _).1 hl
    simp only [List.mem_singleton] at hs
    subst hs
    exact (List.mem_ofFn' _ _).2 ⟨j, rfl⟩
  · intro hs
    obtain ⟨j, rfl⟩ := (List.mem_ofFn' _ _).1 hs
    exact ⟨[(a j).shape], (List.mem_ofFn' _ _).2 ⟨j, rfl⟩, by simp⟩

theorem elementwise_ewise {n : ℕ} {α β : Type} (f : (Fin n → α) → β) :
    Elementwise (ewise f) f :=
  elementwise_of_ew fun a => ⟨_, fun _ => Iff.rfl, ew_args f a⟩

end Sdepy
