import Verif.Lemmas.PathsSafe

set_option linter.unusedSectionVars false
set_option linter.unusedSimpArgs false

namespace Sdepy

open Spec

variable {T W O σ : Type} [Zero T] [One T] [Neg T] [Sub T] [Mul T]
  [LinearOrder T] [Linspace T] [SignOk T]

theorem outputs_pure (store : ℕ → T → W → σ → Py (O × σ)) (out : T → W → O)
    (h : ∀ i t x s, store i t x s = .ok (out t x, s)) (tt : List T) :
    ∀ (ps : List (T × W)) (n : ℕ) (s : σ), outputs store tt n ps s =
      .ok ((ps.filter (fun p => p.1 ∈ tt)).map (fun p => out p.1 p.2), s) := by
  intro ps
  induction ps with
  | nil => intro n s; rfl
  | cons p ps ih =>
    obtain ⟨t, x⟩ := p
    intro n s
    simp only [outputs]
    by_cases ht : t ∈ tt
    · simp [ht, h, ih, bind, Except.bind, pure, Except.pure]
    · simp [ht, h, ih, bind, Except.bind, pure, Except.pure]

theorem scheme_pure (step : List (T × W) → T → σ → Py (W × σ))
    (store : ℕ → T → W → σ → Py (O × σ)) (out : T → W → O)
    (h : ∀ i t x s, store i t x s = .ok (out t x, s)) (tt : List T) :
    ∀ (ts : List T) (win : List (T × W)) (n : ℕ) (s : σ), scheme step store tt win n ts s =
      (do let (ps, s) ← traj step win ts s
          pure ((ps.filter (fun p => p.1 ∈ tt)).map (fun p => out p.1 p.2), s)) := by
  intro ts
  induction ts with
  | nil => intro win n s; rfl
  | cons t ts ih =>
    intro win n s
    simp only [scheme, traj, bind, Except.bind, pure, Except.pure]
    cases step win t s with
    | error e => rfl
    | ok r =>
      obtain ⟨x, s1⟩ := r
      simp only [ih]
      by_cases ht : t ∈ tt
      · simp only [ht, if_true, h, bind, Except.bind, pure, Except.pure]
        cases traj step (win.tail ++ [(t, x)]) ts s1 with
        | error e => rfl
        | ok r2 => simp [ht]
      · simp only [ht, if_false, bind, Except.bind, pure, Except.pure]
        cases traj step (win.tail ++ [(t, x)]) ts s1 with
        | error e => rfl
        | ok r2 => simp [ht]

theorem pass_pure (depth : ℕ) (begin : List T → σ → Py ((ℕ → W) × σ))
    (step : List (T × W) → T → σ → Py (W × σ)) (fin : σ → Py σ)
    (store : ℕ → T → W → σ → Py (O × σ)) (out : T → W → O)
    (h : ∀ i t x s, store i t x s = .ok (out t x, s)) (steps tt : List T) (s : σ) :
    pass depth begin step store fin steps tt s =
      (do let (ps, s) ← trajectory depth begin step fin steps s
          pure ((ps.filter (fun p => p.1 ∈ tt)).map (fun p => out p.1 p.2), s)) := by
  simp only [pass, trajectory, bind, Except.bind, pure, Except.pure]
  cases begin (steps.take (depth - 1)) s with
  | error e => rfl
  | ok r =>
    simp only [outputs_pure store out h, scheme_pure step store out h, bind, Except.bind, pure,
      Except.pure]
    cases traj step ((steps.take (depth - 1)).mapIdx fun k t => (t, r.1 k))
      (steps.drop (depth - 1)) r.2 with
    | error e => rfl
    | ok r2 =>
      simp only
      cases fin r2.2 with
      | error e => rfl
      | ok s3 => simp

theorem traj_times (step : List (T × W) → T → σ → Py (W × σ)) :
    ∀ (ts : List T) (win : List (T × W)) (s : σ) {ps s'}, traj step win ts s = .ok (ps, s') →
      ps.map Prod.fst = ts := by
  intro ts
  induction ts with
  | nil => intro win s ps s' h; simp [traj] at h; simp [← h.1]
  | cons t ts ih =>
    intro win s ps s' h
    simp only [traj, bind, Except.bind, pure, Except.pure] at h
    cases h1 : step win t s with
    | error e => simp [h1] at h
    | ok r =>
      simp only [h1] at h
      cases h2 : traj step (win.tail ++ [(t, r.1)]) ts r.2 with
      | error e => simp [h2] at h
      | ok r2 =>
        simp only [h2, Except.ok.injEq, Prod.mk.injEq] at h
        rw [← h.1]
        simp [ih _ _ h2]

theorem trajectory_times (depth : ℕ) (begin : List T → σ → Py ((ℕ → W) × σ))
    (step : List (T × W) → T → σ → Py (W × σ)) (fin : σ → Py σ) (steps : List T) (s : σ) {ps s'}
    (h : trajectory depth begin step fin steps s = .ok (ps, s')) : ps.map Prod.fst = steps := by
  simp only [trajectory, bind, Except.bind, pure, Except.pure] at h
  cases h1 : begin (steps.take (depth - 1)) s with
  | error e => simp [h1] at h
  | ok r =>
    simp only [h1] at h
    cases h2 : traj step ((steps.take (depth - 1)).mapIdx fun k t => (t, r.1 k))
      (steps.drop (depth - 1)) r.2 with
    | error e => simp [h2] at h
    | ok r2 =>
      simp only [h2] at h
      cases h3 : fin r2.2 with
      | error e => simp [h3] at h
      | ok s3 =>
        simp only [h3, Except.ok.injEq, Prod.mk.injEq] at h
        rw [← h.1, List.map_append, map_fst_mapIdx, traj_times step _ _ _ h2]
        simp

theorem filter_mem_of_fst {ps : List (T × W)} {tt ttf steps : List T} (hps : ps.map Prod.fst = steps)
    (h : ∀ t ∈ steps, t ∈ ttf ↔ t ∈ tt) :
    ps.filter (fun p => decide (p.1 ∈ ttf)) = ps.filter (fun p => decide (p.1 ∈ tt)) := by
  apply List.filter_congr
  intro p hp
  have : p.1 ∈ steps := by rw [← hps]; exact List.mem_map_of_mem hp
  simp [h p.1 this]

/-- With side effect free outputs, a call is its trajectory, restricted to the timeline. -/
theorem twoWay_pure (g : PGen T W O σ) (step) (out : T → W → O) (h : PureStore g out)
    (backward forward : Bool) (grid tt : List T) (t0 : T) (s : σ) (hmem : t0 ∈ tt)
    (hgt : t0 ∈ grid) (hg : grid.Pairwise (· < ·)) :
    twoWay g step backward forward grid tt t0 s =
      (do let (ps, s) ← twoWayTrajectory g step backward forward grid t0 s
          pure ((ps.filter (fun p => p.1 ∈ tt)).map (fun p => out p.1 p.2), s)) := by
  simp only [twoWay, twoWayTrajectory]
  -- backward part
  have hB : (if backward then
      pass g.depth (g.begin true) (step true) g.store g.fin
        (grid.filter (· ≤ t0)).reverse (tt.filter (· ≤ t0)).reverse s
    else pure ([], s) : Py (List O × σ)) =
    (do let (pb, s) ← (if backward then
          trajectory g.depth (g.begin true) (step true) g.fin (grid.filter (· ≤ t0)).reverse s
          else pure ([], s) : Py (List (T × W) × σ))
        pure ((pb.filter (fun p => p.1 ∈ tt)).map (fun p => out p.1 p.2), s)) := by
    cases backward with
    | false => rfl
    | true =>
      simp only [if_true]
      rw [pass_pure _ _ _ _ _ out h]
      simp only [bind, Except.bind, pure, Except.pure]
      cases ht : trajectory g.depth (g.begin true) (step true) g.fin
          (grid.filter (· ≤ t0)).reverse s with
      | error e => rfl
      | ok r =>
        simp only
        rw [filter_mem_of_fst (trajectory_times _ _ _ _ _ _ ht)]
        intro t ht
        simp at ht ⊢
        intro _; exact ht.2
  have hF : ∀ s, (if forward then
      pass g.depth (g.begin false) (step false) g.store g.fin
        (grid.filter (t0 ≤ ·)) (tt.filter (t0 ≤ ·)) s
    else pure ([], s) : Py (List O × σ)) =
    (do let (pb, s) ← (if forward then
          trajectory g.depth (g.begin false) (step false) g.fin (grid.filter (t0 ≤ ·)) s
          else pure ([], s) : Py (List (T × W) × σ))
        pure ((pb.filter (fun p => p.1 ∈ tt)).map (fun p => out p.1 p.2), s)) := by
    intro s
    cases forward with
    | false => rfl
    | true =>
      simp only [if_true]
      rw [pass_pure _ _ _ _ _ out h]
      simp only [bind, Except.bind, pure, Except.pure]
      cases ht : trajectory g.depth (g.begin false) (step false) g.fin
          (grid.filter (t0 ≤ ·)) s with
      | error e => rfl
      | ok r =>
        simp only
        rw [filter_mem_of_fst (trajectory_times _ _ _ _ _ _ ht)]
        intro t ht
        simp at ht ⊢
        intro _; exact ht.2
  rw [hB]
  simp only [hF]
  simp only [bind, Except.bind, pure, Except.pure]
  -- times of the backward trajectory
  have htimes : ∀ pb s', (if backward then
          trajectory g.depth (g.begin true) (step true) g.fin (grid.filter (· ≤ t0)).reverse s
          else Except.ok ([], s) : Py (List (T × W) × σ)) = .ok (pb, s') →
      pb = [] ∨ ∃ x pb', pb.reverse = pb' ++ [(t0, x)] := by
    intro pb s' hpb
    cases backward with
    | false => simp at hpb; exact .inl hpb.1
    | true =>
      simp only [if_true] at hpb
      have hts := trajectory_times _ _ _ _ _ _ hpb
      have hlast : (grid.filter (· ≤ t0)).getLast? = some t0 := by
        obtain ⟨b, hb⟩ : ∃ l, (grid.filter (· ≤ t0)).getLast? = some l := by
          have hne : grid.filter (· ≤ t0) ≠ [] := by
            intro hc
            have : t0 ∈ grid.filter (· ≤ t0) := by simp [hgt]
            rw [hc] at this; simp at this
          exact ⟨_, List.getLast?_eq_some_getLast hne⟩
        have h1 : b ≤ t0 := by
          have := List.mem_of_getLast? hb; simp at this; exact this.2
        have h2 : t0 ≤ b := sorted_getLast_ge (hg.filter _) hb (by simp [hgt])
        rw [hb, le_antisymm h1 h2]
      have hrev : pb.reverse.map Prod.fst = grid.filter (· ≤ t0) := by
        rw [List.map_reverse, hts, List.reverse_reverse]
      rcases List.eq_nil_or_concat pb.reverse with h0 | ⟨pb', p, h0⟩
      · simp at h0; exact .inl h0
      · right
        rw [List.concat_eq_append] at h0
        rw [h0, List.map_append] at hrev
        rw [← hrev] at hlast
        simp at hlast
        refine ⟨p.2, pb', ?_⟩
        rw [h0, ← hlast]
  revert htimes
  generalize (if backward then
          trajectory g.depth (g.begin true) (step true) g.fin (grid.filter (· ≤ t0)).reverse s
          else Except.ok ([], s) : Py (List (T × W) × σ)) = RB
  cases RB with
  | error e => intro _; rfl
  | ok r =>
    obtain ⟨pb, s1⟩ := r
    intro htimes
    simp only
    generalize (if forward then
          trajectory g.depth (g.begin false) (step false) g.fin (grid.filter (t0 ≤ ·)) s1
          else Except.ok ([], s1) : Py (List (T × W) × σ)) = RF
    cases RF with
    | error e => rfl
    | ok r2 =>
      simp only
      congr 2
      rw [List.filter_append, List.map_append]
      congr 1
      cases forward with
      | false => simp [List.map_reverse, List.filter_reverse]
      | true =>
        simp only [if_true]
        rcases htimes pb s1 rfl with h0 | ⟨x, pb', h0⟩
        · simp [h0]
        · rw [← List.map_reverse, ← List.filter_reverse, h0]
          simp [List.filter_append, hmem]

end Sdepy
