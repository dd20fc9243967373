import Mathlib.Analysis.Complex.CauchyIntegral
import Mathlib.Analysis.SpecialFunctions.Complex.LogDeriv
import Mathlib.Analysis.Calculus.DSlope

/-!
# Expansions to the second order
-/

open Filter Topology

namespace Sdepy

/-- `f (x + u) = a + b*u + c*u**2`, but for terms of higher order. -/
def HasJet (f : ℂ → ℂ) (x a b c : ℂ) : Prop :=
  ∃ r : ℂ → ℂ, ContinuousAt r 0 ∧ r 0 = c ∧ ∀ᶠ u in 𝓝 (0 : ℂ), f (x + u) = a + u * (b + u * r u)

theorem HasJet.eq {f : ℂ → ℂ} {x a b c : ℂ} (h : HasJet f x a b c) : f x = a := by
  obtain ⟨r, -, -, h3⟩ := h
  simpa using h3.self_of_nhds

theorem HasJet.congr {f : ℂ → ℂ} {x a b c a' b' c' : ℂ} (h : HasJet f x a b c) (ha : a = a') (hb : b = b')
    (hc : c = c') : HasJet f x a' b' c' := by subst ha hb hc; exact h

theorem hasJet_const (x a : ℂ) : HasJet (fun _ => a) x a 0 0 := ⟨fun _ => 0, continuousAt_const, rfl, by simp⟩

theorem hasJet_id (x : ℂ) : HasJet (fun u => u) x x 1 0 := ⟨fun _ => 0, continuousAt_const, rfl, by simp⟩

section
variable {f g : ℂ → ℂ} {x a b c a' b' c' : ℂ}

theorem HasJet.add (hf : HasJet f x a b c) (hg : HasJet g x a' b' c') :
    HasJet (fun u => f u + g u) x (a + a') (b + b') (c + c') := by
  obtain ⟨r, h1, h2, h3⟩ := hf
  obtain ⟨s, k1, k2, k3⟩ := hg
  refine ⟨fun u => r u + s u, h1.add k1, by simp [h2, k2], ?_⟩
  filter_upwards [h3, k3] with u e1 e2
  rw [e1, e2]; ring

theorem HasJet.mul (hf : HasJet f x a b c) (hg : HasJet g x a' b' c') :
    HasJet (fun u => f u * g u) x (a * a') (a * b' + b * a') (a * c' + b * b' + c * a') := by
  obtain ⟨r, h1, h2, h3⟩ := hf
  obtain ⟨s, k1, k2, k3⟩ := hg
  refine ⟨fun u => a * s u + b * b' + r u * a' + u * (b * s u + r u * b') + u ^ 2 * (r u * s u), ?_, ?_, ?_⟩
  · have hi : ContinuousAt (fun u : ℂ => u) 0 := continuousAt_id
    exact ((((continuousAt_const.mul k1).add continuousAt_const).add (h1.mul continuousAt_const)).add
      (hi.mul ((continuousAt_const.mul k1).add (h1.mul continuousAt_const)))).add ((hi.pow 2).mul (h1.mul k1))
  · simp [h2, k2]
  · filter_upwards [h3, k3] with u e1 e2
    rw [e1, e2]; ring

theorem HasJet.const_mul (m : ℂ) (hf : HasJet f x a b c) :
    HasJet (fun u => m * f u) x (m * a) (m * b) (m * c) :=
  ((hasJet_const x m).mul hf).congr rfl (by ring) (by ring)

theorem HasJet.neg (hf : HasJet f x a b c) : HasJet (fun u => -f u) x (-a) (-b) (-c) := by
  have := (hf.const_mul (-1)).congr (a' := -a) (b' := -b) (c' := -c) (by ring) (by ring) (by ring)
  simpa using this

theorem HasJet.sub (hf : HasJet f x a b c) (hg : HasJet g x a' b' c') :
    HasJet (fun u => f u - g u) x (a - a') (b - b') (c - c') := by
  simpa only [sub_eq_add_neg] using hf.add hg.neg

theorem HasJet.inv (hf : HasJet f x a b c) (ha : a ≠ 0) :
    HasJet (fun u => (f u)⁻¹) x a⁻¹ (-b / a ^ 2) ((b ^ 2 - a * c) / a ^ 3) := by
  obtain ⟨r, h1, h2, h3⟩ := hf
  have hi : ContinuousAt (fun u : ℂ => u) 0 := continuousAt_id
  have hF : ContinuousAt (fun u => a + u * (b + u * r u)) 0 :=
    continuousAt_const.add (hi.mul (continuousAt_const.add (hi.mul h1)))
  refine ⟨fun u => (b ^ 2 - a * r u + b * r u * u) / (a ^ 2 * (a + u * (b + u * r u))), ?_, ?_, ?_⟩
  · refine ContinuousAt.div ?_ (continuousAt_const.mul hF) (by simp [ha])
    exact (continuousAt_const.sub (continuousAt_const.mul h1)).add ((continuousAt_const.mul h1).mul hi)
  · simp [h2]; field_simp
  · have hne : ∀ᶠ u in 𝓝 (0 : ℂ), a + u * (b + u * r u) ≠ 0 := hF.eventually_ne (by simpa using ha)
    filter_upwards [h3, hne] with u e1 e2
    rw [e1]
    field_simp
    ring

theorem HasJet.div (hf : HasJet f x a b c) (hg : HasJet g x a' b' c') (h : a' ≠ 0) :
    HasJet (fun u => f u / g u) x (a / a') (b / a' - a * b' / a' ^ 2)
      (c / a' - b * b' / a' ^ 2 + a * (b' ^ 2 - a' * c') / a' ^ 3) := by
  simp only [div_eq_mul_inv (f _)]
  refine (hf.mul (hg.inv h)).congr (by field_simp) (by field_simp; ring) (by field_simp; ring)

theorem HasJet.comp {F : ℂ → ℂ} {p q s : ℂ} (hF : HasJet F a p q s) (hf : HasJet f x a b c) :
    HasJet (fun u => F (f u)) x p (q * b) (q * c + s * b ^ 2) := by
  obtain ⟨r, h1, h2, h3⟩ := hf
  obtain ⟨w, k1, k2, k3⟩ := hF
  have hi : ContinuousAt (fun u : ℂ => u) 0 := continuousAt_id
  set h : ℂ → ℂ := fun u => u * (b + u * r u) with hh
  have hc : ContinuousAt h 0 := hi.mul (continuousAt_const.add (hi.mul h1))
  have h0 : h 0 = 0 := by simp [hh]
  refine ⟨fun u => q * r u + w (h u) * (b + u * r u) ^ 2, ?_, ?_, ?_⟩
  · refine (continuousAt_const.mul h1).add (ContinuousAt.mul ?_ ((continuousAt_const.add (hi.mul h1)).pow 2))
    exact ContinuousAt.comp (g := w) (by rw [h0]; exact k1) hc
  · simp [h0, h2, k2]
  · have : Tendsto h (𝓝 0) (𝓝 0) := by simpa [h0] using hc.tendsto
    filter_upwards [h3, this.eventually k3] with u e1 e2
    rw [e1, e2]
    simp only [hh]
    ring

theorem HasJet.unique (hf : HasJet f x a b c) (hg : HasJet f x a' b' c') : a = a' ∧ b = b' ∧ c = c' := by
  have ha : a = a' := by rw [← hf.eq, hg.eq]
  obtain ⟨r, h1, h2, h3⟩ := hf
  obtain ⟨s, k1, k2, k3⟩ := hg
  have hi : ContinuousAt (fun u : ℂ => u) 0 := continuousAt_id
  have key : ∀ {G H : ℂ → ℂ}, ContinuousAt G 0 → ContinuousAt H 0 →
      (∀ᶠ u in 𝓝 (0 : ℂ), u * G u = u * H u) → G 0 = H 0 := by
    intro G H hG hH he
    have h1 : ∀ᶠ u in 𝓝[≠] (0 : ℂ), G u = H u := by
      filter_upwards [he.filter_mono nhdsWithin_le_nhds, self_mem_nhdsWithin] with u e1 e2
      exact mul_left_cancel₀ e2 e1
    exact tendsto_nhds_unique_of_eventuallyEq (hG.tendsto.mono_left nhdsWithin_le_nhds)
      (hH.tendsto.mono_left nhdsWithin_le_nhds) h1
  have hb : b = b' := by
    have := key (G := fun u => b + u * r u) (H := fun u => b' + u * s u)
      (continuousAt_const.add (hi.mul h1)) (continuousAt_const.add (hi.mul k1)) (by
        filter_upwards [h3, k3] with u e1 e2
        rw [e1, ha] at e2
        exact add_left_cancel e2)
    simpa using this
  refine ⟨ha, hb, ?_⟩
  have h4 : ∀ᶠ u in 𝓝[≠] (0 : ℂ), u * r u = u * s u := by
    filter_upwards [(h3.and k3).filter_mono nhdsWithin_le_nhds, self_mem_nhdsWithin] with u e1 e2
    obtain ⟨e, e'⟩ := e1
    rw [e, ha, hb] at e'
    exact add_left_cancel (mul_left_cancel₀ e2 (add_left_cancel e'))
  have := key h1 k1 (by
    rw [← nhdsNE_sup_pure, eventually_sup]
    exact ⟨h4, by simp⟩)
  rw [← h2, ← k2, this]

end

/-- The coefficients are derivatives. -/
theorem hasJet_of_deriv {g g' : ℂ → ℂ} {x g2 : ℂ} (h1 : ∀ᶠ z in 𝓝 x, HasDerivAt g (g' z) z)
    (h2 : HasDerivAt g' g2 x) : HasJet g x (g x) (g' x) (g2 / 2) := by
  have han : AnalyticAt ℂ g x := Complex.analyticAt_iff_eventually_differentiableAt.2
    (h1.mono fun z hz => hz.differentiableAt)
  obtain ⟨p, hp⟩ := han
  have hs1 : AnalyticAt ℂ (dslope g x) x := ⟨_, hp.has_fpower_series_dslope_fslope⟩
  set s1 := dslope g x with hs
  have e1 : s1 x = g' x := by rw [hs, dslope_same]; exact h1.self_of_nhds.deriv
  have hg : ∀ z, g z = g x + (z - x) * s1 z := fun z => by
    have := sub_smul_dslope g x z
    rw [smul_eq_mul] at this
    rw [this]; ring
  have hd1 : ∀ᶠ z in 𝓝 x, g' z = s1 z + (z - x) * deriv s1 z := by
    filter_upwards [h1, Complex.analyticAt_iff_eventually_differentiableAt.1 hs1] with z k1 k2
    have := ((hasDerivAt_id z).sub_const x).mul k2.hasDerivAt
    have h3 : HasDerivAt g (1 * s1 z + (id z - x) * deriv s1 z) z := by
      rw [show g = fun z => g x + (z - x) * s1 z from funext hg]
      exact this.const_add (g x)
    rw [k1.unique h3]
    simp
  have hd2 : HasDerivAt g' (2 * deriv s1 x) x := by
    have k := hs1.differentiableAt.hasDerivAt.add
      (((hasDerivAt_id x).sub_const x).mul hs1.deriv.differentiableAt.hasDerivAt)
    refine (k.congr_deriv ?_).congr_of_eventuallyEq hd1
    simp; ring
  have e2 : g2 = 2 * deriv s1 x := h2.unique hd2
  have hc : ContinuousAt (dslope s1 x) x := continuousAt_dslope_same.2 hs1.differentiableAt
  refine ⟨fun u => dslope s1 x (x + u), ?_, ?_, ?_⟩
  · have : ContinuousAt (fun u : ℂ => x + u) 0 := by fun_prop
    exact ContinuousAt.comp (g := dslope s1 x) (by simpa using hc) this
  · simp [dslope_same, e2]
  · refine .of_forall fun u => ?_
    have k := sub_smul_dslope s1 x (x + u)
    rw [smul_eq_mul] at k
    rw [hg (x + u), ← e1]
    have : s1 (x + u) = s1 x + (x + u - x) * dslope s1 x (x + u) := by rw [k]; ring
    rw [this]; ring

theorem hasJet_exp (x : ℂ) : HasJet Complex.exp x (Complex.exp x) (Complex.exp x) (Complex.exp x / 2) :=
  hasJet_of_deriv (.of_forall fun z => Complex.hasDerivAt_exp z) (Complex.hasDerivAt_exp x)

theorem hasJet_log_one : HasJet Complex.log 1 0 1 (-1 / 2) := by
  have h1 : ∀ᶠ z in 𝓝 (1 : ℂ), HasDerivAt Complex.log z⁻¹ z := by
    filter_upwards [Complex.isOpen_slitPlane.mem_nhds Complex.one_mem_slitPlane] with z hz
    exact Complex.hasDerivAt_log hz
  have h2 := hasDerivAt_inv (one_ne_zero (α := ℂ))
  exact (hasJet_of_deriv h1 h2).congr Complex.log_one (by simp) (by simp)

end Sdepy
