import Verif.Lemmas.HestonDecay
import Verif.Lemmas.Jet
import Verif.Lemmas.LevyMore
import Verif.Props.ChfPdf
import Verif.Props.CirConv

/-!
# C80: `heston_log_pdf` is the density of the values simulated for a Heston process
-/

set_option linter.unusedSectionVars false

open MeasureTheory ProbabilityTheory Real Set Filter Topology
open Complex (I)
open scoped BoundedContinuousFunction

namespace Sdepy
open Spec

/-! ### lemmas: `heston_log_chf` near zero -/

theorem hasJet_npCsqrt {k : ℝ} (hk : 0 < k) :
    HasJet npCsqrt ((k : ℂ) ^ 2) k (1 / (2 * k)) (-1 / (8 * k ^ 3)) := by
  have hs : (k : ℂ) ^ 2 ∈ Complex.slitPlane := sq_mem_slitPlane (by simpa using hk)
  have hk' : (k : ℂ) ≠ 0 := by exact_mod_cast hk.ne'
  have h0 : npCsqrt ((k : ℂ) ^ 2) = k := npCsqrt_of_sq (by simpa using hk) rfl
  have hd : ∀ᶠ z in 𝓝 ((k : ℂ) ^ 2), HasDerivAt npCsqrt ((1 / 2 : ℂ) * z ^ (1 / 2 - 1 : ℂ)) z := by
    filter_upwards [Complex.isOpen_slitPlane.mem_nhds hs] with z hz
    have := (hasDerivAt_id z).cpow_const (c := (1 / 2 : ℂ)) hz
    exact this.congr_deriv (by simp)
  have e1 : ((1 / 2 : ℂ) * ((k : ℂ) ^ 2) ^ (1 / 2 - 1 : ℂ)) = 1 / (2 * k) := by
    rw [← hd.self_of_nhds.unique (hasDerivAt_npCsqrt hk)]
  have hd2 := ((hasDerivAt_id ((k : ℂ) ^ 2)).cpow_const (c := (1 / 2 - 1 : ℂ)) hs).const_mul (1 / 2 : ℂ)
  refine (hasJet_of_deriv hd hd2).congr h0 e1 ?_
  have e2 : ((k : ℂ) ^ 2) ^ (1 / 2 - 1 - 1 : ℂ) = 1 / k ^ 3 := by
    rw [Complex.cpow_sub _ _ (pow_ne_zero _ hk'), Complex.cpow_one]
    have : ((k : ℂ) ^ 2) ^ (1 / 2 - 1 : ℂ) = 1 / k := by
      have : ((k : ℂ) ^ 2) ^ (1 / 2 - 1 : ℂ) = 2 * ((1 / 2 : ℂ) * ((k : ℂ) ^ 2) ^ (1 / 2 - 1 : ℂ)) := by ring
      rw [this, e1]
      field_simp
    rw [this]
    field_simp
  simp only [id]
  rw [e2]
  field_simp
  ring

set_option maxHeartbeats 4000000 in
theorem hasJet_heston {k xi : ℝ} (hk : 0 < k) (hxi : xi ≠ 0) (x0 mu sigma y0 theta rho t : ℝ) :
    HasJet (fun u : ℂ => hestonLogChf x0 mu sigma y0 theta k xi rho t u) 0 1
      (I * (hestonLogMean x0 mu sigma y0 theta k xi rho t : ℝ))
      (-((hestonLogVar x0 mu sigma y0 theta k xi rho t + hestonLogMean x0 mu sigma y0 theta k xi rho t ^ 2 : ℝ) : ℂ) / 2)
      := by
  have hk' : (k : ℂ) ≠ 0 := by exact_mod_cast hk.ne'
  have hxi' : (xi : ℂ) ≠ 0 := by exact_mod_cast hxi
  have hI : I ^ 2 = -1 := Complex.I_sq
  set s : ℂ := sigma * xi with hs
  set d1 : ℂ := I * (s ^ 2 / (2 * k) - rho * s) with hd1
  set d2 : ℂ := (s ^ 2 * (1 - rho ^ 2) + (s ^ 2 / (2 * k) - rho * s) ^ 2) / (2 * k) with hd2
  have hz : HasJet (fun u : ℂ => (rho * sigma * xi * u * I - k) ^ 2 + (sigma * xi) ^ 2 * u * (I + u)) 0
      ((k : ℂ) ^ 2) (-2 * k * (rho * s * I) + s ^ 2 * I) (s ^ 2 * (1 - rho ^ 2)) :=
    ⟨fun _ => s ^ 2 * (1 - rho ^ 2), continuousAt_const, rfl, .of_forall fun u => by
      simp only [hs]
      linear_combination ((rho * sigma * xi * u : ℂ)) ^ 2 * hI⟩
  have hd := ((hasJet_npCsqrt hk).comp hz).congr (b' := d1) (c' := d2) rfl (by
    rw [hd1]; field_simp; ring) (by
    rw [hd2]; field_simp; ring_nf; simp only [hI]; ring)
  set dd : ℂ → ℂ := fun u => npCsqrt ((rho * sigma * xi * u * I - k) ^ 2 +
      (sigma * xi) ^ 2 * u * (I + u)) with hdd
  have hlin : HasJet (fun u : ℂ => k - rho * sigma * xi * u * I) 0 k (-(rho * s * I)) 0 :=
    ⟨fun _ => 0, continuousAt_const, rfl, .of_forall fun u => by simp only [hs]; ring⟩
  have hap := hlin.sub hd
  have ham := hlin.add hd
  set al : ℂ := Complex.exp (-(k : ℂ) * t) with hal0
  have hal := ((hasJet_exp _).comp ((hd.neg).mul (hasJet_const 0 (t : ℂ))))
  rw [← hal0] at hal
  set p1 : ℂ := -(rho * s * I) - d1 with hp1
  have hap' := hap.congr (a' := 0) (b' := p1) (c' := -d2) (by ring) rfl (by ring)
  have ham' := ham.congr (a' := 2 * k) (b' := -(rho * s * I) + d1) (c' := d2) (by ring) rfl (by ring)
  have h2k : (2 * k : ℂ) ≠ 0 := mul_ne_zero two_ne_zero hk'
  set g1 : ℂ := p1 / (2 * k) with hg1
  set g2 : ℂ := -d2 / (2 * k) - p1 * (-(rho * s * I) + d1) / (2 * k) ^ 2 with hg2
  have hg := (hap'.div ham' h2k).congr (a' := 0) (b' := g1) (c' := g2) (by simp) (by simp [hg1]) (by simp [hg2])
  have hal' := hal.congr (a' := al) (b' := -(t * d1) * al) (c' := (-(t * d2) + t ^ 2 * d1 ^ 2 / 2) * al) rfl
    (by ring) (by ring)
  have hga := (hg.mul hal').congr (a' := 0) (b' := g1 * al) (c' := (g2 - g1 * t * d1) * al) (by ring) (by ring)
    (by ring)
  have h1ga := ((hasJet_const 0 1).sub hga).congr (a' := 1) (b' := -(g1 * al)) (c' := -((g2 - g1 * t * d1) * al))
    (by ring) (by ring) (by ring)
  have h1g := ((hasJet_const 0 1).sub hg).congr (a' := 1) (b' := -g1) (c' := -g2)
    (by ring) (by ring) (by ring)
  have hone := (h1ga.div h1g one_ne_zero).congr (a' := 1) (b' := g1 * (1 - al))
    (c' := g2 - (g2 - g1 * t * d1) * al + g1 ^ 2 * (1 - al)) (by ring) (by ring) (by ring)
  have hlog := (hasJet_log_one.comp hone)
  have hA1 := ((hasJet_id 0).const_mul I).mul (hasJet_const 0 ((log x0 : ℝ) + mu * t : ℂ))
  have hA2 := ((hap'.mul (hasJet_const 0 (t : ℂ))).sub (hlog.const_mul 2)).const_mul (theta * k / (xi * xi) : ℂ)
  replace hA2 := hA2.congr (c' := theta * k / (xi * xi) * (-d2 * t -
    2 * (g2 - (g2 - g1 * t * d1) * al + g1 ^ 2 * (1 - al) - 1 / 2 * (g1 ^ 2 * (1 - al) ^ 2)))) rfl rfl (by ring)
  have hA3 := ((hap'.const_mul (y0 / (xi * xi) : ℂ)).mul ((hasJet_const 0 1).sub hal')).div h1ga one_ne_zero
  replace hA3 := hA3.congr (c' := y0 / (xi * xi) * (p1 * (t * d1) * al - d2 * (1 - al) + p1 * g1 * ((1 - al) * al)))
    rfl rfl (by ring)
  have hA := ((hA1.add hA2).add hA3)
  have hfin := ((hasJet_exp _).comp (hA.congr (a' := 0)
    (b' := I * hestonLogMean x0 mu sigma y0 theta k xi rho t)
    (c' := -(hestonLogVar x0 mu sigma y0 theta k xi rho t : ℂ) / 2) (by ring) ?_ ?_))
  · rw [Complex.exp_zero] at hfin
    refine hfin.congr rfl (by ring) ?_
    push_cast
    linear_combination ((hestonLogMean x0 mu sigma y0 theta k xi rho t : ℂ) ^ 2 / 2) * hI
  · unfold hestonLogMean
    simp only
    push_cast
    rw [← hal0, hg1, hp1, hd1, hs]
    field_simp
    ring
  · unfold hestonLogVar
    simp only
    push_cast
    rw [← hal0]
    have e1 : p1 = I * (-(s ^ 2 / (2 * k))) := by rw [hp1, hd1]; ring
    have e2 : g1 = I * (-(s ^ 2 / (4 * k ^ 2))) := by rw [hg1, e1]; field_simp; ring
    have e3 : g2 = -d2 / (2 * k) - s ^ 2 / (2 * k) * (s ^ 2 / (2 * k) - 2 * rho * s) / (2 * k) ^ 2 := by
      rw [hg2, e1, hd1]
      linear_combination (s ^ 2 / (2 * k) * (s ^ 2 / (2 * k) - 2 * rho * s) / (2 * k) ^ 2) * hI
    have e4 : g1 * t * d1 = s ^ 2 / (4 * k ^ 2) * t * (s ^ 2 / (2 * k) - rho * s) := by
      rw [e2, hd1]
      linear_combination (-(s ^ 2 / (4 * k ^ 2)) * t * (s ^ 2 / (2 * k) - rho * s)) * hI
    have e5 : g1 ^ 2 = -(s ^ 2 / (4 * k ^ 2)) ^ 2 := by rw [e2, mul_pow, hI]; ring
    have e6 : p1 * (t * d1) = s ^ 2 / (2 * k) * t * (s ^ 2 / (2 * k) - rho * s) := by
      rw [e1, hd1]
      linear_combination (-(s ^ 2 / (2 * k)) * t * (s ^ 2 / (2 * k) - rho * s)) * hI
    have e7 : p1 * g1 = -(s ^ 2 / (2 * k)) * (s ^ 2 / (4 * k ^ 2)) := by
      rw [e1, e2]
      linear_combination ((s ^ 2 / (2 * k)) * (s ^ 2 / (4 * k ^ 2))) * hI
    rw [e4, e5, e3, e6, e7, hd2, hs]
    field_simp
    ring
/-! ### lemmas: the law -/

section
variable {x0 mu sigma y0 theta k xi rho : ℝ} (hx : 0 < x0) (hs : sigma ≠ 0) (hy : 0 ≤ y0) (hth : 0 < theta)
  (hk : 0 < k) (hxi : xi ≠ 0) (hr : |rho| < 1)

include hx hs hy hth hk hxi hr in
theorem heston_chfOf {τ : ℝ} (hτ : 0 < τ) {ν : Measure ℝ} [IsProbabilityMeasure ν]
    (hν : ∀ u : ℝ, charFun ν u = hestonLogChf x0 mu sigma y0 theta k xi rho τ u) :
    ChfOf ν (hestonLogChf x0 mu sigma y0 theta k xi rho τ) := by
  refine ⟨fun u => ?_, ?_⟩
  · rw [← hν, charFun_apply_real]
    congr 1
    ext x
    congr 1
    ring
  · obtain ⟨C, hC, h⟩ := affine_decay (xi := xi) hs hth hk hr hτ
    have hi := (integrable_exp_neg_mul_abs hC).const_mul (exp C)
    have e : (fun u : ℝ => hestonLogChf x0 mu sigma y0 theta k xi rho τ u) = charFun ν := funext fun u => (hν u).symm
    rw [e]
    refine hi.mono' measurable_charFun.aestronglyMeasurable (.of_forall fun u => ?_)
    rw [← exp_add]
    rcases le_or_gt 1 |u| with hu | hu
    · obtain ⟨A, B, h1, h2⟩ := heston_riccati hk hxi hr.le hx mu sigma theta u
      rw [hν, h2]
      refine (h mu u _ y0 A B hy hu h1).trans (exp_le_exp.2 (by linarith))
    · refine (norm_charFun_le_one u).trans ?_
      rw [← exp_zero]
      exact exp_le_exp.2 (by nlinarith)

include hx hy hth hk hxi hr in
/-- The second moment of the law is finite. -/
theorem heston_memLp {τ : ℝ} (hτ : 0 < τ) {ν : Measure ℝ} [IsProbabilityMeasure ν]
    (hν : ∀ u : ℝ, charFun ν u = hestonLogChf x0 mu sigma y0 theta k xi rho τ u) : MemLp id 2 ν := by
  have hn := heston_near (mu := mu) (sigma := sigma) hx hy hth hk hxi hr.le hτ.le
  rw [← funext hν] at hn
  obtain ⟨B, δ0, hB, hδ0, h⟩ := C75_heston_order x0 mu sigma y0 theta k xi rho hy hth hk hτ.le
  set m := hestonLogMean x0 mu sigma y0 theta k xi rho τ with hm
  set w := hestonLogVar x0 mu sigma y0 theta k xi rho τ with hw
  set C := w + B * δ0 + (|m| + B * δ0) ^ 2 with hC
  set R : Measure ℝ → ℝ → Prop := fun ν δ => chainLawFst mu sigma theta k xi rho (log x0) y0 τ ν δ ∧
    Integrable (fun x => x ^ 2) ν ∧ ∫ x, x ^ 2 ∂ν ≤ C with hR
  have hn' : ChfNear R (charFun ν) := by
    refine ⟨fun ν δ h => hn.1 ν δ h.1, fun v => ?_⟩
    obtain ⟨K, δ0, h1, h2, h3⟩ := hn.2 v
    exact ⟨K, δ0, h1, h2, fun ν δ h => h3 ν δ h.1⟩
  refine chfNear_memLp_two hn' one_pos (C := C) (fun ν δ h _ _ => h.2) fun ε hε => ?_
  have hmin : 0 < min ε δ0 := lt_min hε hδ0
  obtain ⟨n, hn1⟩ := exists_nat_gt (τ / min ε δ0)
  have hn0 : 0 < (n : ℝ) := lt_trans (by positivity) hn1
  obtain ⟨W, fuel, grid, hrun, hmesh⟩ := heston_run_exists x0 mu sigma y0 theta k xi hr.le hτ (n := n + 2) (by omega)
  have e : τ / (((n + 2 : ℕ) : ℝ) - 1) = τ / (n + 1) := by push_cast; congr 1; ring
  rw [e] at hmesh
  have hδ : τ / ((n : ℝ) + 1) ≤ min ε δ0 := by
    rw [div_lt_iff₀ hmin] at hn1
    rw [div_le_iff₀ (by positivity)]
    nlinarith
  have hpos : 0 < τ / ((n : ℝ) + 1) := by positivity
  have hprob := hrun.prob
  obtain ⟨X, Y, st, e1, -, -, hc⟩ := run_chain hrun hmesh
  obtain ⟨X', Y', st', e1', hX'⟩ := h _ _ true [] 1 _ _ _ _ [] 0 fuel _ 0 _ grid 0 _ hrun.addaxis hrun.init hrun.comp
    hrun.path hrun.x0_eq hrun.y0_eq hrun.params (fun t dt hdt => by
      obtain ⟨N, n1, n2⟩ := hrun.noise t dt hdt
      exact ⟨N, n1, corrNormal_noise hr.le (abs_nonneg _) n2⟩) hrun.along hmesh hpos (hδ.trans (min_le_right _ _))
  obtain ⟨m2, -, h3, h4, -⟩ := hX' τ (by simp) hτ.le (by simp)
  have heq : ∀ s, X' τ s = X τ s := fun s => by
    have := (e1' s).symm.trans (e1 s)
    simp at this
    exact this.1.2.1
  rw [sub_zero, ← hm] at h3
  rw [sub_zero, ← hw] at h4
  simp only [heq] at m2 h3 h4
  have hmeas : AEMeasurable (fun s => log ((X τ s).get ([] ++ [0]))) (Measure.infinitePi fun _ : ℕ => gaussItemLaw) :=
    m2.aestronglyMeasurable.aemeasurable
  refine ⟨_, _, ⟨⟨_, _, _, _, _, _, hc, by rw [zero_add]; exact (along_mem hrun.along).2.2 τ (by simp), rfl⟩,
    ?_, ?_⟩, hpos, hδ.trans (min_le_left _ _)⟩
  · rw [zero_add, integrable_map_measure (by fun_prop) hmeas]
    exact m2.integrable_sq
  · rw [zero_add, integral_map hmeas (by fun_prop)]
    have hvar := variance_eq_sub m2
    simp only [Pi.pow_apply] at hvar
    set Q := ∫ s, log ((X τ s).get ([] ++ [0])) ^ 2 ∂(Measure.infinitePi fun _ : ℕ => gaussItemLaw)
    set L := ∫ s, log ((X τ s).get ([] ++ [0])) ∂(Measure.infinitePi fun _ : ℕ => gaussItemLaw)
    have hb : B * (τ / ((n : ℝ) + 1)) ≤ B * δ0 := by gcongr; exact hδ.trans (min_le_right _ _)
    have k1 := (abs_le.1 h4).2
    have k2 : |L| ≤ |m| + B * δ0 := by
      calc |L| = |m + (L - m)| := by ring_nf
        _ ≤ |m| + |L - m| := abs_add_le _ _
        _ ≤ _ := by linarith
    have k3 : L ^ 2 ≤ (|m| + B * δ0) ^ 2 := by
      rw [← sq_abs L]; gcongr
    rw [hC]
    linarith

theorem hasJet_limit {f : ℂ → ℂ} {a b c : ℂ} (h : HasJet f 0 a b c) :
    Tendsto (fun u : ℝ => (f u - a - b * u) / u ^ 2) (𝓝[≠] 0) (𝓝 c) := by
  obtain ⟨r, h1, h2, h3⟩ := h
  have ho : Tendsto (fun u : ℝ => (u : ℂ)) (𝓝[≠] 0) (𝓝 0) := by
    have : Tendsto (fun u : ℝ => (u : ℂ)) (𝓝 0) (𝓝 ((0 : ℝ) : ℂ)) := Complex.continuous_ofReal.tendsto 0
    exact (by simpa using this : Tendsto (fun u : ℝ => (u : ℂ)) (𝓝 0) (𝓝 0)).mono_left nhdsWithin_le_nhds
  rw [← h2]
  refine (h1.tendsto.comp ho).congr' ?_
  filter_upwards [ho.eventually h3, self_mem_nhdsWithin] with u e1 e2
  have hu : (u : ℂ) ≠ 0 := by exact_mod_cast e2
  rw [zero_add] at e1
  simp only [Function.comp]
  rw [e1]
  field_simp
  ring

theorem charFun_limit {ν : Measure ℝ} [IsProbabilityMeasure ν] (h : MemLp id 2 ν) :
    HasDerivAt (charFun ν) (I * ((∫ x, x ∂ν : ℝ) : ℂ)) 0 ∧
    Tendsto (fun u : ℝ => (charFun ν u - 1 - I * ((∫ x, x ∂ν : ℝ) : ℂ) * u) / u ^ 2) (𝓝[≠] 0)
      (𝓝 (-((∫ x, x ^ 2 ∂ν : ℝ) : ℂ) / 2)) := by
  have hc : ContDiff ℝ 2 (charFun ν) := contDiff_charFun h
  have h1 : MemLp id 1 ν := h.mono_exponent (by norm_num)
  constructor
  · have hd : DifferentiableAt ℝ (charFun ν) 0 := hc.differentiable (by norm_num) 0
    have := iteratedDeriv_charFun_zero (n := 1) (by simpa using h1)
    simp only [iteratedDeriv_one, pow_one] at this
    rw [← this]
    exact hd.hasDerivAt
  · have ht := taylor_isLittleO_univ (f := charFun ν) (x₀ := 0) (n := 2) hc
    simp_rw [taylorWithinEval_charFun_zero (n := 2) h] at ht
    have h2 := (Complex.isLittleO_ofReal_right.2 ht).tendsto_div_nhds_zero
    have h3 := (h2.mono_left (nhdsWithin_le_nhds (s := {0}ᶜ))).add_const (-((∫ x, x ^ 2 ∂ν : ℝ) : ℂ) / 2)
    rw [zero_add] at h3
    refine h3.congr' ?_
    filter_upwards [self_mem_nhdsWithin] with u e2
    have hu : (u : ℂ) ≠ 0 := by exact_mod_cast e2
    simp only [Finset.sum_range_succ, Finset.range_zero, Finset.sum_empty, Nat.factorial, pow_zero, pow_one,
      integral_const, probReal_univ, sub_zero]
    push_cast
    field_simp
    ring_nf
    rw [Complex.I_sq]
    simp
    ring

end

/-! ### C80 -/

/-- **C80** (moments of the characteristic function). The expansion of `heston_log_chf` at zero, to the second
order, is that of the characteristic function of a law with mean `heston_log_mean` and variance
`heston_log_var`. -/
theorem C80_chf_moments {k xi : ℝ} (hk : 0 < k) (hxi : xi ≠ 0) (x0 mu sigma y0 theta rho t : ℝ) {m v : ℝ}
    (hm : hestonLogMean x0 mu sigma y0 theta k xi rho t = m) (hv : hestonLogVar x0 mu sigma y0 theta k xi rho t = v) :
    Tendsto (fun u : ℝ => (hestonLogChf x0 mu sigma y0 theta k xi rho t u - 1 - I * m * u) / u ^ 2) (𝓝[≠] 0)
      (𝓝 (-((v + m ^ 2 : ℝ) : ℂ) / 2)) := by
  have := hasJet_limit (hasJet_heston hk hxi x0 mu sigma y0 theta rho t)
  rwa [hm, hv] at this

/-- **C80** (density). `heston_log_pdf` gives the densities of the laws with characteristic function
`heston_log_chf`. -/
theorem C80_heston_density {x0 mu sigma y0 theta k xi rho : ℝ} (hx : 0 < x0) (hs : sigma ≠ 0) (hy : 0 ≤ y0)
    (hth : 0 < theta) (hk : 0 < k) (hxi : xi ≠ 0) (hr : |rho| < 1) :
    ∃ law : ℝ → Measure ℝ, (∀ τ, 0 < τ → IsProbabilityMeasure (law τ) ∧
        ∀ u : ℝ, charFun (law τ) u = hestonLogChf x0 mu sigma y0 theta k xi rho τ u) ∧
      GivesDensities law (0 < ·) (hestonLogPdf x0 mu sigma y0 theta k xi rho) := by
  have hex : ∀ τ : ℝ, ∃ ν : Measure ℝ, 0 < τ → IsProbabilityMeasure ν ∧
      ∀ u : ℝ, charFun ν u = hestonLogChf x0 mu sigma y0 theta k xi rho τ u := by
    intro τ
    by_cases hτ : 0 < τ
    · obtain ⟨ν, h, -⟩ := C76_heston_law (mu := mu) (sigma := sigma) hx hy hth hk hxi hr.le hτ.le
      exact ⟨ν, fun _ => h⟩
    · exact ⟨0, fun h => absurd h hτ⟩
  choose law hlaw using hex
  refine ⟨law, hlaw, C61_inversion (fun t ht => (hlaw t ht).1) fun t ht => ?_⟩
  have := (hlaw t ht).1
  exact heston_chfOf hx hs hy hth hk hxi hr ht (hlaw t ht).2

/-- What `heston_log_pdf` returns for a time `t`, as a function of `logx`. -/
def Spec.IsHestonLogPdf (x0 mu sigma y0 theta k xi rho t : ℝ) (f : ℝ → ℝ) : Prop :=
  ∀ z : ℝ, ∃ r, hestonLogPdf x0 mu sigma y0 theta k xi rho (.scalar t) (.scalar z) = .ok r ∧ r.shape = [] ∧
    r.get [] = f z

theorem heston_density {x0 mu sigma y0 theta k xi rho : ℝ} (hx : 0 < x0) (hs : sigma ≠ 0) (hy : 0 ≤ y0)
    (hth : 0 < theta) (hk : 0 < k) (hxi : xi ≠ 0) (hr : |rho| < 1) {τ : ℝ} (hτ : 0 < τ) {f : ℝ → ℝ}
    (hf : IsHestonLogPdf x0 mu sigma y0 theta k xi rho τ f) :
    ∃ ν : Measure ℝ, IsProbabilityMeasure ν ∧
      (∀ u : ℝ, charFun ν u = hestonLogChf x0 mu sigma y0 theta k xi rho τ u) ∧ DensityOf ν f := by
  obtain ⟨law, h1, h2⟩ := C80_heston_density (mu := mu) hx hs hy hth hk hxi hr
  refine ⟨law τ, (h1 τ hτ).1, (h1 τ hτ).2, ?_⟩
  have := (h1 τ hτ).1
  have hg : ∀ z : ℝ, ∃ g, DensityOf (law τ) g ∧ f z = g z := by
    intro z
    obtain ⟨g, r, k1, k2, k3, k4⟩ := h2.scalar_t τ (.scalar z) hτ
    obtain ⟨r', j1, j2, j3⟩ := hf z
    rw [k2] at j1
    cases j1
    exact ⟨g, k1, by rw [← j3, k4 [] .nil]; rfl⟩
  obtain ⟨g, hg0, -⟩ := hg 0
  have : f = g := funext fun z => by
    obtain ⟨g', h', e⟩ := hg z
    rw [e, densityOf_unique h' hg0]
  rw [this]
  exact hg0

theorem density_facts {ν : Measure ℝ} [IsProbabilityMeasure ν] {f : ℝ → ℝ} (h : DensityOf ν f) :
    Integrable f ∧ (∀ z, ν {z} = 0) ∧ (∀ z, ν.real (Iic z) = ∫ x in Iic z, f x) ∧
      ∀ g : ℝ → ℝ, ∫ x, g x ∂ν = ∫ x, g x * f x := by
  have hi : Integrable f := by
    have := (C61_unique h (g := f)).1
    by_contra hc
    rw [integral_undef hc] at this
    exact zero_ne_one this
  have hint : ∀ g : ℝ → ℝ, ∫ x, g x ∂ν = ∫ x, g x * f x := by
    intro g
    conv_lhs => rw [h.dens]
    rw [integral_withDensity_eq_integral_toReal_smul h.cont.measurable.ennreal_ofReal
      (.of_forall fun x => ENNReal.ofReal_lt_top)]
    refine integral_congr_ae (.of_forall fun x => ?_)
    simp only [ENNReal.toReal_ofReal (h.nonneg x), smul_eq_mul]
    ring
  refine ⟨hi, fun z => ?_, fun z => ?_, hint⟩
  · rw [h.dens, withDensity_apply _ (measurableSet_singleton _)]
    simp
  · rw [← integral_indicator_one measurableSet_Iic, hint, ← integral_indicator measurableSet_Iic]
    congr 1
    ext x
    by_cases hx : x ∈ Iic z <;> simp [hx]

/-- **C80** (probability density). The values returned by `heston_log_pdf` are a continuous function, never
negative, with integral one, whose mean is `heston_log_mean`, whose variance is `heston_log_var`, and
whose characteristic function is `heston_log_chf`. -/
theorem C80_heston_pdf {x0 mu sigma y0 theta k xi rho : ℝ} (hx : 0 < x0) (hs : sigma ≠ 0) (hy : 0 ≤ y0)
    (hth : 0 < theta) (hk : 0 < k) (hxi : xi ≠ 0) (hr : |rho| < 1) {τ : ℝ} (hτ : 0 < τ) {f : ℝ → ℝ}
    (hf : IsHestonLogPdf x0 mu sigma y0 theta k xi rho τ f) {m : ℝ}
    (hm : hestonLogMean x0 mu sigma y0 theta k xi rho τ = m) :
    Continuous f ∧ (∀ z, 0 ≤ f z) ∧ Integrable f ∧ ∫ z, f z = 1 ∧
      Integrable (fun z => z ^ 2 * f z) ∧ ∫ z, z * f z = m ∧
      ∫ z, (z - m) ^ 2 * f z = hestonLogVar x0 mu sigma y0 theta k xi rho τ ∧
      ∀ u : ℝ, ∫ z : ℝ, Complex.exp (I * u * z) * f z = hestonLogChf x0 mu sigma y0 theta k xi rho τ u := by
  obtain ⟨ν, hp, hν, hd⟩ := heston_density hx hs hy hth hk hxi hr hτ hf
  obtain ⟨hi, ha, hc, hg⟩ := density_facts hd
  have h2 := heston_memLp (mu := mu) (sigma := sigma) hx hy hth hk hxi hr hτ hν
  obtain ⟨l1, l2⟩ := charFun_limit h2
  have hcf : charFun ν = fun u : ℝ => hestonLogChf x0 mu sigma y0 theta k xi rho τ u := funext hν
  have hmean : ∫ x, x ∂ν = m := by
    have h3 : HasDerivAt (fun u : ℝ => hestonLogChf x0 mu sigma y0 theta k xi rho τ u) (I * m) 0 := by
      have := C54_heston_log_mean hk hxi x0 mu sigma y0 theta rho τ
      rw [hm] at this
      have h0 : HasDerivAt (fun u : ℝ => (u : ℂ)) 1 0 := Complex.ofRealCLM.hasDerivAt
      have h4 := HasDerivAt.comp (h₂ := fun u : ℂ => hestonLogChf x0 mu sigma y0 theta k xi rho τ u) (0 : ℝ)
        (by simpa using this) h0
      simpa [Function.comp_def] using h4
    rw [hcf] at l1
    have := mul_left_cancel₀ Complex.I_ne_zero (l1.unique h3)
    exact_mod_cast this
  rw [hmean] at l2
  have hsq : ∫ x, x ^ 2 ∂ν = hestonLogVar x0 mu sigma y0 theta k xi rho τ + m ^ 2 := by
    have h3 := C80_chf_moments hk hxi x0 mu sigma y0 theta rho τ hm rfl
    simp only [hcf] at l2
    have h4 := tendsto_nhds_unique l2 h3
    have h5 : ((∫ x, x ^ 2 ∂ν : ℝ) : ℂ) =
        ((hestonLogVar x0 mu sigma y0 theta k xi rho τ + m ^ 2 : ℝ) : ℂ) := by
      linear_combination (-2) * h4
    exact_mod_cast h5
  have i1 : Integrable (fun x : ℝ => x) ν := h2.integrable (by norm_num)
  have i2 : Integrable (fun x : ℝ => x ^ 2) ν := h2.integrable_sq
  refine ⟨hd.cont, hd.nonneg, hi, (C61_unique hd (g := f)).1, ?_, ?_, ?_, fun u => ?_⟩
  · rw [hd.dens, integrable_withDensity_iff_integrable_smul' hd.cont.measurable.ennreal_ofReal
      (.of_forall fun x => ENNReal.ofReal_lt_top)] at i2
    refine i2.congr (.of_forall fun x => ?_)
    simp only [ENNReal.toReal_ofReal (hd.nonneg x), smul_eq_mul]
    ring
  · rw [← hmean, hg]
  · rw [← hg (fun z => (z - m) ^ 2)]
    have e : (fun z : ℝ => (z - m) ^ 2) = fun z => z ^ 2 - 2 * m * z + m ^ 2 := by funext z; ring
    have i3 : Integrable (fun x : ℝ => x ^ 2 - 2 * m * x) ν := i2.sub (i1.const_mul _)
    rw [e, integral_add i3 (integrable_const _), integral_sub i2 (i1.const_mul _), hsq, integral_const_mul, hmean]
    simp
    ring
  · rw [← hν, charFun_apply_real, hd.dens, integral_withDensity_eq_integral_toReal_smul
      hd.cont.measurable.ennreal_ofReal (.of_forall fun x => ENNReal.ofReal_lt_top)]
    refine integral_congr_ae (.of_forall fun x => ?_)
    simp only [ENNReal.toReal_ofReal (hd.nonneg x), Complex.real_smul]
    rw [mul_comm]
    congr 2
    ring

theorem exHestonPdf (x0 mu sigma y0 theta k xi rho t : ℝ) : ∃ f, IsHestonLogPdf x0 mu sigma y0 theta k xi rho t f := by
  refine ⟨fun z => ∫ u : ℝ, chfIntegrand (hestonLogChf x0 mu sigma y0 theta k xi rho) u t z, fun z =>
    ⟨⟨[], fun _ => ∫ u : ℝ, chfIntegrand (hestonLogChf x0 mu sigma y0 theta k xi rho) u t z⟩, ?_, rfl, rfl⟩⟩
  unfold hestonLogPdf chfToPdf
  rw [if_neg (by simp [Arr.scalar])]
  rfl

/-- **C80** (standard deviation). `heston_log_var` is never negative, and `heston_log_std` is its root. -/
theorem C80_heston_std {x0 mu sigma y0 theta k xi rho : ℝ} (hx : 0 < x0) (hs : sigma ≠ 0) (hy : 0 ≤ y0)
    (hth : 0 < theta) (hk : 0 < k) (hxi : xi ≠ 0) (hr : |rho| < 1) {τ : ℝ} (hτ : 0 < τ) :
    0 < hestonLogSd x0 mu sigma y0 theta k xi rho τ ∧
    hestonLogSd x0 mu sigma y0 theta k xi rho τ ^ 2 = hestonLogVar x0 mu sigma y0 theta k xi rho τ := by
  have key : 0 < hestonLogVar x0 mu sigma y0 theta k xi rho τ := by
    obtain ⟨f, hf⟩ : ∃ f, IsHestonLogPdf x0 mu sigma y0 theta k xi rho τ f := exHestonPdf ..
    obtain ⟨h1, h2, h3, h4, h5, -, h6, -⟩ := C80_heston_pdf hx hs hy hth hk hxi hr hτ hf rfl
    set m := hestonLogMean x0 mu sigma y0 theta k xi rho τ
    rw [← h6]
    refine lt_of_le_of_ne (integral_nonneg fun z => mul_nonneg (sq_nonneg _) (h2 z)) fun h0 => ?_
    have hi : Integrable fun z => (z - m) ^ 2 * f z := by
      obtain ⟨ν, hp, hν, hd⟩ := heston_density hx hs hy hth hk hxi hr hτ hf
      have h7 := heston_memLp (mu := mu) (sigma := sigma) hx hy hth hk hxi hr hτ hν
      have i2 : Integrable (fun x : ℝ => (x - m) ^ 2) ν := (h7.sub (memLp_const m)).integrable_sq
      rw [hd.dens, integrable_withDensity_iff_integrable_smul' hd.cont.measurable.ennreal_ofReal
        (.of_forall fun x => ENNReal.ofReal_lt_top)] at i2
      refine i2.congr (.of_forall fun x => ?_)
      simp only [ENNReal.toReal_ofReal (hd.nonneg x), smul_eq_mul]
      ring
    have h8 := (integral_eq_zero_iff_of_nonneg (fun z => mul_nonneg (sq_nonneg _) (h2 z)) hi).1 h0.symm
    have h9 : (fun z => (z - m) ^ 2 * f z) = 0 :=
      (Continuous.ae_eq_iff_eq volume (by fun_prop) continuous_zero).1 h8
    have h10 : f = 0 := by
      refine (h1.ae_eq_iff_eq volume continuous_zero).1 ?_
      filter_upwards [compl_mem_ae_iff.2 (measure_singleton m)] with z hz
      have := congrFun h9 z
      simp only [Pi.zero_apply, mul_eq_zero] at this
      rcases this with h | h
      · exact absurd (sub_eq_zero.1 (pow_eq_zero_iff two_ne_zero |>.1 h)) hz
      · exact h
    rw [h10] at h4
    simp at h4
  exact ⟨sqrt_pos.2 key, sq_sqrt key.le⟩

/-- **C80** (convergence). As the longest step goes to zero, the values simulated by `heston_process` after a
time `τ` get cumulative probabilities given by the integrals of `heston_log_pdf`, uniformly; averages of
bounded continuous functions of the logarithm converge to their integrals against `heston_log_pdf`. -/
theorem C80_heston_conv {x0 mu sigma y0 theta k xi rho : ℝ} (hx : 0 < x0) (hs : sigma ≠ 0) (hy : 0 ≤ y0)
    (hth : 0 < theta) (hk : 0 < k) (hxi : xi ≠ 0) (hr : |rho| < 1) {τ : ℝ} (hτ : 0 < τ) {f : ℝ → ℝ}
    (hf : IsHestonLogPdf x0 mu sigma y0 theta k xi rho τ f) (g : ℝ →ᵇ ℝ) {ε : ℝ} (hε : 0 < ε) :
    ∃ δ0 : ℝ, 0 < δ0 ∧ ∀ (σ : Type) [MeasurableSpace σ] (μ : Measure σ) (a : Bool) (v : List ℕ)
      (p : ℕ) (P : HestonParams) (dw : Src ℝ (List ℕ) σ) (x y : Arr ℝ) (c : List ℕ) (q fuel : ℕ)
      (steps : Steps ℝ) (i0 : ℤ) (tl : TArr ℝ) (grid : List ℝ) (t0 δ : ℝ),
      HestonRun x0 mu sigma y0 theta k xi rho μ a v p P dw x y c q fuel steps i0 tl grid t0 →
      Mesh grid δ → 0 < δ → δ ≤ δ0 → t0 + τ ∈ tl.data →
      ∃ (X Y : ℝ → σ → Arr ℝ) (st : σ → σ),
        (∀ s, fullHestonCall a v p P x y dw fuel steps i0 tl s =
          .ok (tl.data.map fun t => some (X t s, Y t s), st s)) ∧
        (∀ s, hestonCall a v p P x y dw fuel steps i0 tl s =
          .ok (tl.data.map fun t => some (X t s), st s)) ∧
        |∫ s, g (log ((X (t0 + τ) s).get (c ++ [q]))) ∂μ - ∫ z, g z * f z| ≤ ε ∧
        ∀ z : ℝ, |μ.real {s | (X (t0 + τ) s).get (c ++ [q]) ≤ exp z} - ∫ w in Iic z, f w| ≤ ε := by
  obtain ⟨ν, hp, hν, hd⟩ := heston_density hx hs hy hth hk hxi hr hτ hf
  obtain ⟨hi, ha, hcdf, hg⟩ := density_facts hd
  have hn := heston_near (mu := mu) (sigma := sigma) hx hy hth hk hxi hr.le hτ.le
  rw [← funext hν] at hn
  obtain ⟨δ1, hδ1, h1⟩ := chfNear_integral hn g hε
  obtain ⟨δ2, hδ2, h2⟩ := chfNear_cdf_unif hn ha hε
  refine ⟨min δ1 δ2, by positivity, ?_⟩
  intro σ _ μ a v p P dw x y c q fuel steps i0 tl grid t0 δ hrun hm hδ hδ' ht
  obtain ⟨X, Y, st, e1, e2, hpos, hc⟩ := run_chain hrun hm
  have hgr := (along_mem hrun.along).2.2 _ ht
  have hR : chainLawFst mu sigma theta k xi rho (log x0) y0 τ
      (μ.map fun s => log ((X (t0 + τ) s).get (c ++ [q]))) δ := ⟨σ, _, μ, grid, t0, _, hc, hgr, rfl⟩
  have hmeas : Measurable fun s => log ((X (t0 + τ) s).get (c ++ [q])) := measurable_fst.comp (hc.meas _ hgr)
  refine ⟨X, Y, st, e1, e2, ?_, fun z => ?_⟩
  · have := h1 _ _ hR hδ (hδ'.trans (min_le_left _ _))
    rwa [integral_map hmeas.aemeasurable g.continuous.aestronglyMeasurable, hg] at this
  · have := h2 _ _ hR hδ (hδ'.trans (min_le_right _ _)) z
    rw [map_measureReal_apply hmeas measurableSet_Iic, hcdf] at this
    convert this using 4
    ext s
    simp [log_le_iff_le_exp (hpos _ s)]

/-- **C80** (number of steps). With enough integration steps, cumulative probabilities of the values simulated
at a time `t` of a timeline are all as near as wanted to the integrals of `heston_log_pdf`. -/
theorem C80_heston_steps {x0 mu sigma y0 theta k xi rho : ℝ} (hx : 0 < x0) (hs : sigma ≠ 0) (hy : 0 ≤ y0)
    (hth : 0 < theta) (hk : 0 < k) (hxi : xi ≠ 0) (hr : |rho| < 1) (tl : TArr ℝ) {t0 t : ℝ} (ht : t ∈ tl.data)
    (hlt : t0 < t) {f : ℝ → ℝ} (hf : IsHestonLogPdf x0 mu sigma y0 theta k xi rho (t - t0) f) {ε : ℝ} (hε : 0 < ε) :
    ∃ N : ℕ, ∀ (σ : Type) [MeasurableSpace σ] (μ : Measure σ) (a : Bool) (v : List ℕ)
      (p : ℕ) (P : HestonParams) (dw : Src ℝ (List ℕ) σ) (x y : Arr ℝ) (c : List ℕ) (q fuel n : ℕ)
      (i0 : ℤ) (grid : List ℝ), N ≤ n →
      HestonRun x0 mu sigma y0 theta k xi rho μ a v p P dw x y c q fuel (.int n) i0 tl grid t0 →
      ∃ (X : ℝ → σ → Arr ℝ) (st : σ → σ),
        (∀ s, hestonCall a v p P x y dw fuel (.int n) i0 tl s =
          .ok (tl.data.map fun t => some (X t s), st s)) ∧
        ∀ z : ℝ, |μ.real {s | (X t s).get (c ++ [q]) ≤ exp z} - ∫ w in Iic z, f w| ≤ ε := by
  obtain ⟨δ0, hδ0, h⟩ := C80_heston_conv hx hs hy hth hk hxi hr (sub_pos.2 hlt) hf 0 hε
  obtain ⟨N, hN⟩ := exists_mesh tl hδ0
  refine ⟨N, ?_⟩
  intro σ _ μ a v p P dw x y c q fuel n i0 grid hn hrun
  obtain ⟨X, Y, st, -, e, -, hX⟩ := h σ μ a v p P dw x y c q fuel (.int n) i0 tl grid t0 δ0 hrun
    (hN fuel n i0 grid t0 hn hrun.along) hδ0 le_rfl (by rw [add_sub_cancel]; exact ht)
  rw [add_sub_cancel] at hX
  exact ⟨X, st, e, hX⟩

/-- The payoff of a put option, as a function of the logarithm of the price. -/
noncomputable def Spec.putPayoff (K z : ℝ) : ℝ := max (K - exp z) 0

/-- **C80** (prices of options). As the longest step goes to zero, the mean of the payoff of a put option on the
values simulated by `heston_process` converges to its integral against `heston_log_pdf`; the mean of the payoff
of a call exceeds that of the put by exactly `x0*exp(mu*τ) - K`, whatever the steps. -/
theorem C80_heston_options {x0 mu sigma y0 theta k xi rho : ℝ} (hx : 0 < x0) (hs : sigma ≠ 0) (hy : 0 ≤ y0)
    (hth : 0 < theta) (hk : 0 < k) (hxi : xi ≠ 0) (hr : |rho| < 1) {τ : ℝ} (hτ : 0 < τ) {f : ℝ → ℝ}
    (hf : IsHestonLogPdf x0 mu sigma y0 theta k xi rho τ f) {K : ℝ} (hK : 0 ≤ K) {ε : ℝ} (hε : 0 < ε) :
    ∃ δ0 : ℝ, 0 < δ0 ∧ ∀ (σ : Type) [MeasurableSpace σ] (μ : Measure σ) (a : Bool) (v : List ℕ)
      (p : ℕ) (P : HestonParams) (dw : Src ℝ (List ℕ) σ) (x y : Arr ℝ) (c : List ℕ) (q fuel : ℕ)
      (steps : Steps ℝ) (i0 : ℤ) (tl : TArr ℝ) (grid : List ℝ) (t0 δ : ℝ),
      HestonRun x0 mu sigma y0 theta k xi rho μ a v p P dw x y c q fuel steps i0 tl grid t0 →
      Mesh grid δ → 0 < δ → δ ≤ δ0 → t0 + τ ∈ tl.data →
      ∃ (X : ℝ → σ → Arr ℝ) (st : σ → σ),
        (∀ s, hestonCall a v p P x y dw fuel steps i0 tl s =
          .ok (tl.data.map fun t => some (X t s), st s)) ∧
        |∫ s, max (K - (X (t0 + τ) s).get (c ++ [q])) 0 ∂μ - ∫ z, putPayoff K z * f z| ≤ ε ∧
        ∫ s, max ((X (t0 + τ) s).get (c ++ [q]) - K) 0 ∂μ =
          ∫ s, max (K - (X (t0 + τ) s).get (c ++ [q])) 0 ∂μ + (x0 * exp (mu * τ) - K) := by
  let g : ℝ →ᵇ ℝ := BoundedContinuousFunction.ofNormedAddCommGroup (putPayoff K)
    (by unfold putPayoff; fun_prop) K (fun z => by
      unfold putPayoff
      rw [Real.norm_of_nonneg (le_max_right _ _)]
      exact max_le (by have := exp_pos z; linarith) hK)
  obtain ⟨δ0, hδ0, h⟩ := C80_heston_conv hx hs hy hth hk hxi hr hτ hf g hε
  refine ⟨δ0, hδ0, ?_⟩
  intro σ _ μ a v p P dw x y c q fuel steps i0 tl grid t0 δ hrun hm hδ hδ' ht
  have := hrun.prob
  obtain ⟨X, Y, st, -, e, h1, -⟩ := h σ μ a v p P dw x y c q fuel steps i0 tl grid t0 δ hrun hm hδ hδ' ht
  obtain ⟨X2, Y2, st2, -, e2, hpos, hc⟩ := run_chain hrun hm
  obtain ⟨X', st', e', h2⟩ := C75_heston_mean (P := P) hrun.addaxis hrun.init hrun.comp hrun.path
    (fun t dt hdt => by
      obtain ⟨N, n1, n2⟩ := hrun.noise t dt hdt
      refine ⟨N, n1, ?_⟩
      have := (corrNormal_noise hr.le (abs_nonneg _) n2).fst
      rwa [Measure.map_map measurable_fst (by fun_prop)] at this) (by rw [hrun.x0_eq]; exact hx)
    (fun t => (hrun.params t).1) hrun.along
  have heq : ∀ {Z : ℝ → σ → Arr ℝ} {st3 : σ → σ}, (∀ s, hestonCall a v p P x y dw fuel steps i0 tl s =
      .ok (tl.data.map fun t => some (Z t s), st3 s)) → ∀ s, Z (t0 + τ) s = X (t0 + τ) s := by
    intro Z st3 e3 s
    have := (e3 s).symm.trans (e s)
    simp only [Except.ok.injEq, Prod.mk.injEq] at this
    have h4 := List.map_inj_left.1 this.1 _ ht
    exact Option.some.inj h4
  obtain ⟨h3, h4⟩ := h2 _ ht (by linarith)
  rw [hrun.x0_eq, add_sub_cancel_left] at h4
  simp only [heq e'] at h3 h4
  have hp : ∀ s, 0 < (X (t0 + τ) s).get (c ++ [q]) := fun s => by rw [← heq e2 s]; exact hpos _ _
  refine ⟨X, st, e, ?_, ?_⟩
  · have e5 : ∀ s, g (log ((X (t0 + τ) s).get (c ++ [q]))) = max (K - (X (t0 + τ) s).get (c ++ [q])) 0 := fun s => by
      show putPayoff K _ = _
      unfold putPayoff
      rw [exp_log (hp s)]
    simp only [e5] at h1
    exact h1
  · have i1 : Integrable (fun s => max (K - (X (t0 + τ) s).get (c ++ [q])) 0) μ :=
      ((integrable_const K).sub h3).pos_part
    have e6 : ∀ s, max ((X (t0 + τ) s).get (c ++ [q]) - K) 0 =
        max (K - (X (t0 + τ) s).get (c ++ [q])) 0 + ((X (t0 + τ) s).get (c ++ [q]) - K) := fun s => by
      rcases le_total ((X (t0 + τ) s).get (c ++ [q])) K with h | h
      · rw [max_eq_right (by linarith), max_eq_left (by linarith)]; ring
      · rw [max_eq_left (by linarith), max_eq_right (by linarith)]; ring
    have i2 : Integrable (fun s => (X (t0 + τ) s).get (c ++ [q]) - K) μ := h3.sub (integrable_const K)
    simp only [e6]
    rw [integral_add i1 i2, integral_sub h3 (integrable_const K), h4]
    simp

/-- **C80** (Cox-Ingersoll-Ross). Cumulative probabilities of the values simulated by
`cox_ingersoll_ross_process` converge uniformly to the integrals of `cir_pdf`. -/
theorem C80_cir_conv {theta k xi y0 τ : ℝ} {p : ℝ → ℝ → ℝ → ℝ} (hp : IsCirPdf theta k xi p) (hth : 0 < theta)
    (hk : 0 < k) (hxi : xi ≠ 0) (hτ : 0 < τ) (hy : 0 < y0) {ε : ℝ} (hε : 0 < ε) :
    ∃ δ0 : ℝ, 0 < δ0 ∧ ∀ (ι σ : Type) [Countable ι] [MeasurableSpace σ] (μ : Measure σ)
      [IsProbabilityMeasure μ] (x0 th kk xx : ι → ℝ) (i : ι) (dw : Src ℝ ι σ)
      (fuel : ℕ) (steps : Steps ℝ) (i0 : ℤ) (tl : TArr ℝ) (grid : List ℝ) (t0 δ : ℝ),
      x0 i = y0 → th i = theta → kk i = k → xx i = xi →
      (∀ t dt, dt ≠ 0 → ∃ N, DrawsLaw μ N (dw t dt) ∧
        N.map (fun x => x i) = gaussianReal 0 |dt|.toNNReal) →
      Along fuel steps i0 tl grid t0 → Mesh grid δ → 0 < δ → δ ≤ δ0 → t0 + τ ∈ tl.data →
      ∃ (X : ℝ → σ → ι → ℝ) (st : σ → σ),
        (∀ s, (cirSDE x0 (fun _ => th) (fun _ => kk) (fun _ => xx) dw).call fuel steps i0 tl s =
          .ok (tl.data.map fun t => some (X t s), st s)) ∧
        ∀ z : ℝ, |μ.real {s | X (t0 + τ) s i ≤ z} - ∫ x in Ioc 0 z, p τ y0 x| ≤ ε := by
  obtain ⟨d0, d1, d2⟩ := C62_density hp (by positivity) hxi hτ hy
  have hn := cir_near_law hp hth hk hxi hτ hy
  have := posDensity_prob d0 d1 d2
  obtain ⟨δ2, hδ2, h2⟩ := chfNear_cdf_unif hn (posDensity_atom _) hε
  refine ⟨δ2, hδ2, ?_⟩
  intro ι σ _ _ μ _ x0 th kk xx i dw fuel steps i0 tl grid t0 δ e0 e1 e2 e3 hw h hm hδ hδ' ht
  obtain ⟨X, st, e, hc⟩ := cir_chain e0 e1 e2 e3 hw h hm
  have hg := (along_mem h).2.2 _ ht
  have hR : chainLawSnd 0 0 theta k xi 1 0 y0 τ (μ.map fun s => X (t0 + τ) s i) δ :=
    ⟨σ, _, μ, grid, t0, _, hc, hg, rfl⟩
  have hmeas : Measurable fun s => X (t0 + τ) s i := measurable_snd.comp (hc.meas _ hg)
  refine ⟨X, st, e, fun z => ?_⟩
  have := h2 _ _ hR hδ hδ' z
  rw [map_measureReal_apply hmeas measurableSet_Iic, posDensity_cdf d0 d1] at this
  exact this

/-- **C80** (no diffusion). With `sigma = 0` the law has no density, although a number is returned. -/
theorem C80_no_diffusion {x0 mu y0 theta k xi rho τ : ℝ} (hk : 0 < k) {ν : Measure ℝ}
    [IsProbabilityMeasure ν] (hν : ∀ u : ℝ, charFun ν u = hestonLogChf x0 mu 0 y0 theta k xi rho τ u) :
    (¬ ∃ f, DensityOf ν f) ∧
      ∀ x : Arr ℝ, ∃ r, hestonLogPdf x0 mu 0 y0 theta k xi rho (.scalar τ) x = .ok r := by
  constructor
  · have e : ν = Measure.dirac (log x0 + mu * τ) := by
      refine Measure.ext_of_charFun (funext fun u => ?_)
      have h : npCsqrt ((k : ℂ) ^ 2) = k := npCsqrt_of_sq (by simpa using hk) rfl
      rw [hν, charFun_dirac]
      unfold hestonLogChf
      simp [h]
      ring_nf
    rintro ⟨f, hf⟩
    have := (density_facts hf).2.1 (log x0 + mu * τ)
    rw [e] at this
    simp at this
  · intro x
    exact ⟨_, by unfold hestonLogPdf chfToPdf; rw [if_neg (by simp [Arr.scalar])]⟩

/-! ### cases meeting the hypotheses -/

example := C80_chf_moments (k := 2) (xi := 3) (by norm_num) (by norm_num) 10 1 2 1 3 (-1 / 2) 1 rfl rfl

example := C80_heston_std (x0 := 10) (mu := 1) (sigma := 2) (y0 := 1) (theta := 3) (k := 4) (xi := 5)
  (rho := -1 / 2) (by norm_num) (by norm_num) (by norm_num) (by norm_num) (by norm_num) (by norm_num)
  (by norm_num [abs_lt]) (τ := 3) (by norm_num)

example := C80_heston_density (x0 := 10) (mu := 1) (sigma := 2) (y0 := 1) (theta := 3) (k := 4) (xi := 5)
  (rho := -1 / 2) (by norm_num) (by norm_num) (by norm_num) (by norm_num) (by norm_num) (by norm_num)
  (by norm_num [abs_lt])

/-- A density with mean `heston_log_mean`. -/
example : ∃ f, IsHestonLogPdf 10 1 2 1 3 4 5 (-1 / 2) 1 f ∧ ∫ z, f z = 1 ∧
    ∫ z, z * f z = hestonLogMean 10 1 2 1 3 4 5 (-1 / 2) 1 := by
  obtain ⟨f, hf⟩ := exHestonPdf 10 1 2 1 3 4 5 (-1 / 2) 1
  obtain ⟨-, -, -, h1, -, h2, -⟩ := C80_heston_pdf (by norm_num) (by norm_num) (by norm_num) (by norm_num)
    (by norm_num) (by norm_num) (by norm_num [abs_lt]) one_pos hf rfl
  exact ⟨f, hf, h1, h2⟩

/-- With enough steps, all cumulative probabilities of the values simulated. -/
example : ∃ (f : ℝ → ℝ) (n fuel : ℕ) (X : ℝ → (ℕ → GaussItem) → Arr ℝ)
    (st : (ℕ → GaussItem) → ℕ → GaussItem) (W : WienerSrc),
    IsHestonLogPdf 10 1 2 1 3 4 5 (-1 / 2) 1 f ∧
    wienerNew 3 [4] .none (.arr ⟨[2], fun i => 1 / 2 - i.headD 0⟩) = .ok W ∧
    (∀ s, hestonCall false [2] 3 exParams (.scalar 10) (.scalar 1) (wienerAt W gaussRng) fuel (.int n) 0
      ⟨[2], [1, 2]⟩ s = .ok ([some (X 1 s), some (X 2 s)], st s)) ∧
    ∀ z, |(Measure.infinitePi fun _ : ℕ => gaussItemLaw).real {s | (X 2 s).get [1, 2] ≤ exp z} -
      ∫ w in Iic z, f w| ≤ 1 / 1000 := by
  obtain ⟨f, hf⟩ := exHestonPdf 10 1 2 1 3 4 5 (-1 / 2) 1
  obtain ⟨N, h⟩ := C80_heston_steps (x0 := 10) (mu := 1) (sigma := 2) (y0 := 1) (theta := 3) (k := 4)
    (xi := 5) (rho := -1 / 2) (by norm_num) (by norm_num) (by norm_num) (by norm_num) (by norm_num) (by norm_num)
    (by norm_num [abs_lt]) ⟨[2], [1, 2]⟩ (t0 := 1) (t := 2) (by simp) (by norm_num) (f := f)
    (by rw [show (2 : ℝ) - 1 = 1 by norm_num]; exact hf) (ε := 1 / 1000) (by norm_num)
  obtain ⟨W, fuel, grid, hnew, hrun, -⟩ := exHestonRun (n := N + 2) (by omega)
  obtain ⟨X, st, e, hX⟩ := h _ _ false [2] 3 exParams (wienerAt W gaussRng) (.scalar 10) (.scalar 1) [1] 2
    fuel (N + 2) 0 grid (by omega) hrun
  exact ⟨f, N + 2, fuel, X, st, W, hf, hnew, e, hX⟩

/-- With steps short enough, the price of a put option struck at 12. -/
example : ∃ (f : ℝ → ℝ) (n fuel : ℕ) (X : ℝ → (ℕ → GaussItem) → Arr ℝ)
    (st : (ℕ → GaussItem) → ℕ → GaussItem) (W : WienerSrc),
    IsHestonLogPdf 10 1 2 1 3 4 5 (-1 / 2) 1 f ∧
    (∀ s, hestonCall false [2] 3 exParams (.scalar 10) (.scalar 1) (wienerAt W gaussRng) fuel (.int n) 0
      ⟨[2], [1, 2]⟩ s = .ok ([some (X 1 s), some (X 2 s)], st s)) ∧
    |∫ s, max (12 - (X 2 s).get [1, 2]) 0 ∂(Measure.infinitePi fun _ : ℕ => gaussItemLaw) -
      ∫ z, putPayoff 12 z * f z| ≤ 1 / 1000 := by
  obtain ⟨f, hf⟩ := exHestonPdf 10 1 2 1 3 4 5 (-1 / 2) 1
  obtain ⟨δ0, hδ0, h⟩ := C80_heston_options (by norm_num) (by norm_num) (by norm_num) (by norm_num)
    (by norm_num) (by norm_num) (by norm_num [abs_lt]) one_pos hf (K := 12) (by norm_num) (ε := 1 / 1000) (by norm_num)
  obtain ⟨N, hN⟩ := exists_mesh ⟨[2], [1, 2]⟩ hδ0
  obtain ⟨W, fuel, grid, hnew, hrun, -⟩ := exHestonRun (n := N + 2) (by omega)
  obtain ⟨X, st, e, hX, -⟩ := h _ _ false [2] 3 exParams (wienerAt W gaussRng) (.scalar 10) (.scalar 1) [1] 2
    fuel (.int (N + 2 : ℕ)) 0 ⟨[2], [1, 2]⟩ grid 1 δ0 hrun
    (hN fuel (N + 2) 0 grid 1 (by omega) hrun.along) hδ0 le_rfl (by norm_num)
  rw [show (1 : ℝ) + 1 = 2 by norm_num] at hX
  exact ⟨f, N + 2, fuel, X, st, W, hf, e, hX⟩

example : ∃ (p : ℝ → ℝ → ℝ → ℝ) (N fuel : ℕ)
    (X : ℝ → (ℕ → Item ℝ) → Cells ([2] ++ [3]) → ℝ) (st : (ℕ → Item ℝ) → ℕ → Item ℝ),
    IsCirPdf 1 2 3 p ∧
    (∀ s, (cirSDE (fun _ => 4) (fun _ _ => 1) (fun _ _ => 2) (fun _ _ => 3)
      (wienerCells ([2] ++ [3]) ⟨3, [2], .none⟩ (itemRng ℝ))).call fuel (.int N) 0
        ⟨[2], [1, 2]⟩ s = .ok ([some (X 1 s), some (X 2 s)], st s)) ∧
    ∀ z, |(Measure.infinitePi fun _ : ℕ => itemLaw stdNormal).real {s | X 2 s ⟨[1, 2], by decide⟩ ≤ z} -
      ∫ x in Ioc 0 z, p 1 4 x| ≤ 1 / 1000 := by
  obtain ⟨p, hp⟩ : ∃ p, IsCirPdf 1 2 3 p := by
    refine ⟨fun t x0 x => (cirPdf x0 1 2 3 t x).getD 0, fun t _ x0 _ x hx => ?_⟩
    simp only [cirPdf]
    rw [if_neg (by rintro (h | h) <;> linarith)]
    simp
  obtain ⟨δ0, hδ0, h⟩ := C80_cir_conv hp (y0 := 4) (τ := 1) one_pos two_pos (by norm_num) (by norm_num) (by norm_num)
    (ε := 1 / 1000) (by norm_num)
  obtain ⟨N, hN⟩ := exists_mesh ⟨[2], [1, 2]⟩ hδ0
  obtain ⟨fuel, grid, hal⟩ := along_of_valid (steps := .int N) (i0 := 0) (tl := ⟨[2], [1, 2]⟩)
    (i := 0) (t0 := 1) ⟨rfl, by simp⟩ ⟨by simp, .inl rfl⟩ rfl (by rintro _ ⟨⟩; simp)
  obtain ⟨X, st, e, hX⟩ := h (Cells ([2] ++ [3])) _ (Measure.infinitePi fun _ : ℕ => itemLaw stdNormal)
    (fun _ => 4) (fun _ => 1) (fun _ => 2) (fun _ => 3) ⟨[1, 2], by decide⟩ _ fuel (.int N) 0 _ grid 1 δ0
    rfl rfl rfl rfl (exCirNoise _) hal (hN fuel N 0 grid 1 le_rfl hal) hδ0 le_rfl (by norm_num)
  rw [show (1 : ℝ) + 1 = 2 by norm_num] at hX
  exact ⟨p, N, fuel, X, st, hp, e, hX⟩

/-- The law without diffusion is that of a constant. -/
example : ∃ ν : Measure ℝ, IsProbabilityMeasure ν ∧ ∀ u : ℝ, charFun ν u = hestonLogChf 10 1 0 1 3 4 5 (-1 / 2) 1 u := by
  obtain ⟨ν, h, -⟩ := C76_heston_law (x0 := 10) (mu := 1) (sigma := 0) (y0 := 1) (theta := 3) (k := 4) (xi := 5)
    (rho := -1 / 2) (by norm_num) (by norm_num) (by norm_num) (by norm_num) (by norm_num)
    (by norm_num [abs_le]) (τ := 1) (by norm_num)
  exact ⟨ν, h⟩

end Sdepy
