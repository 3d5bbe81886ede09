import Mathlib.Probability.Distributions.Beta
import Mathlib.Analysis.SpecialFunctions.Gamma.BohrMollerup
import Mathlib.Analysis.SpecialFunctions.Gamma.Deriv
import Mathlib.Analysis.Convex.Deriv

/-!
# The log-normaliser of the Dirichlet distribution is convex

`logNorm γ = Σ log Γ(γ k) - log Γ(Σ γ k)`.  Its gradient is the expectation of the logarithms,
`ψ(γ k) - ψ(Σ γ k)`, so it lies above its tangents.
-/

namespace Verif.Dirichlet

open Real MeasureTheory Set ProbabilityTheory

/-- The digamma function. -/
noncomputable def psi (x : ℝ) : ℝ := deriv (fun y => log (Gamma y)) x

theorem hasDerivAt_logGamma {x : ℝ} (hx : 0 < x) : HasDerivAt (fun y => log (Gamma y)) (psi x) x := by
  have h : DifferentiableAt ℝ (fun y => log (Gamma y)) x := by
    apply DifferentiableAt.log
    · apply differentiableAt_Gamma
      intro m h
      have : (0 : ℝ) ≤ m := Nat.cast_nonneg m
      linarith
    · exact (Gamma_pos_of_pos hx).ne'
  exact h.hasDerivAt

/-- The Beta function as an integral over the open unit interval. -/
theorem beta_eq_integral {s t : ℝ} (hs : 0 < s) (ht : 0 < t) :
    beta s t = ∫ x in Ioo (0 : ℝ) 1, x ^ (s - 1) * (1 - x) ^ (t - 1) := by
  rw [beta_eq_betaIntegralReal s t hs ht, Complex.betaIntegral,
    intervalIntegral.integral_of_le (by norm_num), ← integral_Ioc_eq_integral_Ioo, ← RCLike.re_to_complex,
    ← integral_re]
  · refine setIntegral_congr_fun measurableSet_Ioc fun x hx => ?_
    obtain ⟨hx1, hx2⟩ := hx
    norm_cast
    rw [← Complex.ofReal_cpow, ← Complex.ofReal_cpow, RCLike.re_to_complex,
      Complex.re_mul_ofReal, Complex.ofReal_re]
    all_goals linarith
  · have := Complex.betaIntegral_convergent (u := (s : ℂ)) (v := (t : ℂ)) (by simpa) (by simpa)
    rwa [intervalIntegrable_iff_integrableOn_Ioc_of_le (by simp), IntegrableOn] at this

theorem beta_integrable {s t : ℝ} (hs : 0 < s) (ht : 0 < t) :
    Integrable (fun x : ℝ => x ^ (s - 1) * (1 - x) ^ (t - 1)) (volume.restrict (Ioo 0 1)) := by
  by_contra h
  have h1 := beta_eq_integral hs ht
  rw [integral_undef h] at h1
  exact (beta_pos hs ht).ne' h1

/-- Log-convexity of the Beta function, by Hölder's inequality. -/
theorem beta_le {s t s' t' a b : ℝ} (hs : 0 < s) (ht : 0 < t) (hs' : 0 < s') (ht' : 0 < t') (ha : 0 < a)
    (hb : 0 < b) (hab : a + b = 1) :
    beta (a * s + b * s') (a * t + b * t') ≤ beta s t ^ a * beta s' t' ^ b := by
  let f : ℝ → ℝ → ℝ → ℝ → ℝ := fun c u v x => x ^ (c * (u - 1)) * (1 - x) ^ (c * (v - 1))
  have e : HolderConjugate (1 / a) (1 / b) := Real.holderConjugate_one_div ha hb hab
  have h1 : 0 < a * s + b * s' := by positivity
  have h2 : 0 < a * t + b * t' := by positivity
  have posf : ∀ c u v x : ℝ, x ∈ Ioo (0 : ℝ) 1 → 0 ≤ f c u v x := fun c u v x hx =>
    mul_nonneg (rpow_nonneg hx.1.le _) (rpow_nonneg (by linarith [hx.2]) _)
  have posf' : ∀ c u v : ℝ, ∀ᵐ x : ℝ ∂volume.restrict (Ioo (0 : ℝ) 1), 0 ≤ f c u v x := fun c u v =>
    (ae_restrict_iff' measurableSet_Ioo).mpr (ae_of_all _ (posf c u v))
  have fpow : ∀ {c x : ℝ} (_ : 0 < c) (u v : ℝ) (_ : x ∈ Ioo (0 : ℝ) 1),
      x ^ (u - 1) * (1 - x) ^ (v - 1) = f c u v x ^ (1 / c) := by
    intro c x hc u v hx
    have hx1 : (0 : ℝ) ≤ 1 - x := by linarith [hx.2]
    dsimp only [f]
    rw [mul_rpow (rpow_nonneg hx.1.le _) (rpow_nonneg hx1 _), ← rpow_mul hx.1.le, ← rpow_mul hx1]
    congr 2 <;> field
  have f_mem_Lp : ∀ {c u v : ℝ} (_ : 0 < c) (_ : 0 < u) (_ : 0 < v),
      MemLp (f c u v) (ENNReal.ofReal (1 / c)) (volume.restrict (Ioo (0 : ℝ) 1)) := by
    intro c u v hc hu hv
    have A : ENNReal.ofReal (1 / c) ≠ 0 := by
      rwa [Ne, ENNReal.ofReal_eq_zero, not_le, one_div_pos]
    have B : ENNReal.ofReal (1 / c) ≠ ⊤ := ENNReal.ofReal_ne_top
    rw [← memLp_norm_rpow_iff _ A B, ENNReal.toReal_ofReal (one_div_nonneg.mpr hc.le),
      ENNReal.div_self A B, memLp_one_iff_integrable]
    · apply Integrable.congr (beta_integrable hu hv)
      refine Filter.eventuallyEq_of_mem (self_mem_ae_restrict measurableSet_Ioo) fun x hx => ?_
      rw [fpow hc u v hx]
      congr 1
      exact (norm_of_nonneg (posf _ _ _ x hx)).symm
    · exact Measurable.aestronglyMeasurable (by fun_prop)
  rw [beta_eq_integral hs ht, beta_eq_integral hs' ht', beta_eq_integral h1 h2]
  convert!
    MeasureTheory.integral_mul_le_Lp_mul_Lq_of_nonneg e (posf' a s t) (posf' b s' t') (f_mem_Lp ha hs ht)
      (f_mem_Lp hb hs' ht') using 1
  · refine setIntegral_congr_fun measurableSet_Ioo fun x hx => ?_
    have hx1 : (0 : ℝ) < 1 - x := by linarith [hx.2]
    have hb' : b = 1 - a := by linarith
    have B : x ^ (a * s + b * s' - 1) = x ^ (a * (s - 1)) * x ^ (b * (s' - 1)) := by
      rw [← rpow_add hx.1, hb']; congr 1; ring
    have C : (1 - x) ^ (a * t + b * t' - 1) = (1 - x) ^ (a * (t - 1)) * (1 - x) ^ (b * (t' - 1)) := by
      rw [← rpow_add hx1, hb']; congr 1; ring
    dsimp only [f]
    rw [B, C]
    ring
  · rw [one_div_one_div, one_div_one_div]
    congr 2 <;> exact setIntegral_congr_fun measurableSet_Ioo fun x hx => fpow (by assumption) _ _ hx

/-- `log B`. -/
noncomputable def logBeta (s t : ℝ) : ℝ := log (Gamma s) + log (Gamma t) - log (Gamma (s + t))

theorem logBeta_eq {s t : ℝ} (hs : 0 < s) (ht : 0 < t) : logBeta s t = log (beta s t) := by
  have h1 := (Gamma_pos_of_pos hs).ne'
  have h2 := (Gamma_pos_of_pos ht).ne'
  have h3 := (Gamma_pos_of_pos (add_pos hs ht)).ne'
  rw [logBeta, beta, log_div (mul_ne_zero h1 h2) h3, log_mul h1 h2]

theorem logBeta_convex {s t s' t' a b : ℝ} (hs : 0 < s) (ht : 0 < t) (hs' : 0 < s') (ht' : 0 < t') (ha : 0 < a)
    (hb : 0 < b) (hab : a + b = 1) :
    logBeta (a * s + b * s') (a * t + b * t') ≤ a * logBeta s t + b * logBeta s' t' := by
  have h1 : 0 < a * s + b * s' := by positivity
  have h2 : 0 < a * t + b * t' := by positivity
  rw [logBeta_eq h1 h2, logBeta_eq hs ht, logBeta_eq hs' ht', ← log_rpow (beta_pos hs ht),
    ← log_rpow (beta_pos hs' ht'), ← log_mul (rpow_pos_of_pos (beta_pos hs ht) _).ne'
      (rpow_pos_of_pos (beta_pos hs' ht') _).ne']
  exact log_le_log (beta_pos h1 h2) (beta_le hs ht hs' ht' ha hb hab)

/-- The log-Beta function lies above its tangents. -/
theorem logBeta_tangent {s t s' t' : ℝ} (hs : 0 < s) (ht : 0 < t) (hs' : 0 < s') (ht' : 0 < t') :
    logBeta s t + (s' - s) * (psi s - psi (s + t)) + (t' - t) * (psi t - psi (s + t)) ≤ logBeta s' t' := by
  let g : ℝ → ℝ := fun r => logBeta (s + r * (s' - s)) (t + r * (t' - t))
  have hpos : ∀ r ∈ Icc (0 : ℝ) 1, ∀ u v : ℝ, 0 < u → 0 < v → 0 < u + r * (v - u) := by
    intro r hr u v hu hv
    have : u + r * (v - u) = (1 - r) * u + r * v := by ring
    rw [this]
    rcases eq_or_lt_of_le hr.1 with h | h
    · rw [← h]; simpa using hu
    · have := mul_pos h hv
      have := mul_nonneg (sub_nonneg.2 hr.2) hu.le
      linarith
  have hconv : ConvexOn ℝ (Icc (0 : ℝ) 1) g := by
    refine convexOn_iff_forall_pos.mpr ⟨convex_Icc _ _, fun x hx y hy a b ha hb hab => ?_⟩
    have := logBeta_convex (hpos x hx s s' hs hs') (hpos x hx t t' ht ht') (hpos y hy s s' hs hs')
      (hpos y hy t t' ht ht') ha hb hab
    have hb' : b = 1 - a := by linarith
    have e1 : a * (s + x * (s' - s)) + b * (s + y * (s' - s)) = s + (a * x + b * y) * (s' - s) := by
      rw [hb']; ring
    have e2 : a * (t + x * (t' - t)) + b * (t + y * (t' - t)) = t + (a * x + b * y) * (t' - t) := by
      rw [hb']; ring
    rw [e1, e2] at this
    simpa [g, smul_eq_mul] using this
  have hder : HasDerivAt g ((s' - s) * (psi s - psi (s + t)) + (t' - t) * (psi t - psi (s + t))) 0 := by
    have l1 : HasDerivAt (fun r : ℝ => s + r * (s' - s)) (s' - s) 0 := by
      simpa using ((hasDerivAt_id (0 : ℝ)).mul_const (s' - s)).const_add s
    have l2 : HasDerivAt (fun r : ℝ => t + r * (t' - t)) (t' - t) 0 := by
      simpa using ((hasDerivAt_id (0 : ℝ)).mul_const (t' - t)).const_add t
    have l3 := l1.add l2
    have k1 := HasDerivAt.comp_of_eq (0 : ℝ) (hasDerivAt_logGamma hs) l1 (by simp)
    have k2 := HasDerivAt.comp_of_eq (0 : ℝ) (hasDerivAt_logGamma ht) l2 (by simp)
    have k3 := HasDerivAt.comp_of_eq (0 : ℝ) (hasDerivAt_logGamma (add_pos hs ht)) l3 (by simp)
    have := (k1.add k2).sub k3
    refine this.congr_deriv ?_
    ring
  have := hconv.le_slope_of_hasDerivAt (x := 0) (y := 1) (by simp) (by simp) (by norm_num) hder
  rw [slope_def_field] at this
  simp only [g, sub_zero, div_one, one_mul, zero_mul, add_zero, add_sub_cancel] at this
  linarith

/-! ## Any number of topics -/

variable {T : Type} [Fintype T]

/-- The log-normaliser of the Dirichlet distribution, over a finite set of topics. -/
noncomputable def logNormOn (I : Finset T) (g : T → ℝ) : ℝ :=
  ∑ k ∈ I, log (Gamma (g k)) - log (Gamma (∑ k ∈ I, g k))

theorem logNormOn_tangent [DecidableEq T] (I : Finset T) (hI : I.Nonempty) (g g' : T → ℝ) (h : ∀ k ∈ I, 0 < g k)
    (h' : ∀ k ∈ I, 0 < g' k) :
    logNormOn I g + ∑ k ∈ I, (g' k - g k) * (psi (g k) - psi (∑ k ∈ I, g k)) ≤ logNormOn I g' := by
  induction hI using Finset.Nonempty.cons_induction with
  | singleton a => simp [logNormOn]
  | cons a I ha hI ih =>
    have hI' : 0 < ∑ k ∈ I, g k := Finset.sum_pos (fun k hk => h k (by simp [hk])) hI
    have hI'' : 0 < ∑ k ∈ I, g' k := Finset.sum_pos (fun k hk => h' k (by simp [hk])) hI
    have i1 := ih (fun k hk => h k (by simp [hk])) (fun k hk => h' k (by simp [hk]))
    have i2 := logBeta_tangent (h a (by simp)) hI' (h' a (by simp)) hI''
    unfold logNormOn logBeta at *
    simp only [Finset.sum_cons]
    have e : ∑ k ∈ I, (g' k - g k) * (psi (g k) - psi (g a + ∑ k ∈ I, g k))
        = ∑ k ∈ I, (g' k - g k) * (psi (g k) - psi (∑ k ∈ I, g k))
          + (∑ k ∈ I, g' k - ∑ k ∈ I, g k) * (psi (∑ k ∈ I, g k) - psi (g a + ∑ k ∈ I, g k)) := by
      rw [← Finset.sum_sub_distrib, Finset.sum_mul, ← Finset.sum_add_distrib]
      apply Finset.sum_congr rfl
      intro k _
      ring
    rw [e]
    linarith

end Verif.Dirichlet
