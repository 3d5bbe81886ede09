import Verif.Matutils.PsiModel
import Verif.Lda.DirichletProps
import Mathlib.Analysis.Calculus.Deriv.Pow
import Mathlib.Analysis.Calculus.Deriv.Inv
import Mathlib.Analysis.SpecialFunctions.Log.Deriv
import Mathlib.Analysis.Complex.ExponentialBounds

/-!
# C128: the numeric kernels

The digamma function `psi` is the derivative of `log Γ` (`Verif.Dirichlet.psi`).
-/

namespace Verif.PsiNum

open Real Verif.Dirichlet Filter Topology Set

/-! ## The digamma function -/

theorem psi_add_one {x : ℝ} (hx : 0 < x) : psi (x + 1) = psi x + 1 / x := by
  have h1 : HasDerivAt (fun y => log (Gamma (y + 1))) (psi (x + 1)) x := by
    have := (hasDerivAt_logGamma (show (0 : ℝ) < x + 1 by linarith)).comp_add_const x 1
    simpa using this
  have h2 : HasDerivAt (fun y => log y + log (Gamma y)) (1 / x + psi x) x := by
    have := (hasDerivAt_log hx.ne').fun_add (hasDerivAt_logGamma hx)
    simpa using this
  have h3 : (fun y => log (Gamma (y + 1))) =ᶠ[𝓝 x] fun y => log y + log (Gamma y) := by
    filter_upwards [lt_mem_nhds hx] with y hy
    rw [Gamma_add_one hy.ne', log_mul hy.ne' (Gamma_pos_of_pos hy).ne']
  have := h1.unique (h2.congr_of_eventuallyEq h3)
  linarith

theorem psi_le_log {x : ℝ} (hx : 0 < x) : psi x ≤ log x := by
  have h := convexOn_log_Gamma.le_slope_of_hasDerivAt (x := x) (y := x + 1) hx
    (show (0 : ℝ) < x + 1 by linarith) (by linarith) (hasDerivAt_logGamma hx)
  rw [slope_def_field] at h
  have e : (log ∘ Gamma) (x + 1) - (log ∘ Gamma) x = log x := by
    simp only [Function.comp]
    rw [Gamma_add_one hx.ne', log_mul hx.ne' (Gamma_pos_of_pos hx).ne']
    ring
  rw [e] at h
  have : x + 1 - x = 1 := by ring
  rw [this, div_one] at h
  exact h

theorem log_le_psi {x : ℝ} (hx : 0 < x) : log x - 1 / x ≤ psi x := by
  have h := convexOn_log_Gamma.slope_le_of_hasDerivAt (x := x) (y := x + 1) hx
    (show (0 : ℝ) < x + 1 by linarith) (by linarith)
    (hasDerivAt_logGamma (show (0 : ℝ) < x + 1 by linarith))
  rw [slope_def_field] at h
  have e : (log ∘ Gamma) (x + 1) - (log ∘ Gamma) x = log x := by
    simp only [Function.comp]
    rw [Gamma_add_one hx.ne', log_mul hx.ne' (Gamma_pos_of_pos hx).ne']
    ring
  rw [e] at h
  have : x + 1 - x = 1 := by ring
  rw [this, div_one, psi_add_one hx] at h
  linarith

theorem psi_mono {x y : ℝ} (hx : 0 < x) (hxy : x ≤ y) : psi x ≤ psi y := by
  rcases eq_or_lt_of_le hxy with rfl | h
  · exact le_refl _
  · exact (convexOn_log_Gamma.le_slope_of_hasDerivAt hx (show (0 : ℝ) < y by linarith) h
      (hasDerivAt_logGamma hx)).trans
      (convexOn_log_Gamma.slope_le_of_hasDerivAt hx (show (0 : ℝ) < y by linarith) h
        (hasDerivAt_logGamma (show (0 : ℝ) < y by linarith)))

theorem tendsto_shift (x : ℝ) : Tendsto (fun n : ℕ => x + (n : ℝ)) atTop atTop :=
  tendsto_atTop_add_const_left _ x tendsto_natCast_atTop_atTop

theorem psi_sub_log_tendsto : Tendsto (fun x => psi x - log x) atTop (𝓝 0) := by
  have h1 : Tendsto (fun x : ℝ => -(1 / x)) atTop (𝓝 0) := by
    have := (tendsto_inv_atTop_zero (𝕜 := ℝ)).neg
    simpa using this
  refine tendsto_of_tendsto_of_tendsto_of_le_of_le' h1 tendsto_const_nhds ?_ ?_
  · filter_upwards [eventually_gt_atTop 0] with x hx
    have := log_le_psi hx
    linarith
  · filter_upwards [eventually_gt_atTop 0] with x hx
    have := psi_le_log hx
    linarith

/-- A function that grows at least as fast as `psi` from `x` to `x + 1` and meets the logarithm at infinity lies below
`psi`. -/
theorem le_psi {S : ℝ → ℝ} (h0 : Tendsto (fun x => S x - log x) atTop (𝓝 0))
    (hs : ∀ x, 0 < x → 1 / x ≤ S (x + 1) - S x) {x : ℝ} (hx : 0 < x) : S x ≤ psi x := by
  have hd : Antitone fun n : ℕ => psi (x + n) - S (x + n) := by
    apply antitone_nat_of_succ_le
    intro n
    have hn : 0 < x + (n : ℝ) := by positivity
    have := hs (x + n) hn
    have e : x + ((n + 1 : ℕ) : ℝ) = x + n + 1 := by push_cast; ring
    rw [e, psi_add_one hn]
    linarith
  have ht : Tendsto (fun n : ℕ => psi (x + n) - S (x + n)) atTop (𝓝 0) := by
    have := (psi_sub_log_tendsto.sub h0).comp (tendsto_shift x)
    simp only [sub_zero] at this
    refine this.congr fun n => ?_
    simp only [Function.comp]
    ring
  have := hd.le_of_tendsto ht 0
  simp only [Nat.cast_zero, add_zero] at this
  linarith

theorem psi_le {S : ℝ → ℝ} (h0 : Tendsto (fun x => S x - log x) atTop (𝓝 0))
    (hs : ∀ x, 0 < x → S (x + 1) - S x ≤ 1 / x) {x : ℝ} (hx : 0 < x) : psi x ≤ S x := by
  have hd : Monotone fun n : ℕ => psi (x + n) - S (x + n) := by
    apply monotone_nat_of_le_succ
    intro n
    have hn : 0 < x + (n : ℝ) := by positivity
    have := hs (x + n) hn
    have e : x + ((n + 1 : ℕ) : ℝ) = x + n + 1 := by push_cast; ring
    rw [e, psi_add_one hn]
    linarith
  have ht : Tendsto (fun n : ℕ => psi (x + n) - S (x + n)) atTop (𝓝 0) := by
    have := (psi_sub_log_tendsto.sub h0).comp (tendsto_shift x)
    simp only [sub_zero] at this
    refine this.congr fun n => ?_
    simp only [Function.comp]
    ring
  have := hd.ge_of_tendsto ht 0
  simp only [Nat.cast_zero, add_zero] at this
  linarith

/-- De Moivre's expansion up to the last term the code has. -/
noncomputable def stirling (x : ℝ) : ℝ :=
  log x - x⁻¹ / 2 - x⁻¹ ^ 2 / 12 + x⁻¹ ^ 4 / 120 - x⁻¹ ^ 6 / 252 + x⁻¹ ^ 8 / 240 - x⁻¹ ^ 10 / 132

theorem hasDerivAt_invpow (k : ℕ) {x : ℝ} (hx : 0 < x) :
    HasDerivAt (fun y : ℝ => y⁻¹ ^ (k + 1)) (-((k + 1 : ℕ) : ℝ) * x⁻¹ ^ (k + 2)) x := by
  have := (hasDerivAt_inv hx.ne').pow (k + 1)
  refine (this.congr_deriv ?_)
  have hx' := hx.ne'
  simp only [Nat.add_sub_cancel]
  rw [show (x ^ 2)⁻¹ = x⁻¹ ^ 2 by rw [inv_pow]]
  ring

theorem hasDerivAt_stirling {x : ℝ} (hx : 0 < x) (c : ℝ) :
    HasDerivAt (fun y => stirling y + c * y⁻¹ ^ 12)
      (x⁻¹ + x⁻¹ ^ 2 / 2 + x⁻¹ ^ 3 / 6 - x⁻¹ ^ 5 / 30 + x⁻¹ ^ 7 / 42 - x⁻¹ ^ 9 / 30 + x⁻¹ ^ 11 * (5 / 66)
        - 12 * c * x⁻¹ ^ 13) x := by
  unfold stirling
  have h1 : HasDerivAt (fun y : ℝ => y⁻¹) (-x⁻¹ ^ 2) x := by
    have := hasDerivAt_invpow 0 hx
    simpa using this
  have := ((((((((hasDerivAt_log hx.ne').sub (h1.div_const 2)).sub ((hasDerivAt_invpow 1 hx).div_const 12)).add
    ((hasDerivAt_invpow 3 hx).div_const 120)).sub ((hasDerivAt_invpow 5 hx).div_const 252)).add
    ((hasDerivAt_invpow 7 hx).div_const 240)).sub ((hasDerivAt_invpow 9 hx).div_const 132)).add
    ((hasDerivAt_invpow 11 hx).const_mul c))
  refine this.congr_deriv ?_
  push_cast
  ring

theorem stirling_tendsto (c : ℝ) : Tendsto (fun x => stirling x + c * x⁻¹ ^ 12 - log x) atTop (𝓝 0) := by
  have hi := tendsto_inv_atTop_zero (𝕜 := ℝ)
  have hp : ∀ k : ℕ, Tendsto (fun x : ℝ => x⁻¹ ^ (k + 1)) atTop (𝓝 0) := by
    intro k
    have := hi.pow (k + 1)
    simpa using this
  have := (((((((hi.div_const 2).neg.sub ((hp 1).div_const 12)).add ((hp 3).div_const 120)).sub
    ((hp 5).div_const 252)).add ((hp 7).div_const 240)).sub ((hp 9).div_const 132)).add ((hp 11).const_mul c))
  simp only [zero_div, neg_zero, sub_zero, add_zero, mul_zero] at this
  refine this.congr fun x => ?_
  unfold stirling
  ring

/-- The growth of the expansion from `x` to `x + 1`, less `1/x`. -/
noncomputable def gap (c x : ℝ) : ℝ := (stirling (x + 1) + c * (x + 1)⁻¹ ^ 12) - (stirling x + c * x⁻¹ ^ 12) - x⁻¹

theorem hasDerivAt_gap (c : ℝ) {x : ℝ} (hx : 0 < x) :
    HasDerivAt (gap c)
      (((x + 1)⁻¹ + (x + 1)⁻¹ ^ 2 / 2 + (x + 1)⁻¹ ^ 3 / 6 - (x + 1)⁻¹ ^ 5 / 30 + (x + 1)⁻¹ ^ 7 / 42
        - (x + 1)⁻¹ ^ 9 / 30 + (x + 1)⁻¹ ^ 11 * (5 / 66) - 12 * c * (x + 1)⁻¹ ^ 13)
       - (x⁻¹ + x⁻¹ ^ 2 / 2 + x⁻¹ ^ 3 / 6 - x⁻¹ ^ 5 / 30 + x⁻¹ ^ 7 / 42 - x⁻¹ ^ 9 / 30 + x⁻¹ ^ 11 * (5 / 66)
        - 12 * c * x⁻¹ ^ 13) - (-x⁻¹ ^ 2)) x := by
  have h1 : HasDerivAt (fun y : ℝ => y⁻¹) (-x⁻¹ ^ 2) x := by
    have := hasDerivAt_invpow 0 hx
    simpa using this
  have h2 := (hasDerivAt_stirling (show 0 < x + 1 by linarith) c).comp_add_const x 1
  exact (h2.sub (hasDerivAt_stirling hx c)).sub h1

theorem gap_tendsto (c : ℝ) : Tendsto (gap c) atTop (𝓝 0) := by
  have h1 := stirling_tendsto c
  have h2 : Tendsto (fun x : ℝ => stirling (x + 1) + c * (x + 1)⁻¹ ^ 12 - log (x + 1)) atTop (𝓝 0) :=
    h1.comp (tendsto_atTop_add_const_right _ 1 tendsto_id)
  have h3 : Tendsto (fun x : ℝ => log (x + 1) - log x) atTop (𝓝 0) := by
    have := Real.tendsto_log_comp_add_sub_log 1
    exact this
  have := ((h2.sub h1).add h3).sub (tendsto_inv_atTop_zero (𝕜 := ℝ))
  simp only [sub_zero, add_zero] at this
  refine this.congr fun x => ?_
  unfold gap
  ring

theorem gap_lower {x : ℝ} (hx : 0 < x) : 0 ≤ gap 0 x := by
  have hanti : AntitoneOn (gap 0) (Ioi 0) := by
    apply antitoneOn_of_deriv_nonpos (convex_Ioi 0)
    · intro y hy
      exact (hasDerivAt_gap 0 hy).continuousAt.continuousWithinAt
    · intro y hy
      rw [interior_Ioi] at hy
      exact (hasDerivAt_gap 0 hy).differentiableAt.differentiableWithinAt
    · intro y hy
      rw [interior_Ioi] at hy
      have hy : 0 < y := hy
      rw [(hasDerivAt_gap 0 hy).deriv]
      have e : ((y + 1)⁻¹ + (y + 1)⁻¹ ^ 2 / 2 + (y + 1)⁻¹ ^ 3 / 6 - (y + 1)⁻¹ ^ 5 / 30 + (y + 1)⁻¹ ^ 7 / 42
          - (y + 1)⁻¹ ^ 9 / 30 + (y + 1)⁻¹ ^ 11 * (5 / 66) - 12 * 0 * (y + 1)⁻¹ ^ 13)
         - (y⁻¹ + y⁻¹ ^ 2 / 2 + y⁻¹ ^ 3 / 6 - y⁻¹ ^ 5 / 30 + y⁻¹ ^ 7 / 42 - y⁻¹ ^ 9 / 30 + y⁻¹ ^ 11 * (5 / 66)
          - 12 * 0 * y⁻¹ ^ 13) - (-y⁻¹ ^ 2)
          = -((5 / 66 + 5 / 6 * y + 62 / 15 * y ^ 2 + 182 / 15 * y ^ 3 + 487 / 21 * y ^ 4 + 625 / 21 * y ^ 5
              + 2654 / 105 * y ^ 6 + 1382 / 105 * y ^ 7 + 691 / 210 * y ^ 8) / (y ^ 11 * (y + 1) ^ 11)) := by
        have : y + 1 ≠ 0 := by positivity
        field_simp
        ring
      rw [e]
      have : 0 ≤ (5 / 66 + 5 / 6 * y + 62 / 15 * y ^ 2 + 182 / 15 * y ^ 3 + 487 / 21 * y ^ 4 + 625 / 21 * y ^ 5
              + 2654 / 105 * y ^ 6 + 1382 / 105 * y ^ 7 + 691 / 210 * y ^ 8) / (y ^ 11 * (y + 1) ^ 11) := by
        positivity
      linarith
  refine le_of_tendsto (gap_tendsto 0) ?_
  filter_upwards [eventually_ge_atTop x] with y hy
  exact hanti hx (lt_of_lt_of_le hx hy) hy

theorem gap_upper {x : ℝ} (hx : 0 < x) : gap (691 / 32760) x ≤ 0 := by
  have hmono : MonotoneOn (gap (691 / 32760)) (Ioi 0) := by
    apply monotoneOn_of_deriv_nonneg (convex_Ioi 0)
    · intro y hy
      exact (hasDerivAt_gap _ hy).continuousAt.continuousWithinAt
    · intro y hy
      rw [interior_Ioi] at hy
      exact (hasDerivAt_gap _ hy).differentiableAt.differentiableWithinAt
    · intro y hy
      rw [interior_Ioi] at hy
      have hy : 0 < y := hy
      rw [(hasDerivAt_gap _ hy).deriv]
      have e : ((y + 1)⁻¹ + (y + 1)⁻¹ ^ 2 / 2 + (y + 1)⁻¹ ^ 3 / 6 - (y + 1)⁻¹ ^ 5 / 30 + (y + 1)⁻¹ ^ 7 / 42
          - (y + 1)⁻¹ ^ 9 / 30 + (y + 1)⁻¹ ^ 11 * (5 / 66) - 12 * (691 / 32760) * (y + 1)⁻¹ ^ 13)
         - (y⁻¹ + y⁻¹ ^ 2 / 2 + y⁻¹ ^ 3 / 6 - y⁻¹ ^ 5 / 30 + y⁻¹ ^ 7 / 42 - y⁻¹ ^ 9 / 30 + y⁻¹ ^ 11 * (5 / 66)
          - 12 * (691 / 32760) * y⁻¹ ^ 13) - (-y⁻¹ ^ 2)
          = (691 / 2730 + 691 / 210 * y + 45431 / 2310 * y ^ 2 + 164947 / 2310 * y ^ 3 + 202241 / 1155 * y ^ 4
              + 6395 / 21 * y ^ 5 + 40189 / 105 * y ^ 6 + 5191 / 15 * y ^ 7 + 6533 / 30 * y ^ 8 + 175 / 2 * y ^ 9
              + 35 / 2 * y ^ 10) / (y ^ 13 * (y + 1) ^ 13) := by
        have : y + 1 ≠ 0 := by positivity
        field_simp
        ring
      rw [e]
      positivity
  refine ge_of_tendsto (gap_tendsto (691 / 32760)) ?_
  filter_upwards [eventually_ge_atTop x] with y hy
  exact hmono hx (lt_of_lt_of_le hx hy) hy

/-- The expansion is below the digamma function, by less than the next term. -/
theorem stirling_bounds {x : ℝ} (hx : 0 < x) :
    stirling x ≤ psi x ∧ psi x ≤ stirling x + 691 / 32760 * x⁻¹ ^ 12 := by
  constructor
  · have h := le_psi (S := fun x => stirling x + 0 * x⁻¹ ^ 12) (stirling_tendsto 0) (fun y hy => by
      have := gap_lower hy
      unfold gap at this
      rw [one_div]
      linarith) hx
    simpa using h
  · exact psi_le (S := fun x => stirling x + 691 / 32760 * x⁻¹ ^ 12) (stirling_tendsto _) (fun y hy => by
      have := gap_upper hy
      unfold gap at this
      rw [one_div]
      linarith) hx

/-! ## The code -/

theorem reduce_spec (n : ℕ) (v x : ℝ) (hx : 0 < x) :
    0 < (reduce n v x).2 ∧ (reduce n v x).1 + psi (reduce n v x).2 = v + psi x ∧
    (8.5 ≤ x + n → 8.5 ≤ (reduce n v x).2) := by
  induction n generalizing v x with
  | zero => exact ⟨hx, rfl, by simp [reduce]⟩
  | succ n ih =>
    unfold reduce
    split
    · obtain ⟨h1, h2, h3⟩ := ih (v - 1 / x) (x + 1) (by linarith)
      refine ⟨h1, ?_, fun h => h3 ?_⟩
      · rw [h2, psi_add_one hx]
        ring
      · push_cast at h
        linarith
    · rename_i h
      exact ⟨hx, rfl, fun _ => not_lt.1 h⟩

/-- The rounds of the loop that have been run are all there are: `x2 < 8.5` is false at the end. -/
theorem C128_loop (x : ℝ) (hx : 0 < x) : ¬ (reduce 9 0 x).2 < 8.5 := by
  have := (reduce_spec 9 0 x hx).2.2 (by norm_num; linarith)
  exact not_lt.2 this

/-- **C128.** Above a millionth the algorithm gives the digamma function up to 1.5·10⁻¹³ — in exact arithmetic. -/
theorem C128_digamma (x : ℝ) (hx : 0.000001 < x) : |digamma x - psi x| ≤ 1.5e-13 := by
  have hx0 : 0 < x := by
    have : (0 : ℝ) < 0.000001 := by norm_num
    linarith
  obtain ⟨h1, h2, h3⟩ := reduce_spec 9 0 x hx0
  have h4 := h3 (by norm_num; linarith)
  have hd : digamma x = (reduce 9 0 x).1 + stirling (reduce 9 0 x).2 := by
    unfold digamma stirling
    rw [if_neg (not_le.2 hx)]
    simp only [one_div]
    ring
  obtain ⟨b1, b2⟩ := stirling_bounds h1
  have hp : 691 / 32760 * (reduce 9 0 x).2⁻¹ ^ 12 ≤ 1.5e-13 := by
    have : (reduce 9 0 x).2⁻¹ ≤ (8.5 : ℝ)⁻¹ := inv_anti₀ (by norm_num) h4
    have h5 : (reduce 9 0 x).2⁻¹ ^ 12 ≤ (8.5 : ℝ)⁻¹ ^ 12 := pow_le_pow_left₀ (by positivity) this 12
    have h6 : 691 / 32760 * (8.5 : ℝ)⁻¹ ^ 12 ≤ 1.5e-13 := by norm_num
    linarith
  rw [hd, abs_le]
  constructor <;> linarith

/-- `psi` is Lipschitz to the right of 1. -/
theorem psi_near_one {x : ℝ} (hx : 0 < x) : psi (1 + x) - psi 1 ≤ 2 * x := by
  have key : ∀ n : ℕ, psi (1 + x) - psi 1
      ≤ x * (2 - 1 / ((n : ℝ) + 1)) + (psi ((n : ℝ) + 1 + 1 + x) - psi ((n : ℝ) + 1 + 1)) := by
    intro n
    induction n with
    | zero =>
      have e1 := psi_add_one (show (0 : ℝ) < 1 + x by linarith)
      have e2 := psi_add_one (show (0 : ℝ) < 1 by norm_num)
      have e3 : (0 : ℝ) + 1 + 1 + x = 1 + x + 1 := by ring
      have e4 : (0 : ℝ) + 1 + 1 = 1 + 1 := by ring
      push_cast
      rw [e3, e4, e1, e2]
      have : 1 / 1 - 1 / (1 + x) ≤ x := by
        rw [div_sub_div _ _ (by norm_num) (by positivity), div_le_iff₀ (by positivity)]
        nlinarith
      norm_num at this ⊢
      linarith
    | succ n ih =>
      have hn : (0 : ℝ) < (n : ℝ) + 1 + 1 := by positivity
      have e1 := psi_add_one (show (0 : ℝ) < (n : ℝ) + 1 + 1 + x by positivity)
      have e2 := psi_add_one hn
      have e3 : ((n + 1 : ℕ) : ℝ) + 1 + 1 + x = (n : ℝ) + 1 + 1 + x + 1 := by push_cast; ring
      have e4 : ((n + 1 : ℕ) : ℝ) + 1 + 1 = (n : ℝ) + 1 + 1 + 1 := by push_cast; ring
      rw [e3, e4, e1, e2]
      have h1 : 1 / ((n : ℝ) + 1 + 1) - 1 / ((n : ℝ) + 1 + 1 + x)
          ≤ x * (1 / ((n : ℝ) + 1) - 1 / ((n : ℝ) + 1 + 1)) := by
        rw [div_sub_div _ _ (by positivity) (by positivity), div_sub_div _ _ (by positivity) (by positivity),
          ← mul_div_assoc, div_le_div_iff₀ (by positivity) (by positivity)]
        have : (0 : ℝ) ≤ n := Nat.cast_nonneg n
        nlinarith [mul_nonneg this hx.le, mul_pos hx hx, mul_nonneg this (mul_pos hx hx).le,
          mul_nonneg (mul_nonneg this this) (mul_pos hx hx).le, mul_nonneg (mul_nonneg this this) hx.le]
      push_cast
      linarith
  have hlim : Tendsto (fun n : ℕ => x * (2 - 1 / ((n : ℝ) + 1)) + (psi ((n : ℝ) + 1 + 1 + x) - psi ((n : ℝ) + 1 + 1)))
      atTop (𝓝 (x * (2 - 0) + 0)) := by
    refine (((tendsto_const_nhds.sub tendsto_one_div_add_atTop_nhds_zero_nat).const_mul x)).add ?_
    have hN : Tendsto (fun n : ℕ => (n : ℝ) + 1 + 1) atTop atTop :=
      tendsto_atTop_add_const_right _ 1 (tendsto_atTop_add_const_right _ 1 tendsto_natCast_atTop_atTop)
    have a1 := psi_sub_log_tendsto.comp (tendsto_atTop_add_const_right _ x hN)
    have a2 := psi_sub_log_tendsto.comp hN
    have a3 := (Real.tendsto_log_comp_add_sub_log x).comp hN
    have := (a1.sub a2).add a3
    simp only [sub_zero, add_zero] at this
    refine this.congr fun n => ?_
    simp only [Function.comp]
    ring
  have := ge_of_tendsto hlim (Eventually.of_forall key)
  linarith

theorem log_nine : |log 9 - 2.197224577| ≤ 2e-9 := by
  have h1 : log 9 = 3 * log 2 - log (1 - 1 / 9) := by
    have : (9 : ℝ) = 2 ^ 3 / (1 - 1 / 9) := by norm_num
    rw [this, log_div (by norm_num) (by norm_num), log_pow]
    norm_num
  have h2 := abs_log_sub_add_sum_range_le (x := (1 / 9 : ℝ)) (by rw [abs_of_pos] <;> norm_num) 12
  rw [abs_le] at h2
  simp only [Finset.sum_range_succ, Finset.sum_range_zero] at h2
  norm_num at h2
  have h3 := log_two_gt_d9
  have h4 := log_two_lt_d9
  rw [h1, abs_le]
  norm_num at h3 h4 ⊢
  constructor <;> linarith [h2.1, h2.2]

theorem psi_nine : psi 9 = psi 1 + 761 / 280 := by
  have h : ∀ k : ℕ, psi ((k : ℝ) + 1 + 1) = psi ((k : ℝ) + 1) + 1 / ((k : ℝ) + 1) := fun k => psi_add_one (by positivity)
  have a := h 0
  have b := h 1
  have c := h 2
  have d := h 3
  have e := h 4
  have f := h 5
  have g := h 6
  have i := h 7
  norm_num at a b c d e f g i
  rw [i, g, f, e, d, c, b, a]
  ring

/-- The constant of the code is the value of the digamma function at 1 (with the other sign), up to 10⁻⁸. -/
theorem psi_one : |psi 1 + 0.57721566490153286060| ≤ 1e-8 := by
  have h9 := psi_nine
  obtain ⟨b1, b2⟩ := stirling_bounds (x := 9) (by norm_num)
  have hl := log_nine
  rw [abs_le] at hl ⊢
  unfold stirling at b1 b2
  norm_num at b1 b2 hl ⊢
  constructor <;> linarith [hl.1, hl.2]

/-- **C128.** Up to a millionth the code's value differs from the digamma function by at most `2x + 10⁻⁸` — where the function
itself is below minus a million. -/
theorem C128_digamma_small (x : ℝ) (hx0 : 0 < x) (hx : x ≤ 0.000001) : |digamma x - psi x| ≤ 2 * x + 1e-8 := by
  unfold digamma
  rw [if_pos hx]
  have h1 := psi_add_one hx0
  have h2 := psi_near_one hx0
  have h3 := psi_mono (show (0 : ℝ) < 1 by norm_num) (show (1 : ℝ) ≤ 1 + x by linarith)
  have h4 := psi_one
  rw [add_comm x 1, one_div] at h1
  rw [abs_le] at h4 ⊢
  norm_num at h4 ⊢
  constructor <;> linarith [h4.1, h4.2]

/-- **C128.** The recurrence of the digamma function holds exactly wherever one more round of the loop is run. -/
theorem C128_recurrence (x : ℝ) (h1 : 0.000001 < x) (h2 : x < 8.5) : digamma (x + 1) = digamma x + 1 / x := by
  have hx0 : 0 < x := by
    have : (0 : ℝ) < 0.000001 := by norm_num
    linarith
  have key : ∀ (n : ℕ) (v w y : ℝ), (reduce n (v + w) y) = ((reduce n v y).1 + w, (reduce n v y).2) := by
    intro n
    induction n with
    | zero => intro v w y; rfl
    | succ n ih =>
      intro v w y
      unfold reduce
      split
      · rw [show v + w - 1 / y = (v - 1 / y) + w by ring, ih]
      · rfl
  have more : ∀ (n : ℕ) (v y : ℝ), 8.5 ≤ y + n → reduce (n + 1) v y = reduce n v y := by
    intro n
    induction n with
    | zero =>
      intro v y hy
      unfold reduce
      rw [if_neg (by simpa using hy)]
    | succ n ih =>
      intro v y hy
      unfold reduce
      split
      · exact ih _ _ (by push_cast at hy; linarith)
      · rfl
  have e : reduce 9 0 x = ((reduce 9 0 (x + 1)).1 - 1 / x, (reduce 9 0 (x + 1)).2) := by
    have e1 : reduce 9 0 x = reduce 8 (0 - 1 / x) (x + 1) := by
      show (if x < 8.5 then reduce 8 (0 - 1 / x) (x + 1) else (0, x)) = _
      rw [if_pos h2]
    rw [e1, show (0 : ℝ) - 1 / x = 0 + -(1 / x) by ring, key, more 8 0 (x + 1) (by norm_num; linarith)]
    rfl
  unfold digamma
  rw [if_neg (not_le.2 h1), if_neg (by linarith), e]
  simp only
  ring

/-- **C128.** `dirichlet_expectation` gives `ψ(αₖ) - ψ(Σ α)` up to 3·10⁻¹³ for parameters above a millionth. -/
theorem C128_dirichlet (alpha : List ℝ) (h : ∀ a ∈ alpha, 0.000001 < a) :
    (dirichletExpectation1 alpha).length = alpha.length ∧
    ∀ (i : ℕ) (hi : i < alpha.length) (hi' : i < (dirichletExpectation1 alpha).length),
      |(dirichletExpectation1 alpha)[i] - (psi alpha[i] - psi alpha.sum)| ≤ 3e-13 := by
  have hs : alpha.foldl (fun s a => s + a) 0 = alpha.sum := by
    rw [List.sum_eq_foldl]
  refine ⟨by simp [dirichletExpectation1], fun i hi hi' => ?_⟩
  have hsum : 0.000001 < alpha.sum := by
    have h1 : alpha[i] ≤ alpha.sum := by
      apply List.single_le_sum
      · intro a ha
        have := h a ha
        have h0 : (0 : ℝ) < 0.000001 := by norm_num
        linarith
      · exact List.getElem_mem hi
    exact lt_of_lt_of_le (h _ (List.getElem_mem hi)) h1
  have h1 := C128_digamma _ hsum
  have h2 := C128_digamma _ (h _ (List.getElem_mem hi))
  unfold dirichletExpectation1
  simp only [List.getElem_map, hs]
  rw [abs_le] at h1 h2 ⊢
  norm_num at h1 h2 ⊢
  constructor <;> linarith [h1.1, h1.2, h2.1, h2.2]

/-- **C128.** A matrix is treated row by row. -/
theorem C128_dirichlet_rows (alpha : List (List ℝ)) :
    dirichletExpectation2 alpha = alpha.map dirichletExpectation1 := rfl

/-! ## logsumexp -/

theorem maxOf_ge (f : ℝ) (l : List ℝ) : f ≤ maxOf f l ∧ (∀ x ∈ l, x ≤ maxOf f l) ∧ (maxOf f l = f ∨ maxOf f l ∈ l) := by
  induction l generalizing f with
  | nil => exact ⟨le_refl _, by simp, Or.inl rfl⟩
  | cons a l ih =>
    unfold maxOf
    rw [List.foldl_cons]
    by_cases h : a > f
    · rw [if_pos h]
      obtain ⟨h1, h2, h3⟩ := ih a
      refine ⟨le_trans h.le h1, ?_, ?_⟩
      · intro x hx
        rcases List.mem_cons.1 hx with rfl | hx
        · exact h1
        · exact h2 x hx
      · right
        rcases h3 with h3 | h3
        · unfold maxOf at h3
          rw [h3]
          simp
        · exact List.mem_cons_of_mem _ h3
    · rw [if_neg h]
      obtain ⟨h1, h2, h3⟩ := ih f
      refine ⟨h1, ?_, ?_⟩
      · intro x hx
        rcases List.mem_cons.1 hx with rfl | hx
        · exact le_trans (not_lt.1 h) h1
        · exact h2 x hx
      · rcases h3 with h3 | h3
        · exact Or.inl h3
        · exact Or.inr (List.mem_cons_of_mem _ h3)

theorem foldl_exp (m : ℝ) (l : List ℝ) (r : ℝ) :
    l.foldl (fun r x => r + exp (x - m)) r = r + (l.map fun x => exp (x - m)).sum := by
  induction l generalizing r with
  | nil => simp
  | cons a l ih => rw [List.foldl_cons, ih, List.map_cons, List.sum_cons]; ring

/-- **C128.** `logsumexp` is the logarithm of the sum of the exponentials. -/
theorem C128_logsumexp (first : ℝ) (rest : List ℝ) :
    logsumexp first rest = log ((first :: rest).map exp).sum := by
  unfold logsumexp
  simp only
  rw [foldl_exp, zero_add]
  generalize maxOf first (first :: rest) = m
  have hsum : ((first :: rest).map fun x => exp (x - m)).sum = ((first :: rest).map exp).sum * exp (-m) := by
    rw [← List.sum_map_mul_right]
    congr 1
    apply List.map_congr_left
    intro x _
    rw [← exp_add]
    congr 1
  have hpos : 0 < ((first :: rest).map exp).sum := by
    rw [List.map_cons, List.sum_cons]
    have : 0 ≤ (rest.map exp).sum := List.sum_nonneg (by
      intro x hx
      obtain ⟨y, _, rfl⟩ := List.mem_map.1 hx
      exact (exp_pos y).le)
    have := exp_pos first
    linarith
  rw [hsum, log_mul hpos.ne' (exp_pos _).ne', log_exp]
  ring

/-- **C128.** No exponential in it overflows: the exponents are not positive, one of them is 0, and the sum lies between 1 and the
number of the entries. -/
theorem C128_logsumexp_safe (first : ℝ) (rest : List ℝ) :
    let m := maxOf first (first :: rest)
    (∀ x ∈ first :: rest, x - m ≤ 0) ∧ (∃ x ∈ first :: rest, x - m = 0) ∧
    m ≤ logsumexp first rest ∧ logsumexp first rest ≤ m + log (first :: rest).length := by
  intro m
  obtain ⟨h1, h2, h3⟩ := maxOf_ge first (first :: rest)
  have hmem : m ∈ first :: rest := by
    rcases h3 with h3 | h3
    · rw [show m = first from h3]; simp
    · exact h3
  refine ⟨fun x hx => by linarith [h2 x hx], ⟨m, hmem, by ring⟩, ?_, ?_⟩
  · rw [C128_logsumexp]
    rw [← log_exp m]
    apply log_le_log (exp_pos m)
    apply List.single_le_sum
    · intro x hx
      obtain ⟨y, _, rfl⟩ := List.mem_map.1 hx
      exact (exp_pos y).le
    · exact List.mem_map.2 ⟨m, hmem, rfl⟩
  · unfold logsumexp
    simp only
    rw [foldl_exp, zero_add]
    have hle : ((first :: rest).map fun x => exp (x - m)).sum ≤ ((first :: rest).length : ℝ) := by
      have := List.sum_le_card_nsmul ((first :: rest).map fun x => exp (x - m)) 1 (by
        intro x hx
        obtain ⟨y, hy, rfl⟩ := List.mem_map.1 hx
        rw [← exp_zero]
        exact exp_le_exp.2 (by linarith [h2 y hy]))
      simpa using this
    have hpos : 0 < ((first :: rest).map fun x => exp (x - m)).sum := by
      rw [List.map_cons, List.sum_cons]
      have : 0 ≤ (rest.map fun x => exp (x - m)).sum := List.sum_nonneg (by
        intro x hx
        obtain ⟨y, _, rfl⟩ := List.mem_map.1 hx
        exact (exp_pos _).le)
      have := exp_pos (first - m)
      linarith
    have := log_le_log hpos hle
    linarith

/-- Non-vacuity: parameters as LDA uses them. -/
example : ∀ a ∈ ([0.1, 1, 2.5] : List ℝ), (0.000001 : ℝ) < a := by
  intro a ha
  simp only [List.mem_cons, List.not_mem_nil, or_false] at ha
  rcases ha with rfl | rfl | rfl <;> norm_num

end Verif.PsiNum
