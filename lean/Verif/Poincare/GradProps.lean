import Verif.Poincare.MetricProps
import Mathlib.Analysis.Calculus.Gradient.Basic
import Mathlib.Analysis.InnerProductSpace.Calculus
import Mathlib.Analysis.SpecialFunctions.Log.Deriv
import Mathlib.Analysis.SpecialFunctions.ExpDeriv

/-!
# C74: the gradients used in training are the gradients of the loss
-/

namespace Verif.Poincare

variable {n m : ℕ}

open scoped InnerProductSpace

theorem hasGradientAt_iff_innerSL {f : Vec n → ℝ} {g x : Vec n} :
    HasGradientAt f g x ↔ HasFDerivAt f (innerSL ℝ g) x := by
  rw [hasGradientAt_iff_hasFDerivAt]
  exact Iff.rfl

theorem conf_pos {u : Vec n} (hu : ‖u‖ < 1) : 0 < conf u := by
  unfold conf
  nlinarith [norm_nonneg u]

theorem gamma_gt {u v : Vec n} (hu : ‖u‖ < 1) (hv : ‖v‖ < 1) (h : u ≠ v) : 1 < gamma u v := by
  unfold gamma
  have h1 := conf_pos hu
  have h2 := conf_pos hv
  have h3 : 0 < ‖u - v‖ := norm_pos_iff.2 (sub_ne_zero.2 h)
  have : 0 < ‖u - v‖ ^ 2 / (conf u * conf v) := by positivity
  linarith

theorem gamma_comm (u v : Vec n) : gamma u v = gamma v u := by
  unfold gamma
  rw [norm_sub_rev, mul_comm (conf u)]

theorem distGradV_eq (u v : Vec n) : distGradV u v = distGradU v u := by
  unfold distGradV distGradU coeff
  rw [gamma_comm u v, norm_sub_rev, mul_comm (conf u)]

theorem hasFDerivAt_gamma (u v : Vec n) (hu : ‖u‖ < 1) (hv : ‖v‖ < 1) :
    HasFDerivAt (fun x => gamma x v)
      (innerSL ℝ ((4 / (conf u * conf v)) • (((‖u - v‖ ^ 2 + conf u) / conf u) • u - v))) u := by
  have hc := conf_pos hu
  have hcv := conf_pos hv
  have h1 : HasFDerivAt (fun x : Vec n => ‖x - v‖ ^ 2) (2 • (innerSL ℝ (u - v))) u := by
    have := ((hasFDerivAt_id u).sub_const v).norm_sq
    simpa using this
  have h2 : HasFDerivAt (fun x : Vec n => conf x) (-(2 • (innerSL ℝ u))) u := by
    have := ((hasFDerivAt_id u).norm_sq).const_sub 1
    simpa [conf] using this
  have h3 : HasFDerivAt (fun x : Vec n => (conf x)⁻¹) _ u :=
    (hasDerivAt_inv hc.ne').comp_hasFDerivAt u h2
  have h4 := ((h1.mul h3).mul_const (2 * (conf v)⁻¹)).const_add 1
  have he : (fun x => gamma x v) = fun x => 1 + ‖x - v‖ ^ 2 * (conf x)⁻¹ * (2 * (conf v)⁻¹) := by
    funext x
    unfold gamma
    rw [div_eq_mul_inv, mul_inv]
    ring
  rw [he]
  refine h4.congr_fderiv ?_
  ext h
  simp only [ContinuousLinearMap.add_apply, ContinuousLinearMap.smul_apply, innerSL_apply_apply,
    ContinuousLinearMap.neg_apply, smul_eq_mul, inner_sub_left, real_inner_smul_left, nsmul_eq_mul,
    Nat.cast_ofNat]
  field_simp
  ring

theorem hasFDerivAt_dist (u v : Vec n) (hu : ‖u‖ < 1) (hv : ‖v‖ < 1) (hne : u ≠ v) :
    HasFDerivAt (fun x => Real.arcosh (gamma x v)) (innerSL ℝ (distGradU u v)) u := by
  have hg := gamma_gt hu hv hne
  have h1 := (Real.hasDerivAt_arcosh (Set.mem_Ioi.2 hg)).comp_hasFDerivAt u
    (hasFDerivAt_gamma u v hu hv)
  refine h1.congr_fderiv ?_
  unfold distGradU coeff
  rw [if_neg hg.ne']
  have hc := conf_pos hu
  have hcv := conf_pos hv
  have hs : 0 < √(gamma u v ^ 2 - 1) := Real.sqrt_pos.2 (by nlinarith)
  ext h
  simp only [ContinuousLinearMap.smul_apply, innerSL_apply_apply, smul_eq_mul, real_inner_smul_left]
  field_simp

/-- **C74.** The formula for the gradient of the distance is its gradient, in both arguments. -/
theorem C74_distance (u v : Vec n) (hu : ‖u‖ < 1) (hv : ‖v‖ < 1) (hne : u ≠ v) :
    HasGradientAt (fun x => vectorDistance x v) (distGradU u v) u ∧
      HasGradientAt (fun x => vectorDistance u x) (distGradV u v) v := by
  refine ⟨hasGradientAt_iff_innerSL.2 (hasFDerivAt_dist u v hu hv hne), ?_⟩
  rw [hasGradientAt_iff_innerSL, distGradV_eq]
  have := hasFDerivAt_dist v u hv hu (Ne.symm hne)
  have he : (fun x => vectorDistance u x) = fun x => Real.arcosh (gamma x u) := by
    funext x
    rw [gamma_comm]
    rfl
  rw [he]
  exact this

theorem total_pos (u : Vec n) (v : Fin (m + 1) → Vec n) : 0 < total u v := by
  unfold total expNeg
  exact Finset.sum_pos (fun j _ => Real.exp_pos _) ⟨0, Finset.mem_univ _⟩

theorem loss_eq (reg : ℝ) (u : Vec n) (v : Fin (m + 1) → Vec n) :
    lossFn reg u v = Real.arcosh (gamma u (v 0)) + Real.log (total u v) + reg * ‖v 0‖ ^ 2 := by
  unfold lossFn
  have h : (∑ j, Real.exp (-vectorDistance u (v j))) = total u v := rfl
  rw [h, Real.log_div (Real.exp_pos _).ne' (total_pos u v).ne', Real.log_exp]
  have h2 : vectorDistance u (v 0) = Real.arcosh (gamma u (v 0)) := rfl
  rw [h2]
  ring

/-- **C74.** The gradient used to move `u` is the gradient of the loss, for all vectors in the open
ball such that `u` differs from the other vectors. -/
theorem C74_gradient_u (reg : ℝ) (u : Vec n) (v : Fin (m + 1) → Vec n) (hu : ‖u‖ < 1)
    (hv : ∀ j, ‖v j‖ < 1) (hne : ∀ j, u ≠ v j) :
    HasGradientAt (fun x => lossFn reg x v) (gradU u v) u := by
  rw [hasGradientAt_iff_innerSL]
  have he : (fun x => lossFn reg x v) = fun x =>
      Real.arcosh (gamma x (v 0)) + Real.log (total x v) + reg * ‖v 0‖ ^ 2 := by
    funext x
    exact loss_eq reg x v
  rw [he]
  have hd := fun j => hasFDerivAt_dist u (v j) hu (hv j) (hne j)
  have hZ : HasFDerivAt (fun x => total x v)
      (∑ j, expNeg u (v j) • (-(innerSL ℝ (distGradU u (v j))))) u := by
    unfold total
    apply HasFDerivAt.fun_sum
    intro j _
    exact (Real.hasDerivAt_exp _).comp_hasFDerivAt u ((hd j).neg)
  have hlog := (Real.hasDerivAt_log (total_pos u v).ne').comp_hasFDerivAt u hZ
  refine (((hd 0).add hlog).add_const (reg * ‖v 0‖ ^ 2)).congr_fderiv ?_
  ext h
  unfold gradU
  simp only [ContinuousLinearMap.add_apply, ContinuousLinearMap.smul_apply, innerSL_apply_apply,
    smul_eq_mul, inner_add_left, sum_inner, real_inner_smul_left, ContinuousLinearMap.sum_apply,
    ContinuousLinearMap.neg_apply, Finset.mul_sum, one_div]
  rw [add_comm]
  congr 1
  apply Finset.sum_congr rfl
  intro j _
  ring

/-- **C74.** The gradient used to move `v j` is the gradient of the loss in that vector. -/
theorem C74_gradient_v (reg : ℝ) (u : Vec n) (v : Fin (m + 1) → Vec n) (hu : ‖u‖ < 1)
    (hv : ∀ j, ‖v j‖ < 1) (j : Fin (m + 1)) (hne : u ≠ v j) :
    HasGradientAt (fun x => lossFn reg u (Function.update v j x)) (gradV reg u v j) (v j) := by
  rw [hasGradientAt_iff_innerSL]
  have he : (fun x => lossFn reg u (Function.update v j x)) = fun x =>
      Real.arcosh (gamma u (Function.update v j x 0)) + Real.log (total u (Function.update v j x))
        + reg * ‖Function.update v j x 0‖ ^ 2 := by
    funext x
    exact loss_eq reg u _
  rw [he]
  have hd : HasFDerivAt (fun x => Real.arcosh (gamma u x)) (innerSL ℝ (distGradV u (v j))) (v j) := by
    have h := hasFDerivAt_dist (v j) u (hv j) hu (Ne.symm hne)
    rw [distGradV_eq]
    have he : (fun x => Real.arcosh (gamma u x)) = fun x => Real.arcosh (gamma x u) := by
      funext x
      rw [gamma_comm]
    rw [he]
    exact h
  have htot : ∀ x, total u (Function.update v j x)
      = (total u v - expNeg u (v j)) + expNeg u x := by
    intro x
    unfold total
    rw [← Finset.add_sum_erase _ _ (Finset.mem_univ j),
      ← Finset.add_sum_erase (a := j) Finset.univ (fun i => expNeg u (v i)) (Finset.mem_univ j)]
    have : ∑ i ∈ Finset.univ.erase j, expNeg u (Function.update v j x i)
        = ∑ i ∈ Finset.univ.erase j, expNeg u (v i) := by
      apply Finset.sum_congr rfl
      intro i hi
      rw [Function.update_of_ne (Finset.ne_of_mem_erase hi)]
    rw [this, Function.update_self]
    ring
  have hexp : HasFDerivAt (fun x => expNeg u x) (expNeg u (v j) • (-(innerSL ℝ (distGradV u (v j))))) (v j) :=
    (Real.hasDerivAt_exp _).comp_hasFDerivAt (v j) hd.neg
  have hZ : HasFDerivAt (fun x => total u (Function.update v j x))
      (expNeg u (v j) • (-(innerSL ℝ (distGradV u (v j))))) (v j) := by
    simp only [htot]
    exact hexp.const_add _
  have hlog : HasFDerivAt (fun x => Real.log (total u (Function.update v j x)))
      ((total u v)⁻¹ • (expNeg u (v j) • (-(innerSL ℝ (distGradV u (v j)))))) (v j) := by
    have h0 : total u (Function.update v j (v j)) = total u v := by rw [Function.update_eq_self]
    have := (Real.hasDerivAt_log (total_pos u (Function.update v j (v j))).ne').comp_hasFDerivAt
      (v j) hZ
    rwa [h0] at this
  by_cases hj : j = 0
  · subst hj
    have hn : HasFDerivAt (fun x : Vec n => reg * ‖x‖ ^ 2) (reg • (2 • innerSL ℝ (v 0))) (v 0) := by
      have := ((hasFDerivAt_id (v 0)).norm_sq).const_mul reg
      simpa using this
    simp only [Function.update_self]
    refine ((hd.add hlog).add hn).congr_fderiv ?_
    ext h
    unfold gradV
    simp only [if_true, ContinuousLinearMap.add_apply, ContinuousLinearMap.smul_apply,
      innerSL_apply_apply, smul_eq_mul, inner_add_left, real_inner_smul_left,
      ContinuousLinearMap.neg_apply, one_div, nsmul_eq_mul, Nat.cast_ofNat]
    ring
  · have h0 : ∀ x, Function.update v j x 0 = v 0 := fun x => Function.update_of_ne (Ne.symm hj) _ _
    simp only [h0]
    refine ((hlog.const_add (Real.arcosh (gamma u (v 0)))).add_const (reg * ‖v 0‖ ^ 2)).congr_fderiv ?_
    ext h
    unfold gradV
    simp only [if_neg hj, ContinuousLinearMap.smul_apply, innerSL_apply_apply, smul_eq_mul,
      real_inner_smul_left, ContinuousLinearMap.neg_apply, one_div]
    ring

/-- Three different points of the ball in dimension one. -/
example : ∃ (u : Vec 1) (v : Fin 2 → Vec 1), ‖u‖ < 1 ∧ (∀ j, ‖v j‖ < 1) ∧ ∀ j, u ≠ v j := by
  refine ⟨0, fun j => EuclideanSpace.single 0 (if j = 0 then 1 / 2 else 1 / 3 : ℝ), by simp, ?_, ?_⟩
  · intro j
    fin_cases j <;> simp <;> norm_num
  · intro j h
    have := congrArg norm h
    fin_cases j <;> simp at this

end Verif.Poincare
