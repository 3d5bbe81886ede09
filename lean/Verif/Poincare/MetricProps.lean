import Verif.Poincare.BallModel
import Mathlib.Algebra.QuadraticDiscriminant

/-!
# C73: the Poincaré distance is a metric on the open unit ball
-/

namespace Verif.Poincare

variable {n : ℕ}

open scoped InnerProductSpace

/-- The quadratic form `⟨p, p⟩ - ⟨p, y⟩² / (1 + |y|²)` is non-negative. -/
theorem form_nonneg (y p : Vec n) : 0 ≤ (1 + ‖y‖ ^ 2) * ⟪p, p⟫_ℝ - ⟪p, y⟫_ℝ ^ 2 := by
  have h := abs_real_inner_le_norm p y
  have h2 : ⟪p, y⟫_ℝ ^ 2 ≤ (‖p‖ * ‖y‖) ^ 2 := by
    rw [← sq_abs]
    exact pow_le_pow_left₀ (abs_nonneg _) h 2
  rw [real_inner_self_eq_norm_sq]
  nlinarith [sq_nonneg ‖p‖]

/-- Cauchy–Schwarz for that form. -/
theorem form_cauchy (y p r : Vec n) :
    ((1 + ‖y‖ ^ 2) * ⟪p, r⟫_ℝ - ⟪p, y⟫_ℝ * ⟪r, y⟫_ℝ) ^ 2 ≤
      ((1 + ‖y‖ ^ 2) * ⟪p, p⟫_ℝ - ⟪p, y⟫_ℝ ^ 2) * ((1 + ‖y‖ ^ 2) * ⟪r, r⟫_ℝ - ⟪r, y⟫_ℝ ^ 2) := by
  set A := (1 + ‖y‖ ^ 2) * ⟪p, p⟫_ℝ - ⟪p, y⟫_ℝ ^ 2
  set B := (1 + ‖y‖ ^ 2) * ⟪p, r⟫_ℝ - ⟪p, y⟫_ℝ * ⟪r, y⟫_ℝ
  set C := (1 + ‖y‖ ^ 2) * ⟪r, r⟫_ℝ - ⟪r, y⟫_ℝ ^ 2
  have h : ∀ t : ℝ, 0 ≤ C * (t * t) + 2 * B * t + A := by
    intro t
    have := form_nonneg y (p + t • r)
    simp only [inner_add_left, inner_add_right, real_inner_smul_left, real_inner_smul_right] at this
    rw [real_inner_comm p r] at this
    have hc : ⟪p, r⟫_ℝ = ⟪p, r⟫_ℝ := rfl
    simp only [A, B, C]
    nlinarith [this]
  have := discrim_le_zero h
  unfold discrim at this
  nlinarith

/-- The reverse triangle inequality on the hyperboloid. -/
theorem hyperboloid (x0 y0 z0 : ℝ) (x y z : Vec n) (hx : x0 ^ 2 = 1 + ‖x‖ ^ 2)
    (hy : y0 ^ 2 = 1 + ‖y‖ ^ 2) (hz : z0 ^ 2 = 1 + ‖z‖ ^ 2) (hy0 : 0 < y0) :
    let b1 := x0 * y0 - ⟪x, y⟫_ℝ
    let b2 := y0 * z0 - ⟪y, z⟫_ℝ
    x0 * z0 - ⟪x, z⟫_ℝ ≤ b1 * b2 + √(b1 ^ 2 - 1) * √(b2 ^ 2 - 1) := by
  intro b1 b2
  have hcs := form_cauchy y (x - b1 • y) (z - b2 • y)
  have e1 : (1 + ‖y‖ ^ 2) * ⟪x - b1 • y, x - b1 • y⟫_ℝ - ⟪x - b1 • y, y⟫_ℝ ^ 2
      = y0 ^ 2 * (b1 ^ 2 - 1) := by
    simp only [inner_sub_left, inner_sub_right, real_inner_smul_left, real_inner_smul_right]
    simp only [real_inner_self_eq_norm_sq]
    have hxx : ‖x‖ ^ 2 = x0 ^ 2 - 1 := by linarith
    have hyy : ‖y‖ ^ 2 = y0 ^ 2 - 1 := by linarith
    have hb : ⟪x, y⟫_ℝ = x0 * y0 - b1 := by simp only [b1]; ring
    have hb' : ⟪y, x⟫_ℝ = x0 * y0 - b1 := by rw [real_inner_comm]; exact hb
    rw [hxx, hyy, hb', hb]
    ring
  have e2 : (1 + ‖y‖ ^ 2) * ⟪z - b2 • y, z - b2 • y⟫_ℝ - ⟪z - b2 • y, y⟫_ℝ ^ 2
      = y0 ^ 2 * (b2 ^ 2 - 1) := by
    simp only [inner_sub_left, inner_sub_right, real_inner_smul_left, real_inner_smul_right]
    simp only [real_inner_self_eq_norm_sq]
    have hxx : ‖z‖ ^ 2 = z0 ^ 2 - 1 := by linarith
    have hyy : ‖y‖ ^ 2 = y0 ^ 2 - 1 := by linarith
    have hb : ⟪y, z⟫_ℝ = y0 * z0 - b2 := by simp only [b2]; ring
    have hb' : ⟪z, y⟫_ℝ = y0 * z0 - b2 := by rw [real_inner_comm]; exact hb
    rw [hxx, hyy, hb', hb]
    ring
  have e3 : (1 + ‖y‖ ^ 2) * ⟪x - b1 • y, z - b2 • y⟫_ℝ - ⟪x - b1 • y, y⟫_ℝ * ⟪z - b2 • y, y⟫_ℝ
      = y0 ^ 2 * (b1 * b2 - (x0 * z0 - ⟪x, z⟫_ℝ)) := by
    simp only [inner_sub_left, inner_sub_right, real_inner_smul_left, real_inner_smul_right]
    simp only [real_inner_self_eq_norm_sq]
    have hyy : ‖y‖ ^ 2 = y0 ^ 2 - 1 := by linarith
    have hb : ⟪y, z⟫_ℝ = y0 * z0 - b2 := by simp only [b2]; ring
    have hb1 : ⟪x, y⟫_ℝ = x0 * y0 - b1 := by simp only [b1]; ring
    have hb' : ⟪z, y⟫_ℝ = y0 * z0 - b2 := by rw [real_inner_comm]; exact hb
    rw [hyy, hb', hb, hb1]
    ring
  rw [e1, e2, e3] at hcs
  have hy4 : 0 < y0 ^ 2 * y0 ^ 2 := by positivity
  have hcs' : (b1 * b2 - (x0 * z0 - ⟪x, z⟫_ℝ)) ^ 2 ≤ (b1 ^ 2 - 1) * (b2 ^ 2 - 1) := by
    have : (y0 ^ 2 * y0 ^ 2) * (b1 * b2 - (x0 * z0 - ⟪x, z⟫_ℝ)) ^ 2
        ≤ (y0 ^ 2 * y0 ^ 2) * ((b1 ^ 2 - 1) * (b2 ^ 2 - 1)) := by nlinarith
    exact le_of_mul_le_mul_left this hy4
  have hn1 : 0 ≤ b1 ^ 2 - 1 := by
    have := form_nonneg y (x - b1 • y)
    rw [e1] at this
    have hy2 : 0 < y0 ^ 2 := by positivity
    exact nonneg_of_mul_nonneg_right this hy2
  rw [← Real.sqrt_mul hn1]
  have := Real.abs_le_sqrt hcs'
  have h2 := neg_le_abs (b1 * b2 - (x0 * z0 - ⟪x, z⟫_ℝ))
  linarith

theorem gamma_form (u v : Vec n) (hu : ‖u‖ < 1) (hv : ‖v‖ < 1) :
    1 + 2 * (‖u - v‖ ^ 2 / ((1 - ‖u‖ ^ 2) * (1 - ‖v‖ ^ 2)))
      = ((1 + ‖u‖ ^ 2) / (1 - ‖u‖ ^ 2)) * ((1 + ‖v‖ ^ 2) / (1 - ‖v‖ ^ 2))
        - ⟪(2 / (1 - ‖u‖ ^ 2)) • u, (2 / (1 - ‖v‖ ^ 2)) • v⟫_ℝ := by
  have h1 : 0 < 1 - ‖u‖ ^ 2 := by nlinarith [norm_nonneg u]
  have h2 : 0 < 1 - ‖v‖ ^ 2 := by nlinarith [norm_nonneg v]
  rw [norm_sub_sq_real, real_inner_smul_left, real_inner_smul_right]
  field_simp
  ring

theorem gamma_ge (u v : Vec n) (hu : ‖u‖ < 1) (hv : ‖v‖ < 1) :
    1 ≤ 1 + 2 * (‖u - v‖ ^ 2 / ((1 - ‖u‖ ^ 2) * (1 - ‖v‖ ^ 2))) := by
  have h1 : 0 < 1 - ‖u‖ ^ 2 := by nlinarith [norm_nonneg u]
  have h2 : 0 < 1 - ‖v‖ ^ 2 := by nlinarith [norm_nonneg v]
  have : 0 ≤ ‖u - v‖ ^ 2 / ((1 - ‖u‖ ^ 2) * (1 - ‖v‖ ^ 2)) := by positivity
  linarith

theorem on_hyperboloid (u : Vec n) (hu : ‖u‖ < 1) :
    ((1 + ‖u‖ ^ 2) / (1 - ‖u‖ ^ 2)) ^ 2 = 1 + ‖(2 / (1 - ‖u‖ ^ 2)) • u‖ ^ 2 := by
  have h1 : 0 < 1 - ‖u‖ ^ 2 := by nlinarith [norm_nonneg u]
  rw [norm_smul, Real.norm_eq_abs, abs_of_pos (by positivity)]
  field_simp
  ring

/-- **C73.** The distance of points of the open unit ball is non-negative, zero exactly for equal
points, symmetric, and satisfies the triangle inequality. -/
theorem C73_metric (u v w : Vec n) (hu : ‖u‖ < 1) (hv : ‖v‖ < 1) (hw : ‖w‖ < 1) :
    0 ≤ vectorDistance u v ∧ (vectorDistance u v = 0 ↔ u = v) ∧
      vectorDistance u v = vectorDistance v u ∧
      vectorDistance u w ≤ vectorDistance u v + vectorDistance v w := by
  have h1 : 0 < 1 - ‖u‖ ^ 2 := by nlinarith [norm_nonneg u]
  have h2 : 0 < 1 - ‖v‖ ^ 2 := by nlinarith [norm_nonneg v]
  refine ⟨Real.arcosh_nonneg (gamma_ge u v hu hv), ?_, ?_, ?_⟩
  · unfold vectorDistance
    rw [Real.arcosh_eq_zero_iff (gamma_ge u v hu hv)]
    constructor
    · intro h
      have h0 : ‖u - v‖ ^ 2 / ((1 - ‖u‖ ^ 2) * (1 - ‖v‖ ^ 2)) = 0 := by linarith
      have h3 : (1 - ‖u‖ ^ 2) * (1 - ‖v‖ ^ 2) ≠ 0 := (mul_pos h1 h2).ne'
      rw [div_eq_zero_iff] at h0
      rcases h0 with h0 | h0
      · rw [sq_eq_zero_iff, norm_eq_zero, sub_eq_zero] at h0
        exact h0
      · exact absurd h0 h3
    · rintro rfl
      simp
  · unfold vectorDistance
    rw [norm_sub_rev, mul_comm (1 - ‖u‖ ^ 2)]
  · have hg1 := gamma_ge u v hu hv
    have hg2 := gamma_ge v w hv hw
    have hg3 := gamma_ge u w hu hw
    have hy0 : 0 < (1 + ‖v‖ ^ 2) / (1 - ‖v‖ ^ 2) := by positivity
    have key := hyperboloid _ _ _ _ _ _ (on_hyperboloid u hu) (on_hyperboloid v hv)
      (on_hyperboloid w hw) hy0
    dsimp only at key
    rw [← gamma_form u v hu hv, ← gamma_form v w hv hw, ← gamma_form u w hu hw] at key
    rw [← Real.sinh_arcosh hg1, ← Real.sinh_arcosh hg2] at key
    have hcosh : 1 + 2 * (‖u - w‖ ^ 2 / ((1 - ‖u‖ ^ 2) * (1 - ‖w‖ ^ 2)))
        ≤ Real.cosh (vectorDistance u v + vectorDistance v w) := by
      rw [Real.cosh_add]
      unfold vectorDistance
      rw [Real.cosh_arcosh hg1, Real.cosh_arcosh hg2]
      exact key
    have hnn : 0 ≤ vectorDistance u v + vectorDistance v w :=
      add_nonneg (Real.arcosh_nonneg hg1) (Real.arcosh_nonneg hg2)
    rw [← Real.arcosh_cosh hnn]
    unfold vectorDistance at hcosh ⊢
    rw [Real.arcosh_le_arcosh (by linarith) (by linarith)]
    exact hcosh

/-- **C73.** The similarity lies in `(0, 1]` and is 1 exactly for equal points; a smaller distance is a
larger similarity. -/
theorem C73_similarity (u v w : Vec n) (hu : ‖u‖ < 1) (hv : ‖v‖ < 1) (hw : ‖w‖ < 1) :
    0 < similarity u v ∧ similarity u v ≤ 1 ∧ (similarity u v = 1 ↔ u = v) ∧
      (similarity u v < similarity u w ↔ vectorDistance u w < vectorDistance u v) := by
  obtain ⟨h0, h1, _, _⟩ := C73_metric u v w hu hv hw
  obtain ⟨h0', _, _, _⟩ := C73_metric u w v hu hw hv
  unfold similarity
  refine ⟨by positivity, ?_, ?_, ?_⟩
  · rw [div_le_one (by linarith)]
    linarith
  · rw [div_eq_one_iff_eq (by linarith), ← h1]
    constructor <;> intro h <;> linarith
  · rw [one_div_lt_one_div (by linarith) (by linarith)]
    constructor <;> intro h <;> linarith

/-- The origin and a point at distance 1/2 of it are in the ball and have distance `arcosh (5/3)`. -/
example : vectorDistance (0 : Vec 1) (EuclideanSpace.single 0 (1 / 2 : ℝ)) = Real.arcosh (5 / 3) := by
  unfold vectorDistance
  simp
  norm_num

end Verif.Poincare
