import Verif.Nmf.Model
import Mathlib.Algebra.Order.BigOperators.Ring.Finset

/-!
# C92: non-negative matrix factorisation
-/

namespace Verif.Nmf

variable {I K : Type} [Fintype I] [Fintype K] [DecidableEq K] [DecidableEq I]

/-! ## Specification -/

/-- Half the squared distance of a document from the combination of topics `h`. -/
noncomputable def docLoss (W : I → K → ℝ) (v : I → ℝ) (h : K → ℝ) : ℝ :=
  1 / 2 * ∑ i, (v i - ∑ k, W i k * h k) ^ 2

/-- No entry negative, and every topic has length at most 1. -/
def Feasible (W : I → K → ℝ) : Prop := (∀ i k, 0 ≤ W i k) ∧ ∀ k, ∑ i, W i k ^ 2 ≤ 1

/-! ## Representations of documents -/

/-- The gradient of the loss. -/
noncomputable def grad (W : I → K → ℝ) (v : I → ℝ) (h : K → ℝ) (k : K) : ℝ :=
  -proj W v k + ∑ l, gram W k l * h l

theorem grad_eq (W : I → K → ℝ) (v : I → ℝ) (h : K → ℝ) (k : K) :
    grad W v h k = -∑ i, W i k * (v i - ∑ l, W i l * h l) := by
  unfold grad proj gram
  have : ∑ l, (∑ i, W i k * W i l) * h l = ∑ i, W i k * ∑ l, W i l * h l := by
    simp only [Finset.sum_mul, Finset.mul_sum]
    rw [Finset.sum_comm]
    apply Finset.sum_congr rfl
    intro i _
    apply Finset.sum_congr rfl
    intro l _
    ring
  rw [this]
  simp only [mul_sub, Finset.sum_sub_distrib]
  ring

theorem docLoss_expand (W : I → K → ℝ) (v : I → ℝ) (h z : K → ℝ) :
    docLoss W v z = docLoss W v h + ∑ k, grad W v h k * (z k - h k)
      + 1 / 2 * ∑ i, (∑ k, W i k * (z k - h k)) ^ 2 := by
  have e1 : ∑ k, grad W v h k * (z k - h k)
      = -∑ i, (v i - ∑ l, W i l * h l) * ∑ k, W i k * (z k - h k) := by
    simp only [grad_eq, neg_mul, Finset.sum_neg_distrib, Finset.sum_mul, Finset.mul_sum]
    rw [Finset.sum_comm]
    congr 1
    apply Finset.sum_congr rfl
    intro i _
    apply Finset.sum_congr rfl
    intro k _
    ring
  have e2 : ∀ i, v i - ∑ k, W i k * z k = (v i - ∑ k, W i k * h k) - ∑ k, W i k * (z k - h k) := by
    intro i
    simp only [mul_sub, Finset.sum_sub_distrib]
    ring
  rw [e1]
  unfold docLoss
  simp only [e2]
  have e3 : ∀ i, ((v i - ∑ k, W i k * h k) - ∑ k, W i k * (z k - h k)) ^ 2
      = (v i - ∑ k, W i k * h k) ^ 2 - 2 * ((v i - ∑ k, W i k * h k) * ∑ k, W i k * (z k - h k))
        + (∑ k, W i k * (z k - h k)) ^ 2 := by
    intro i; ring
  simp only [e3, Finset.sum_add_distrib, Finset.sum_sub_distrib, ← Finset.mul_sum]
  ring

theorem docLoss_update (W : I → K → ℝ) (v : I → ℝ) (h : K → ℝ) (k : K) (t : ℝ) :
    docLoss W v (Function.update h k t) = docLoss W v h + grad W v h k * (t - h k)
      + 1 / 2 * (gram W k k * (t - h k) ^ 2) := by
  rw [docLoss_expand W v h]
  have e : ∀ (f : K → ℝ), ∑ l, f l * (Function.update h k t l - h l) = f k * (t - h k) := by
    intro f
    rw [Finset.sum_eq_single k]
    · simp
    · intro l _ hl
      rw [Function.update_of_ne hl]; simp
    · simp
  simp only [e]
  congr 2
  unfold gram
  rw [Finset.sum_mul]
  apply Finset.sum_congr rfl
  intro i _
  ring

theorem gram_nonneg (W : I → K → ℝ) (k : K) : 0 ≤ gram W k k :=
  Finset.sum_nonneg fun i _ => mul_self_nonneg _

theorem gram_zero (W : I → K → ℝ) (k : K) (h : gram W k k = 0) : ∀ i, W i k = 0 := by
  intro i
  unfold gram at h
  have := (Finset.sum_eq_zero_iff_of_nonneg fun i _ => mul_self_nonneg (W i k)).1 h i (Finset.mem_univ i)
  exact mul_self_eq_zero.1 this

theorem grad_zero (W : I → K → ℝ) (v : I → ℝ) (h : K → ℝ) (k : K) (hz : gram W k k = 0) : grad W v h k = 0 := by
  rw [grad_eq]
  simp [gram_zero W k hz]

theorem step_arith {g G kap x : ℝ} (hG : 0 < G) (hx : 0 ≤ x) (h0 : 0 ≤ kap) (h2 : kap ≤ 2) :
    g * (max (x - g * kap / G) 0 - x) + 1 / 2 * (G * (max (x - g * kap / G) 0 - x) ^ 2) ≤ 0 := by
  rcases le_total 0 (x - g * kap / G) with h | h
  · rw [max_eq_left h]
    have e : g * (x - g * kap / G - x) + 1 / 2 * (G * (x - g * kap / G - x) ^ 2)
        = -(g ^ 2 / G * (kap * (1 - kap / 2))) := by
      field_simp
      ring
    rw [e]
    have h1 : 0 ≤ g ^ 2 / G := by positivity
    have h3 : 0 ≤ kap * (1 - kap / 2) := mul_nonneg h0 (by linarith)
    have := mul_nonneg h1 h3
    linarith
  · rw [max_eq_right h]
    have h1 : x * G ≤ g * kap := by
      have : x ≤ g * kap / G := by linarith
      rwa [le_div_iff₀ hG] at this
    have e : g * (0 - x) + 1 / 2 * (G * (0 - x) ^ 2) = x * (1 / 2 * (x * G) - g) := by ring
    rw [e]
    rcases le_or_gt 0 g with hg | hg
    · apply mul_nonpos_of_nonneg_of_nonpos hx
      nlinarith
    · have h3 : g * kap ≤ 0 := mul_nonpos_of_nonpos_of_nonneg hg.le h0
      have h4 : x = 0 := by
        have h5 : 0 ≤ x * G := mul_nonneg hx hG.le
        have h6 : x * G = 0 := le_antisymm (h1.trans h3) h5
        rcases mul_eq_zero.1 h6 with h7 | h7
        · exact h7
        · exact absurd h7 hG.ne'
      rw [h4]; simp

theorem coord_nonneg (G : K → K → ℝ) (b : K → ℝ) (kap : ℝ) (h : K → ℝ) (hh : ∀ k, 0 ≤ h k) (k : K) :
    ∀ l, 0 ≤ coord G b kap h k l := by
  intro l
  unfold coord
  by_cases hl : l = k
  · subst hl
    rw [Function.update_self]
    split
    · exact le_rfl
    · exact le_max_right _ _
  · rw [Function.update_of_ne hl]; exact hh l

theorem coord_loss (W : I → K → ℝ) (v : I → ℝ) (kap : ℝ) (h0 : 0 ≤ kap) (h2 : kap ≤ 2) (h : K → ℝ)
    (hh : ∀ k, 0 ≤ h k) (k : K) :
    docLoss W v (coord (gram W) (proj W v) kap h k) ≤ docLoss W v h := by
  unfold coord
  dsimp only
  rw [docLoss_update]
  split
  · next hz => rw [grad_zero W v h k hz, hz]; simp
  · next hz =>
    have := step_arith (g := grad W v h k) (lt_of_le_of_ne (gram_nonneg W k) (Ne.symm hz)) (hh k) h0 h2
    unfold grad at this ⊢
    linarith

theorem sweep_good (W : I → K → ℝ) (v : I → ℝ) (kap : ℝ) (h0 : 0 ≤ kap) (h2 : kap ≤ 2) (perm : List K) :
    ∀ h : K → ℝ, (∀ k, 0 ≤ h k) → (∀ k, 0 ≤ sweep (gram W) (proj W v) kap h perm k) ∧
      docLoss W v (sweep (gram W) (proj W v) kap h perm) ≤ docLoss W v h := by
  induction perm with
  | nil => intro h hh; exact ⟨hh, le_rfl⟩
  | cons k perm ih =>
    intro h hh
    unfold sweep at *
    rw [List.foldl_cons]
    obtain ⟨h1, h3⟩ := ih _ (coord_nonneg (gram W) (proj W v) kap h hh k)
    exact ⟨h1, h3.trans (coord_loss W v kap h0 h2 h hh k)⟩

theorem sweep_nonneg (G : K → K → ℝ) (b : K → ℝ) (kap : ℝ) (perm : List K) :
    ∀ h : K → ℝ, (∀ k, 0 ≤ h k) → ∀ k, 0 ≤ sweep G b kap h perm k := by
  induction perm with
  | nil => intro h hh; exact hh
  | cons k perm ih => intro h hh; exact ih _ (coord_nonneg G b kap h hh k)

/-- Looking for the representation of a document keeps all weights non-negative and never increases
    the squared error, whatever the topics, the document, the start, the order of the topics and the
    number of iterations, for every step size `kappa` between 0 and 2. -/
theorem C92_representation_descends (W : I → K → ℝ) (v : I → ℝ) (kap : ℝ) (h0 : 0 ≤ kap) (h2 : kap ≤ 2)
    (sweeps more : List (List K)) (h : K → ℝ) (hh : ∀ k, 0 ≤ h k) :
    (∀ k, 0 ≤ solveProj (some W) kap sweeps v h k) ∧
    docLoss W v (solveProj (some W) kap sweeps v h) ≤ docLoss W v h ∧
    docLoss W v (solveProj (some W) kap (sweeps ++ more) v h) ≤ docLoss W v (solveProj (some W) kap sweeps v h) := by
  have key : ∀ (sweeps : List (List K)) (h : K → ℝ), (∀ k, 0 ≤ h k) →
      (∀ k, 0 ≤ solveProj (some W) kap sweeps v h k) ∧
      docLoss W v (solveProj (some W) kap sweeps v h) ≤ docLoss W v h := by
    intro sweeps
    induction sweeps with
    | nil => intro h hh; exact ⟨hh, le_rfl⟩
    | cons p sweeps ih =>
      intro h hh
      obtain ⟨s1, s2⟩ := sweep_good W v kap h0 h2 p h hh
      obtain ⟨i1, i2⟩ := ih _ s1
      exact ⟨i1, i2.trans s2⟩
  refine ⟨(key sweeps h hh).1, (key sweeps h hh).2, ?_⟩
  have e : solveProj (some W) kap (sweeps ++ more) v h
      = solveProj (some W) kap more v (solveProj (some W) kap sweeps v h) := by
    unfold solveProj
    dsimp only
    rw [List.foldl_append]
  rw [e]
  exact (key more _ (key sweeps h hh).1).2

theorem coord_fixed (W : I → K → ℝ) (v : I → ℝ) (kap : ℝ) (hk : 0 < kap) (h : K → ℝ) (hh : ∀ k, 0 ≤ h k) (k : K)
    (hf : coord (gram W) (proj W v) kap h k k = h k) : 0 ≤ grad W v h k ∧ grad W v h k * h k = 0 := by
  unfold coord at hf
  rw [Function.update_self] at hf
  by_cases hz : gram W k k = 0
  · rw [grad_zero W v h k hz]; simp
  · rw [if_neg hz] at hf
    have hG : 0 < gram W k k := lt_of_le_of_ne (gram_nonneg W k) (Ne.symm hz)
    change max (h k - grad W v h k * kap / gram W k k) 0 = h k at hf
    rcases le_total 0 (h k - grad W v h k * kap / gram W k k) with hc | hc
    · rw [max_eq_left hc] at hf
      have h1 : grad W v h k * kap / gram W k k = 0 := by linarith
      have h2 : grad W v h k = 0 := by
        rcases div_eq_zero_iff.1 h1 with h3 | h3
        · rcases mul_eq_zero.1 h3 with h4 | h4
          · exact h4
          · exact absurd h4 hk.ne'
        · exact absurd h3 hz
      rw [h2]; simp
    · rw [max_eq_right hc] at hf
      rw [← hf, zero_sub] at hc
      have h1 : 0 ≤ grad W v h k * kap / gram W k k := by linarith
      have h2 : 0 ≤ grad W v h k := by
        by_contra hneg
        push Not at hneg
        have : grad W v h k * kap / gram W k k < 0 := div_neg_of_neg_of_pos (mul_neg_of_neg_of_pos hneg hk) hG
        linarith
      rw [← hf]
      exact ⟨h2, by simp⟩

/-- When going through all topics once more changes nothing, the weights are the best: no other
    non-negative combination of the topics is closer to the document. -/
theorem C92_fixed_point_is_optimal (W : I → K → ℝ) (v : I → ℝ) (kap : ℝ) (hk : 0 < kap) (perm : List K)
    (hp : perm.Nodup) (hall : ∀ k, k ∈ perm) (h : K → ℝ) (hh : ∀ k, 0 ≤ h k)
    (hf : sweep (gram W) (proj W v) kap h perm = h) (z : K → ℝ) (hz : ∀ k, 0 ≤ z k) :
    docLoss W v h ≤ docLoss W v z := by
  have hstep : ∀ (perm : List K), perm.Nodup → ∀ g : K → ℝ, (∀ k, k ∉ perm → sweep (gram W) (proj W v) kap g perm k = g k) := by
    intro perm
    induction perm with
    | nil => intro _ g k _; rfl
    | cons a perm ih =>
      intro hn g k hk
      rw [List.nodup_cons] at hn
      rw [List.mem_cons, not_or] at hk
      have := ih hn.2 (coord (gram W) (proj W v) kap g a) k hk.2
      change sweep (gram W) (proj W v) kap (coord (gram W) (proj W v) kap g a) perm k = g k
      rw [this]
      unfold coord
      rw [Function.update_of_ne hk.1]
  have hcoord : ∀ (perm : List K), perm.Nodup → sweep (gram W) (proj W v) kap h perm = h →
      ∀ k ∈ perm, coord (gram W) (proj W v) kap h k k = h k := by
    intro perm
    induction perm with
    | nil => intro _ _ k hk; simp at hk
    | cons a perm ih =>
      intro hn hs k hk
      rw [List.nodup_cons] at hn
      have h1 : coord (gram W) (proj W v) kap h a a = h a := by
        have := hstep perm hn.2 (coord (gram W) (proj W v) kap h a) a hn.1
        rw [← this]
        exact congrFun hs a
      have h2 : coord (gram W) (proj W v) kap h a = h := by
        funext l
        by_cases hl : l = a
        · rw [hl]; exact h1
        · unfold coord; rw [Function.update_of_ne hl]
      rcases List.mem_cons.1 hk with rfl | hk
      · exact h1
      · refine ih hn.2 ?_ k hk
        change sweep (gram W) (proj W v) kap (coord (gram W) (proj W v) kap h a) perm = h at hs
        rw [h2] at hs
        exact hs
  rw [docLoss_expand W v h z]
  have h1 : 0 ≤ ∑ k, grad W v h k * (z k - h k) := by
    apply Finset.sum_nonneg
    intro k _
    obtain ⟨g1, g2⟩ := coord_fixed W v kap hk h hh k (hcoord perm hp hf k (hall k))
    rw [mul_sub, g2, sub_zero]
    exact mul_nonneg g1 (hz k)
  have h2 : 0 ≤ ∑ i, (∑ k, W i k * (z k - h k)) ^ 2 := Finset.sum_nonneg fun i _ => sq_nonneg _
  linarith

/-! ## Topics -/

theorem clip_nonneg (m : WithTop ℝ) (hm : 0 ≤ m) (x : ℝ) : 0 ≤ clip m x := by
  unfold clip
  cases m with
  | top => exact le_max_right _ _
  | coe m => exact le_min (le_max_right _ _) (by exact_mod_cast hm)

theorem transform_feasible (m : WithTop ℝ) (hm : 0 ≤ m) (W : I → K → ℝ) : Feasible (transform m W) := by
  have hs : ∀ k, 0 < max (Real.sqrt (∑ j, clip m (W j k) * clip m (W j k))) 1 :=
    fun k => lt_of_lt_of_le one_pos (le_max_right _ _)
  refine ⟨fun i k => div_nonneg (clip_nonneg m hm _) (hs k).le, fun k => ?_⟩
  unfold transform
  set s := max (Real.sqrt (∑ j, clip m (W j k) * clip m (W j k))) 1 with hsdef
  have hS : 0 ≤ ∑ j, clip m (W j k) * clip m (W j k) := Finset.sum_nonneg fun j _ => mul_self_nonneg _
  have h1 : ∑ j, clip m (W j k) * clip m (W j k) ≤ s ^ 2 := by
    have h2 : Real.sqrt (∑ j, clip m (W j k) * clip m (W j k)) ≤ s := le_max_left _ _
    calc ∑ j, clip m (W j k) * clip m (W j k) = Real.sqrt (∑ j, clip m (W j k) * clip m (W j k)) ^ 2 :=
          (Real.sq_sqrt hS).symm
      _ ≤ s ^ 2 := by gcongr
  have e : ∑ i, (clip m (W i k) / s) ^ 2 = (∑ j, clip m (W j k) * clip m (W j k)) / s ^ 2 := by
    rw [Finset.sum_div]
    apply Finset.sum_congr rfl
    intro i _
    rw [div_pow]
    ring
  rw [e]
  have : 0 < s ^ 2 := pow_pos (hs k) 2
  exact (div_le_one this).2 h1

/-- Clipping and scaling is the projection on the feasible topics. -/
theorem proj_ineq (y z : I → ℝ) (hz : ∀ i, 0 ≤ z i) (hz1 : ∑ i, z i ^ 2 ≤ 1) (p : I → ℝ)
    (hp : ∀ i, p i = max (y i) 0 / max (Real.sqrt (∑ j, max (y j) 0 * max (y j) 0)) 1) :
    ∑ i, (y i - p i) * (z i - p i) ≤ 0 := by
  set S := ∑ j, max (y j) 0 * max (y j) 0 with hS
  set s := max (Real.sqrt S) 1 with hs
  have hS0 : 0 ≤ S := Finset.sum_nonneg fun j _ => mul_self_nonneg _
  have hs1 : 1 ≤ s := le_max_right _ _
  have hspos : 0 < s := by linarith
  have e1 : ∀ i, (y i - p i) * (z i - p i)
      = (y i - max (y i) 0) * z i - (y i - max (y i) 0) * max (y i) 0 / s
        + (1 - 1 / s) * (max (y i) 0 * z i - max (y i) 0 * max (y i) 0 / s) := by
    intro i
    rw [hp i]
    field_simp
    ring
  have e2 : ∀ i, (y i - max (y i) 0) * max (y i) 0 = 0 := by
    intro i
    rcases le_total (y i) 0 with h | h
    · rw [max_eq_right h]; ring
    · rw [max_eq_left h]; ring
  simp only [e1, e2, zero_div, sub_zero]
  rw [Finset.sum_add_distrib, ← Finset.mul_sum, Finset.sum_sub_distrib, ← Finset.sum_div, ← hS]
  have h1 : ∑ i, (y i - max (y i) 0) * z i ≤ 0 := by
    apply Finset.sum_nonpos
    intro i _
    apply mul_nonpos_of_nonpos_of_nonneg _ (hz i)
    linarith [le_max_left (y i) 0]
  have h2 : (1 - 1 / s) * (∑ i, max (y i) 0 * z i - S / s) ≤ 0 := by
    rcases le_total (Real.sqrt S) 1 with h | h
    · have : s = 1 := max_eq_right h
      rw [this]; simp
    · have hs' : s = Real.sqrt S := max_eq_left h
      apply mul_nonpos_of_nonneg_of_nonpos
      · have : 1 / s ≤ 1 := by rw [div_le_one hspos]; exact hs1
        linarith
      · have hcs : (∑ i, max (y i) 0 * z i) ^ 2 ≤ (∑ i, max (y i) 0 ^ 2) * ∑ i, z i ^ 2 :=
          Finset.sum_mul_sq_le_sq_mul_sq _ _ _
        have e3 : ∑ i, max (y i) 0 ^ 2 = S := by
          rw [hS]; apply Finset.sum_congr rfl; intro i _; ring
        rw [e3] at hcs
        have h3 : (∑ i, max (y i) 0 * z i) ^ 2 ≤ S := by
          have := mul_le_mul_of_nonneg_left hz1 hS0
          linarith
        have h4 : ∑ i, max (y i) 0 * z i ≤ Real.sqrt S := Real.le_sqrt_of_sq_le h3
        have h5 : S / s = Real.sqrt S := by
          rw [hs', div_eq_iff (by rw [← hs']; exact hspos.ne')]
          exact (Real.mul_self_sqrt hS0).symm
        rw [h5]
        linarith
  linarith

theorem frob_bound (A : K → K → ℝ) (d : K → ℝ) :
    ∑ k, (∑ l, d l * A l k) * d k ≤ frob A * ∑ k, d k ^ 2 := by
  have hcs : (∑ x : K × K, A x.1 x.2 * (d x.1 * d x.2)) ^ 2
      ≤ (∑ x : K × K, A x.1 x.2 ^ 2) * ∑ x : K × K, (d x.1 * d x.2) ^ 2 := Finset.sum_mul_sq_le_sq_mul_sq _ _ _
  have e1 : ∑ x : K × K, A x.1 x.2 * (d x.1 * d x.2) = ∑ k, (∑ l, d l * A l k) * d k := by
    rw [Fintype.sum_prod_type, Finset.sum_comm]
    apply Finset.sum_congr rfl
    intro k _
    rw [Finset.sum_mul]
    apply Finset.sum_congr rfl
    intro l _
    ring
  have e2 : ∑ x : K × K, A x.1 x.2 ^ 2 = ∑ k, ∑ l, A k l * A k l := by
    rw [Fintype.sum_prod_type]
    simp only [sq]
  have e3 : ∑ x : K × K, (d x.1 * d x.2) ^ 2 = (∑ k, d k ^ 2) ^ 2 := by
    rw [Fintype.sum_prod_type, sq, Finset.sum_mul_sum]
    simp only [mul_pow]
  rw [e1, e2, e3] at hcs
  have hA : 0 ≤ ∑ k, ∑ l, A k l * A k l :=
    Finset.sum_nonneg fun k _ => Finset.sum_nonneg fun l _ => mul_self_nonneg _
  have hd : 0 ≤ ∑ k, d k ^ 2 := Finset.sum_nonneg fun k _ => sq_nonneg _
  have h2 : (∑ k, (∑ l, d l * A l k) * d k) ^ 2 ≤ (frob A * ∑ k, d k ^ 2) ^ 2 := by
    rw [mul_pow]
    unfold frob
    rw [Real.sq_sqrt hA]
    exact hcs
  have h3 : 0 ≤ frob A * ∑ k, d k ^ 2 := mul_nonneg (Real.sqrt_nonneg _) hd
  exact (le_abs_self _).trans (abs_le_of_sq_le_sq h2 h3)

/-- One step of the optimisation of the topics gives non-negative topics of length at most 1. If the
    topics were so before, the statistics are symmetric and no entry of the step is cut off at `v_max`,
    the error does not grow, for every step size `kappa` between 0 and 2. -/
theorem C92_topic_step (kap : ℝ) (hk : 0 < kap) (hk2 : kap ≤ 2) (vMax : WithTop ℝ) (hv : 0 ≤ vMax) (A : K → K → ℝ)
    (hA : ∀ k l, A k l = A l k) (hA0 : frob A ≠ 0) (B : I → K → ℝ) (W : I → K → ℝ) :
    Feasible (wStep kap vMax A B W) ∧
    (Feasible W → (∀ i k, ((W i k - kap / frob A * (dotA W A i k - B i k) : ℝ) : WithTop ℝ) ≤ vMax) →
      wError A B (wStep kap vMax A B W) ≤ wError A B W) := by
  refine ⟨transform_feasible vMax hv _, fun hW hcut => ?_⟩
  have hF : 0 < frob A := lt_of_le_of_ne (Real.sqrt_nonneg _) (Ne.symm hA0)
  set eta := kap / frob A with heta
  have hetapos : 0 < eta := div_pos hk hF
  set Y : I → K → ℝ := fun i k => W i k - eta * (dotA W A i k - B i k) with hY
  have hclip : ∀ i k, clip vMax (Y i k) = max (Y i k) 0 := by
    intro i k
    have h1 := hcut i k
    unfold clip
    cases vMax with
    | top => rfl
    | coe m =>
      apply min_eq_left
      have h2 : Y i k ≤ m := by exact_mod_cast h1
      exact max_le h2 (by exact_mod_cast hv)
  set P := wStep kap vMax A B W with hP
  have hPe : ∀ i k, P i k = max (Y i k) 0 / max (Real.sqrt (∑ j, max (Y j k) 0 * max (Y j k) 0)) 1 := by
    intro i k
    change transform vMax Y i k = _
    unfold transform
    simp only [hclip]
  have hcol : ∀ k, ∑ i, (Y i k - P i k) * (W i k - P i k) ≤ 0 := fun k =>
    proj_ineq (fun i => Y i k) (fun i => W i k) (fun i => hW.1 i k) (hW.2 k) (fun i => P i k) fun i => hPe i k
  have hsum : ∑ k, ∑ i, (Y i k - P i k) * (W i k - P i k) ≤ 0 := Finset.sum_nonpos fun k _ => hcol k
  -- inner product of gradient and step
  have hgrad : ∑ i, ∑ k, (P i k - W i k) ^ 2 + eta * ∑ i, ∑ k, (dotA W A i k - B i k) * (P i k - W i k) ≤ 0 := by
    rw [Finset.sum_comm] at hsum
    have e : ∑ i, ∑ k, (Y i k - P i k) * (W i k - P i k)
        = ∑ i, ∑ k, (P i k - W i k) ^ 2 + eta * ∑ i, ∑ k, (dotA W A i k - B i k) * (P i k - W i k) := by
      simp only [Finset.mul_sum, ← Finset.sum_add_distrib]
      apply Finset.sum_congr rfl
      intro i _
      apply Finset.sum_congr rfl
      intro k _
      rw [hY]
      ring
    rw [e] at hsum
    exact hsum
  have hquad : ∑ i, ∑ k, dotA (fun i k => P i k - W i k) A i k * (P i k - W i k)
      ≤ frob A * ∑ i, ∑ k, (P i k - W i k) ^ 2 := by
    rw [Finset.mul_sum]
    apply Finset.sum_le_sum
    intro i _
    exact frob_bound A fun k => P i k - W i k
  have hsym : ∑ i, ∑ k, dotA (fun i k => P i k - W i k) A i k * W i k
      = ∑ i, ∑ k, dotA W A i k * (P i k - W i k) := by
    apply Finset.sum_congr rfl
    intro i _
    unfold dotA
    simp only [Finset.sum_mul]
    rw [Finset.sum_comm]
    apply Finset.sum_congr rfl
    intro k _
    apply Finset.sum_congr rfl
    intro l _
    rw [hA k l]
    ring
  have hexp : wError A B P = wError A B W + ∑ i, ∑ k, (dotA W A i k - B i k) * (P i k - W i k)
      + 1 / 2 * ∑ i, ∑ k, dotA (fun i k => P i k - W i k) A i k * (P i k - W i k) := by
    unfold wError
    have e1 : ∑ i, ∑ k, dotA P A i k * P i k
        = ∑ i, ∑ k, dotA W A i k * W i k + ∑ i, ∑ k, dotA (fun i k => P i k - W i k) A i k * W i k
          + ∑ i, ∑ k, dotA W A i k * (P i k - W i k)
          + ∑ i, ∑ k, dotA (fun i k => P i k - W i k) A i k * (P i k - W i k) := by
      simp only [← Finset.sum_add_distrib]
      apply Finset.sum_congr rfl
      intro i _
      apply Finset.sum_congr rfl
      intro k _
      have : dotA P A i k = dotA W A i k + dotA (fun i k => P i k - W i k) A i k := by
        unfold dotA
        rw [← Finset.sum_add_distrib]
        apply Finset.sum_congr rfl
        intro l _
        ring
      rw [this]
      ring
    have e2 : ∑ i, ∑ k, P i k * B i k = ∑ i, ∑ k, W i k * B i k + ∑ i, ∑ k, B i k * (P i k - W i k) := by
      simp only [← Finset.sum_add_distrib]
      apply Finset.sum_congr rfl
      intro i _
      apply Finset.sum_congr rfl
      intro k _
      ring
    have e3 : ∑ i, ∑ k, (dotA W A i k - B i k) * (P i k - W i k)
        = ∑ i, ∑ k, dotA W A i k * (P i k - W i k) - ∑ i, ∑ k, B i k * (P i k - W i k) := by
      simp only [← Finset.sum_sub_distrib]
      apply Finset.sum_congr rfl
      intro i _
      apply Finset.sum_congr rfl
      intro k _
      ring
    rw [e1, e2, e3, hsym]
    ring
  rw [hexp]
  set D := ∑ i, ∑ k, (P i k - W i k) ^ 2 with hD
  set g := ∑ i, ∑ k, (dotA W A i k - B i k) * (P i k - W i k) with hg
  have hD0 : 0 ≤ D := Finset.sum_nonneg fun i _ => Finset.sum_nonneg fun k _ => sq_nonneg _
  have h1 : D * frob A + kap * g ≤ 0 := by
    have : eta * frob A = kap := div_mul_cancel₀ kap hA0
    have h2 := mul_nonpos_of_nonpos_of_nonneg hgrad hF.le
    nlinarith
  have h3 : 0 ≤ frob A * D := mul_nonneg hF.le hD0
  have h4 : kap * g ≤ -(frob A * D) := by linarith
  have h5 : g ≤ -(1 / 2) * (frob A * D) := by
    by_contra hc
    push Not at hc
    have : kap * (-(1 / 2) * (frob A * D)) < kap * g := mul_lt_mul_of_pos_left hc hk
    nlinarith
  linarith

/-! ## Training -/

theorem updateFrom_cons (kap : ℝ) (n : ℕ) (s : State I K) (c : Chunk I K) (cs : List (Chunk I K)) :
    updateFrom kap n s (c :: cs) = updateFrom kap (n + 1) (trainChunk kap n s c) cs := rfl

theorem updateFrom_append (kap : ℝ) (n : ℕ) (s : State I K) (cs ds : List (Chunk I K)) :
    updateFrom kap n s (cs ++ ds) = updateFrom kap (n + cs.length) (updateFrom kap n s cs) ds := by
  induction cs generalizing n s with
  | nil => rfl
  | cons c cs ih =>
    rw [List.cons_append, updateFrom_cons, updateFrom_cons, ih]
    congr 1
    simp only [List.length_cons]
    omega

/-- The state training keeps: representations and matrix not negative. -/
structure Good (s : State I K) : Prop where
  h : ∀ l, s.h = some l → ∀ x ∈ l, ∀ k, 0 ≤ x k
  W : ∀ W, s.W = some W → s.started = true → ∀ i k, 0 ≤ W i k
  v : ∀ m, s.vMax = some m → 0 ≤ m
  notStarted : s.started = false → s.W = none

/-- What a chunk must satisfy: counts and the random matrix are not negative. -/
structure Chunk.Ok (c : Chunk I K) : Prop where
  top : 0 ≤ c.top
  w0 : ∀ i k, 0 ≤ c.w0 i k

theorem solveProj_nonneg (W : Option (I → K → ℝ)) (kap : ℝ) (sweeps : List (List K)) (v : I → ℝ) (h : K → ℝ)
    (hh : ∀ k, 0 ≤ h k) : ∀ k, 0 ≤ solveProj W kap sweeps v h k := by
  cases W with
  | none =>
    intro k
    unfold solveProj
    dsimp only
    split
    · exact hh k
    · exact le_rfl
  | some W =>
    unfold solveProj
    dsimp only
    induction sweeps generalizing h with
    | nil => exact hh
    | cons p sweeps ih => exact ih _ (sweep_nonneg _ _ _ p h hh)

theorem warmStart_nonneg (s : State I K) (hs : Good s) (n : ℕ) : ∀ x ∈ warmStart s n, ∀ k, 0 ≤ x k := by
  intro x hx k
  unfold warmStart at hx
  split at hx
  · next h hh =>
    split at hx
    · exact hs.h h hh x hx k
    · rw [List.eq_of_mem_replicate hx]
  · rw [List.eq_of_mem_replicate hx]

theorem zipWith_nonneg (W : Option (I → K → ℝ)) (kap : ℝ) (sweeps : List (List K)) (docs : List (I → ℝ))
    (hs : List (K → ℝ)) (h : ∀ x ∈ hs, ∀ k, 0 ≤ x k) :
    ∀ x ∈ List.zipWith (solveProj W kap sweeps) docs hs, ∀ k, 0 ≤ x k := by
  induction docs generalizing hs with
  | nil => intro x hx; simp at hx
  | cons d docs ih =>
    cases hs with
    | nil => intro x hx; simp at hx
    | cons y hs =>
      intro x hx
      rw [List.zipWith_cons_cons, List.mem_cons] at hx
      rcases hx with rfl | hx
      · exact solveProj_nonneg W kap sweeps d y (h y (by simp))
      · exact ih hs (fun z hz => h z (by simp [hz])) x hx

theorem iterate_feasible (kap : ℝ) (m : WithTop ℝ) (hm : 0 ≤ m) (A : K → K → ℝ) (B : I → K → ℝ) (n : ℕ) (hn : 0 < n)
    (W : I → K → ℝ) : Feasible ((wStep kap m A B)^[n] W) := by
  obtain ⟨n, rfl⟩ : ∃ k, n = k + 1 := ⟨n - 1, by omega⟩
  rw [Function.iterate_succ_apply']
  exact transform_feasible m hm _

theorem setup_good (s : State I K) (hs : Good s) (c : Chunk I K) (hc : c.Ok) : Good (setup s c) ∧ (setup s c).started = true := by
  unfold setup
  split
  · next h => exact ⟨hs, h⟩
  · refine ⟨⟨hs.h, ?_, hs.v, by intro h; simp at h⟩, rfl⟩
    intro W hW _
    simp only [Option.some.injEq] at hW
    rw [← hW]
    exact hc.w0

theorem trainChunk_good (kap : ℝ) (n : ℕ) (s : State I K) (hs : Good s) (c : Chunk I K) (hc : c.Ok) :
    Good (trainChunk kap n s c) ∧ (trainChunk kap n s c).started = true ∧
    (0 < c.wIters → ∀ W, (trainChunk kap n s c).W = some W → Feasible W) ∧
    ((trainChunk kap n s c).h = some (List.zipWith (solveProj (setup s c).W kap c.sweeps) c.docs
        (warmStart (setup s c) c.docs.length))) := by
  obtain ⟨h1, h2⟩ := setup_good s hs c hc
  have hv : 0 ≤ (setup s c).vMax.getD (c.top : WithTop ℝ) := by
    cases hm : (setup s c).vMax with
    | none => simpa using hc.top
    | some m => simpa using h1.v m hm
  unfold trainChunk
  dsimp only
  refine ⟨⟨?_, ?_, ?_, ?_⟩, h2, ?_, rfl⟩
  · intro l hl
    simp only [Option.some.injEq] at hl
    rw [← hl]
    exact zipWith_nonneg _ _ _ _ _ (warmStart_nonneg _ h1 _)
  · intro W hW _
    dsimp only at hW
    unfold solveW at hW
    split at hW
    · exact h1.W W hW h2
    · split at hW
      · cases hW
      · next hn hA =>
        obtain ⟨W0, _, rfl⟩ := Option.map_eq_some_iff.1 hW
        exact (iterate_feasible kap _ hv _ _ _ (Nat.pos_of_ne_zero hn) W0).1
  · intro m hm
    simp only [Option.some.injEq] at hm
    rw [← hm]
    exact hv
  · intro h
    dsimp only at h
    rw [h2] at h
    cases h
  · intro hn W hW
    unfold solveW at hW
    rw [if_neg (by omega)] at hW
    split at hW
    · cases hW
    · obtain ⟨W0, _, rfl⟩ := Option.map_eq_some_iff.1 hW
      exact iterate_feasible kap _ hv _ _ _ hn W0

theorem updateFrom_good (kap : ℝ) (n : ℕ) (s : State I K) (hs : Good s) (cs : List (Chunk I K)) (hc : ∀ c ∈ cs, c.Ok) :
    Good (updateFrom kap n s cs) := by
  induction cs generalizing n s with
  | nil => exact hs
  | cons c cs ih =>
    rw [updateFrom_cons]
    exact ih _ _ (trainChunk_good kap n s hs c (hc c (by simp))).1 fun c' h => hc c' (by simp [h])

theorem updates_good (kap : ℝ) (calls : List (List (Chunk I K))) (hc : ∀ cs ∈ calls, ∀ c ∈ cs, c.Ok) (s : State I K)
    (hs : Good s) : Good (calls.foldl (update kap) s) := by
  induction calls generalizing s with
  | nil => exact hs
  | cons cs calls ih =>
    rw [List.foldl_cons]
    exact ih (fun x hx => hc x (by simp [hx])) _ (updateFrom_good kap 1 s hs cs (hc cs (by simp)))

theorem new_good : Good (State.new : State I K) := by
  refine ⟨?_, ?_, ?_, fun _ => rfl⟩ <;> intro _ h <;> simp [State.new] at h

/-- After any history of updates, as long as the model has not been filled with NaN, no weight of a
    topic or of a document is negative, and after a chunk that iterates at least once every topic has
    length at most 1. -/
theorem C92_nonnegative (kap : ℝ) (calls : List (List (Chunk I K))) (last : List (Chunk I K)) (c : Chunk I K)
    (hc : ∀ cs ∈ calls, ∀ c ∈ cs, c.Ok) (hl : ∀ c ∈ last, c.Ok) (h : c.Ok) :
    let s := update kap (calls.foldl (update kap) State.new) (last ++ [c])
    (∀ W, s.W = some W → (∀ i k, 0 ≤ W i k) ∧ (0 < c.wIters → ∀ k, ∑ i, W i k ^ 2 ≤ 1)) ∧
    ∀ hs, s.h = some hs → ∀ x ∈ hs, ∀ k, 0 ≤ x k := by
  have g1 := updates_good kap calls hc State.new new_good
  have g2 := updateFrom_good kap 1 _ g1 last hl
  obtain ⟨g3, g4, g5, _⟩ := trainChunk_good kap (1 + last.length) _ g2 c h
  have e : update kap (calls.foldl (update kap) State.new) (last ++ [c])
      = trainChunk kap (1 + last.length) (updateFrom kap 1 (calls.foldl (update kap) State.new) last) c := by
    unfold update
    rw [updateFrom_append]
    rfl
  dsimp only
  rw [e]
  exact ⟨fun W hW => ⟨g3.W W hW g4, fun hn => (g5 hn W hW).2⟩, g3.h⟩

/-- The statistics the topics are estimated from, after a call of `update`, are the averages over the
    chunks of that call, each with the representations found when it was its turn: whatever was there
    before the call has no influence on them but through the topics. -/
theorem C92_statistics_of_the_call_only (kap : ℝ) (s : State I K) (cs : List (Chunk I K)) (hcs : cs ≠ []) (k l : K)
    (i : I) :
    (update kap s cs).A k l = ((List.range cs.length).map fun j =>
      (((update kap s (cs.take (j + 1))).h.getD []).map fun x => x k * x l).sum).sum / cs.length ∧
    (update kap s cs).B i k = ((List.range cs.length).map fun j =>
      (((cs[j]?.map Chunk.docs).getD []).zip ((update kap s (cs.take (j + 1))).h.getD [])
        |>.map fun x => x.1 i * x.2 k).sum).sum / cs.length := by
  have hlast : ∀ (cs : List (Chunk I K)) (c : Chunk I K), update kap s (cs ++ [c])
      = trainChunk kap (1 + cs.length) (update kap s cs) c := by
    intro cs c
    unfold update
    rw [updateFrom_append]
    rfl
  have key : ∀ cs : List (Chunk I K), (cs ≠ [] ∨ True) →
      (cs ≠ [] → (update kap s cs).A k l * cs.length = ((List.range cs.length).map fun j =>
        (((update kap s (cs.take (j + 1))).h.getD []).map fun x => x k * x l).sum).sum ∧
      (update kap s cs).B i k * cs.length = ((List.range cs.length).map fun j =>
        (((cs[j]?.map Chunk.docs).getD []).zip ((update kap s (cs.take (j + 1))).h.getD [])
          |>.map fun x => x.1 i * x.2 k).sum).sum) := by
    intro cs _
    induction cs using List.reverseRecOn with
    | nil => intro h; exact absurd rfl h
    | append_singleton cs c ih =>
      intro _
      have hlen : ((1 + cs.length : ℕ) : ℝ) ≠ 0 := by
        have : (0 : ℝ) < ((1 + cs.length : ℕ) : ℝ) := by exact_mod_cast Nat.lt_of_lt_of_le Nat.one_pos (Nat.le_add_right _ _)
        exact this.ne'
      have hrange : ∀ (f g : ℕ → ℝ), (∀ j < cs.length, f j = g j) →
          ((List.range (cs ++ [c]).length).map f).sum = ((List.range cs.length).map g).sum + f cs.length := by
        intro f g hfg
        rw [List.length_append, List.length_singleton, List.range_succ, List.map_append, List.sum_append]
        simp only [List.map_cons, List.map_nil, List.sum_cons, List.sum_nil, add_zero]
        congr 2
        apply List.map_congr_left
        intro j hj
        exact hfg j (List.mem_range.1 hj)
      have htake : ∀ j < cs.length, (cs ++ [c]).take (j + 1) = cs.take (j + 1) := by
        intro j hj
        exact List.take_append_of_le_length (by omega)
      have htake' : (cs ++ [c]).take (cs.length + 1) = cs ++ [c] := by
        apply List.take_of_length_le
        simp
      have hget : ∀ j < cs.length, (cs ++ [c])[j]? = cs[j]? := by
        intro j hj
        exact List.getElem?_append_left hj
      have hget' : (cs ++ [c])[cs.length]? = some c := by simp
      rw [hrange _ (fun j => (((update kap s (cs.take (j + 1))).h.getD []).map fun x => x k * x l).sum)
          (fun j hj => by rw [htake j hj]),
        hrange _ (fun j => (((cs[j]?.map Chunk.docs).getD []).zip ((update kap s (cs.take (j + 1))).h.getD [])
          |>.map fun x => x.1 i * x.2 k).sum) (fun j hj => by rw [htake j hj, hget j hj]), htake', hget']
      have hprev : (setup (update kap s cs) c).A k l * (cs.length : ℝ)
            = ((List.range cs.length).map fun j =>
              (((update kap s (cs.take (j + 1))).h.getD []).map fun x => x k * x l).sum).sum ∧
          (setup (update kap s cs) c).B i k * (cs.length : ℝ) = ((List.range cs.length).map fun j =>
            (((cs[j]?.map Chunk.docs).getD []).zip ((update kap s (cs.take (j + 1))).h.getD [])
              |>.map fun x => x.1 i * x.2 k).sum).sum := by
        by_cases hne : cs = []
        · subst hne; simp
        · have hst : (update kap s cs).started = true := by
            obtain ⟨ds, d, rfl⟩ : ∃ ds d, cs = ds ++ [d] := ⟨cs.dropLast, cs.getLast hne, (List.dropLast_append_getLast hne).symm⟩
            rw [hlast ds d]
            unfold trainChunk setup
            dsimp only
            split
            · assumption
            · rfl
          have : setup (update kap s cs) c = update kap s cs := by
            unfold setup
            rw [if_pos hst]
          rw [this]
          exact ih (Or.inr trivial) hne
      rw [← hprev.1, ← hprev.2, hlast cs c]
      have hl2 : (((cs ++ [c]).length : ℕ) : ℝ) = ((1 + cs.length : ℕ) : ℝ) := by
        rw [List.length_append, List.length_singleton, Nat.add_comm]
      rw [hl2]
      have hcast : ((1 + cs.length : ℕ) : ℝ) - 1 = cs.length := by push_cast; ring
      unfold trainChunk
      dsimp only
      rw [div_mul_cancel₀ _ hlen, div_mul_cancel₀ _ hlen, hcast]
      simp
  have hn : (cs.length : ℝ) ≠ 0 := by
    have : 0 < cs.length := List.length_pos_iff.2 hcs
    exact_mod_cast this.ne'
  obtain ⟨h1, h2⟩ := key cs (Or.inr trivial) hcs
  exact ⟨by rw [← h1, mul_div_cancel_right₀ _ hn], by rw [← h2, mul_div_cancel_right₀ _ hn]⟩

/-- A call of `update` whose first chunk has only empty documents (as `update([[]])`, on a model that
    was trained on chunks of another length) fills the whole model with NaN, and it never recovers. -/
theorem C92_empty_documents_destroy (kap : ℝ) (s : State I K) (c : Chunk I K) (cs : List (Chunk I K))
    (hd : ∀ d ∈ c.docs, ∀ i, d i = 0) (hw : warmStart (setup s c) c.docs.length = List.replicate c.docs.length fun _ => 0)
    (hi : 0 < c.wIters) : (update kap s (c :: cs)).W = none := by
  have hz : ∀ (W : Option (I → K → ℝ)) (sw : List (List K)) (v : I → ℝ), (∀ i, v i = 0) →
      solveProj W kap sw v (fun _ => 0) = fun _ => 0 := by
    intro W sw v hv
    cases W with
    | none => unfold solveProj; simp
    | some W =>
      unfold solveProj
      dsimp only
      have hc : ∀ k, coord (gram W) (proj W v) kap (fun _ => 0) k = fun _ => 0 := by
        intro k
        unfold coord proj
        funext l
        by_cases hl : l = k
        · subst hl; simp [hv]
        · simp [Function.update_of_ne hl]
      have hs : ∀ p, sweep (gram W) (proj W v) kap (fun _ => 0) p = fun _ => 0 := by
        intro p
        unfold sweep
        induction p with
        | nil => rfl
        | cons a p ih => rw [List.foldl_cons, hc]; exact ih
      induction sw with
      | nil => rfl
      | cons p sw ih => rw [List.foldl_cons, hs]; exact ih
  have h1 : (trainChunk kap 1 s c).W = none ∧ (trainChunk kap 1 s c).started = true := by
    have hst : (setup s c).started = true := by
      unfold setup
      split
      · assumption
      · rfl
    refine ⟨?_, hst⟩
    unfold trainChunk
    dsimp only
    rw [hw]
    have hzip : List.zipWith (solveProj (setup s c).W kap c.sweeps) c.docs
        (List.replicate c.docs.length fun _ => (0 : ℝ)) = List.replicate c.docs.length fun _ => 0 := by
      generalize c.docs = docs at hd
      induction docs with
      | nil => rfl
      | cons d docs ih =>
        rw [List.length_cons, List.replicate_succ, List.zipWith_cons_cons, hz _ _ _ (hd d (by simp)),
          ih fun x hx => hd x (by simp [hx])]
    rw [hzip]
    have hA : frob (fun k l => ((setup s c).A k l * (((1 : ℕ) : ℝ) - 1)
        + ((List.replicate c.docs.length fun _ => (0 : ℝ)).map fun x : K → ℝ => x k * x l).sum) / ((1 : ℕ) : ℝ)) = 0 := by
      unfold frob
      simp
    unfold solveW
    rw [if_neg (by omega), if_pos hA]
  have hnone : ∀ (n : ℕ) (s : State I K) (cs : List (Chunk I K)), s.W = none → s.started = true →
      (updateFrom kap n s cs).W = none := by
    intro n s cs
    induction cs generalizing n s with
    | nil => intro h _; exact h
    | cons c cs ih =>
      intro h hs
      rw [updateFrom_cons]
      have hset : setup s c = s := by unfold setup; rw [if_pos hs]
      apply ih
      · unfold trainChunk
        dsimp only
        rw [hset, h]
        unfold solveW
        split
        · rfl
        · split <;> rfl
      · unfold trainChunk
        dsimp only
        rw [hset]
        exact hs
  unfold update
  rw [updateFrom_cons]
  exact hnone _ _ _ h1.1 h1.2

/-! ## Queries -/

/-- `get_topics` gives, normalised, a probability distribution for every topic that is not all zero. -/
theorem C92_topics (W : I → K → ℝ) (hW : ∀ i k, 0 ≤ W i k) (k : K) (hk : ∃ i, W i k ≠ 0) :
    (∀ i, 0 ≤ getTopics W true k i) ∧ ∑ i, getTopics W true k i = 1 := by
  have hs : 0 < ∑ j, W j k := by
    obtain ⟨i, hi⟩ := hk
    exact Finset.sum_pos' (fun j _ => hW j k) ⟨i, Finset.mem_univ i, lt_of_le_of_ne (hW i k) (Ne.symm hi)⟩
  refine ⟨fun i => ?_, ?_⟩
  · simp only [getTopics, if_true]
    exact div_nonneg (hW i k) hs.le
  · simp only [getTopics, if_true]
    rw [← Finset.sum_div]
    exact div_self hs.ne'

/-- `get_topic_terms` and `get_term_topics` without normalisation leave the model alone. With
    normalisation (the default) they write the normalised weights back: the column of the topic, or
    the row of the word, is changed in the model, so asking for a topic changes later answers about
    words, and asking about a word changes the topics. -/
theorem C92_queries_change_the_model (W : I → K → ℝ) (k : K) (i : I) :
    (getTopicTerms W false k).2 = W ∧ (getTermTopics W false i).2 = W ∧
    (∑ j, W j k ≠ 0 → ∑ j, (getTopicTerms W true k).2 j k = 1 ∧ ∀ l, l ≠ k → ∀ j, (getTopicTerms W true k).2 j l = W j l) ∧
    (0 < ∑ l, W i l → ∑ l, (getTermTopics W true i).2 i l = 1 ∧ ∀ j, j ≠ i → (getTermTopics W true i).2 j = W j) := by
  refine ⟨rfl, ?_, fun h => ⟨?_, ?_⟩, fun h => ⟨?_, ?_⟩⟩
  · unfold getTermTopics; simp
  · unfold getTopicTerms
    simp only [if_true]
    rw [← Finset.sum_div]
    exact div_self h
  · intro l hl j
    unfold getTopicTerms
    simp [hl]
  · unfold getTermTopics
    simp only [true_and, if_pos h, if_true]
    rw [← Finset.sum_div]
    exact div_self h.ne'
  · intro j hj
    unfold getTermTopics
    simp only [true_and, if_pos h]
    funext l
    simp [hj]

/-- Two words, two topics. -/
noncomputable def wEx : Fin 2 → Fin 2 → ℝ := fun i k => if i = 0 then (if k = 0 then 3 / 4 else 1 / 4) else 1 / 4

/-- Asking for the topics of word 0 and then of topic 0 gives other weights for topic 0 than asking
    for topic 0 at once. -/
theorem C92_query_order_matters :
    (getTopicTerms (getTermTopics wEx true 1).2 true 0).1 1 ≠ (getTopicTerms wEx true 0).1 1 := by
  have h1 : (0 : ℝ) < ∑ l, wEx 1 l := by simp [wEx, Fin.sum_univ_two]
  unfold getTopicTerms getTermTopics
  simp only [true_and, if_pos h1, if_true]
  simp [wEx, Fin.sum_univ_two]
  norm_num

/-- `get_document_topics`: the topics above `max(minimum_probability, 1e-8)`, in order; normalised
    weights add up to at most 1. The call however also removes the bound `v_max` that clips the topics
    in later training. -/
theorem C92_document_topics {n : ℕ} (kap : ℝ) (s : State I (Fin n)) (sweeps : List (List (Fin n))) (m : ℝ) (v : I → ℝ)
    (normalize : Bool) :
    let r := getDocumentTopics kap s sweeps normalize m v
    let h := solveProj s.W kap sweeps v (fun _ => 0)
    r.1.Pairwise (fun a b => a.1 < b.1) ∧
    (∀ k x, (k, x) ∈ r.1 ↔
      x = (if normalize = true ∧ ∑ l, h l ≠ 0 then h k / ∑ l, h l else h k) ∧ max m (1 / 10 ^ 8) < x) ∧
    (normalize = true → (r.1.map Prod.snd).sum ≤ 1) ∧
    r.2.W = s.W ∧ r.2.A = s.A ∧ r.2.B = s.B ∧ r.2.h = s.h ∧ r.2.vMax = some ⊤ := by
  have hpos := solveProj_nonneg s.W kap sweeps v (fun _ => 0) fun _ => le_rfl
  unfold getDocumentTopics
  dsimp only
  refine ⟨?_, ?_, fun hnorm => ?_, rfl, rfl, rfl, rfl, rfl⟩
  · apply List.Pairwise.filter
    rw [List.pairwise_map]
    exact List.pairwise_lt_finRange n
  · intro k x
    rw [List.mem_filter]
    simp only [List.mem_map, List.mem_finRange, true_and, Prod.mk.injEq]
    constructor
    · rintro ⟨⟨k', rfl, rfl⟩, h⟩
      refine ⟨?_, of_decide_eq_true h⟩
      split <;> rfl
    · rintro ⟨rfl, h⟩
      refine ⟨⟨k, rfl, ?_⟩, decide_eq_true h⟩
      split <;> rfl
  · set h := solveProj s.W kap sweeps v (fun _ => 0) with hh
    by_cases hz : ∑ k, h k = 0
    · have h0 : ∀ k, h k = 0 := fun k =>
        (Finset.sum_eq_zero_iff_of_nonneg fun k _ => hpos k).1 hz k (Finset.mem_univ k)
      simp only [hz, ne_eq, not_true_eq_false, and_false, if_false]
      rw [List.filter_eq_nil_iff.2]
      · simp
      · intro x hx hc
        obtain ⟨k, _, rfl⟩ := List.mem_map.1 hx
        have h1 := of_decide_eq_true hc
        have h8 : (0 : ℝ) < 1 / 10 ^ 8 := by norm_num
        rw [h0 k] at h1
        linarith [le_max_right m (1 / 10 ^ 8)]
    · have hS : 0 < ∑ k, h k := lt_of_le_of_ne (Finset.sum_nonneg fun k _ => hpos k) (Ne.symm hz)
      simp only [hnorm, true_and, ne_eq, hz, not_false_eq_true, if_true]
      have hsub : ∀ (l : List (Fin n)),
          ((((l.map fun k => (k, h k / ∑ l, h l)).filter fun x => decide (max m (1 / 10 ^ 8) < x.2))).map Prod.snd).sum
            ≤ (l.map fun k => h k / ∑ l, h l).sum := by
        intro l
        induction l with
        | nil => simp
        | cons a l ih =>
          have ha : 0 ≤ h a / ∑ l, h l := div_nonneg (hpos a) hS.le
          rw [List.map_cons, List.map_cons, List.sum_cons, List.filter_cons]
          split
          · rw [List.map_cons, List.sum_cons]; linarith
          · linarith
      refine (hsub _).trans ?_
      rw [← List.ofFn_eq_map, List.sum_ofFn, ← Finset.sum_div]
      exact le_of_eq (div_self hS.ne')

/-! ## The hypotheses can be met -/

example : Feasible wEx := by
  constructor
  · intro i k
    unfold wEx
    split
    · split <;> norm_num
    · norm_num
  · intro k
    fin_cases k <;> simp [wEx, Fin.sum_univ_two] <;> norm_num

example : docLoss wEx (fun _ => 1) (solveProj (some wEx) 1 [[0, 1], [1, 0]] (fun _ => 1) fun _ => 0)
    ≤ docLoss wEx (fun _ => 1) fun _ => 0 :=
  (C92_representation_descends wEx _ 1 (by norm_num) (by norm_num) [[0, 1], [1, 0]] [] _ fun _ => le_rfl).2.1

example : (update 1 (State.new : State (Fin 2) (Fin 2)) [⟨[fun _ => 0], 0, wEx, [[0, 1]], 200⟩]).W = none :=
  C92_empty_documents_destroy 1 _ _ [] (by simp) rfl (by norm_num)

end Verif.Nmf
