import Mathlib.Tactic.Linarith
import Mathlib.Tactic.FieldSimp
import Mathlib.Tactic.Ring
import Mathlib.Tactic.Positivity
import Mathlib.Algebra.BigOperators.Intervals
import Verif.LdaSeq.Model

/-!
# The posterior of a topic chain (C99)

Specification: a word's natural parameter is a random walk `m 0, ..., m T` with a Gaussian start of
variance `1000 * chain_variance` around 0 and steps of variance `chain_variance`; `m (t + 1)` is observed as `obs t`
with variance `obs_variance`.  Twice the negative log density of a path is `energy`.
-/

namespace Verif.LdaSeq

open Finset

/-- Twice the negative log density of the path `m` given the observations, up to a constant. -/
noncomputable def energy (ov cv : ℝ) (obs : ℕ → ℝ) (T : ℕ) (m : ℕ → ℝ) : ℝ :=
  m 0 ^ 2 / (1000 * cv) + ∑ t ∈ range T, ((m (t + 1) - m t) ^ 2 / cv + (obs t - m (t + 1)) ^ 2 / ov)

variable {ov cv : ℝ}

theorem fwdVar_succ (hov : 0 < ov) (t : ℕ) :
    fwdVar ov cv (t + 1) = ov / (fwdVar ov cv t + cv + ov) * (fwdVar ov cv t + cv) := by
  rw [fwdVar, if_pos hov.ne']

theorem fwdVar_pos (hov : 0 < ov) (hcv : 0 < cv) (t : ℕ) : 0 < fwdVar ov cv t := by
  induction t with
  | zero => rw [fwdVar]; positivity
  | succ t ih => rw [fwdVar_succ hov]; positivity

theorem postVar_last (T : ℕ) : postVar ov cv T T = fwdVar ov cv T := by
  rw [postVar]; simp

theorem postVar_step (hov : 0 < ov) (hcv : 0 < cv) {T t : ℕ} (h : t < T) :
    postVar ov cv T t = (fwdVar ov cv t / (fwdVar ov cv t + cv)) ^ 2 * postVar ov cv T (t + 1) +
      fwdVar ov cv t * cv / (fwdVar ov cv t + cv) := by
  have hp := fwdVar_pos hov hcv t
  rw [postVar, if_pos h]
  simp only [hp, if_true]
  field_simp
  ring

theorem postMean_last (obs : ℕ → ℝ) (T : ℕ) : postMean ov cv obs T T = fwdMean ov cv obs T := by
  rw [postMean]; simp

theorem postMean_step (hcv : 0 < cv) (obs : ℕ → ℝ) {T t : ℕ} (h : t < T) :
    postMean ov cv obs T t = cv / (fwdVar ov cv t + cv) * fwdMean ov cv obs t +
      (1 - cv / (fwdVar ov cv t + cv)) * postMean ov cv obs T (t + 1) := by
  rw [postMean, if_pos h]
  simp only [hcv.ne', if_false]

theorem down_induction {P : ℕ → Prop} {T : ℕ} (h0 : P T) (h1 : ∀ t < T, P (t + 1) → P t) :
    ∀ t ≤ T, P t := by
  intro t ht
  obtain ⟨d, rfl⟩ := Nat.exists_eq_add_of_le ht
  induction d generalizing t with
  | zero => exact h0
  | succ d ih =>
    apply h1 t (by omega)
    have e : t + (d + 1) = t + 1 + d := by omega
    exact ih (t + 1) (by rw [← e]; exact h0) (by rw [← e]; exact h1) (by omega)

/-- **C99**.  The posterior variances of a chain are positive, never above the forward variances, and the forward
variances after the first slice are below the observation variance. -/
theorem C99_variances (hov : 0 < ov) (hcv : 0 < cv) (T : ℕ) :
    (∀ t ≤ T, 0 < postVar ov cv T t ∧ postVar ov cv T t ≤ fwdVar ov cv t) ∧
    (∀ t < T, postVar ov cv T t < fwdVar ov cv t) ∧ ∀ t, fwdVar ov cv (t + 1) < ov := by
  have hf := fwdVar_pos hov hcv
  have hs : ∀ t, fwdVar ov cv (t + 1) < fwdVar ov cv t + cv := by
    intro t
    rw [fwdVar_succ hov, div_mul_eq_mul_div, div_lt_iff₀ (by have := hf t; positivity)]
    have := hf t
    nlinarith [mul_pos this this, mul_pos this hcv]
  have strict : ∀ t < T, postVar ov cv T (t + 1) ≤ fwdVar ov cv (t + 1) → postVar ov cv T t < fwdVar ov cv t := by
    intro t ht h
    rw [postVar_step hov hcv ht]
    have h2 : postVar ov cv T (t + 1) < fwdVar ov cv t + cv := lt_of_le_of_lt h (hs t)
    have hp := hf t
    set P := fwdVar ov cv t
    have h3 : (P / (P + cv)) ^ 2 * postVar ov cv T (t + 1) < (P / (P + cv)) ^ 2 * (P + cv) :=
      mul_lt_mul_of_pos_left h2 (by positivity)
    have h4 : (P / (P + cv)) ^ 2 * (P + cv) + P * cv / (P + cv) = P := by field_simp
    linarith
  have main : ∀ t ≤ T, 0 < postVar ov cv T t ∧ postVar ov cv T t ≤ fwdVar ov cv t := by
    refine down_induction ?_ ?_
    · rw [postVar_last]; exact ⟨hf T, le_refl _⟩
    · intro t ht ih
      refine ⟨?_, (strict t ht ih.2).le⟩
      rw [postVar_step hov hcv ht]
      have := hf t
      have := ih.1
      positivity
  refine ⟨main, fun t ht => strict t ht (main (t + 1) ht).2, fun t => ?_⟩
  rw [fwdVar_succ hov, div_mul_eq_mul_div, div_lt_iff₀ (by have := hf t; positivity)]
  have := hf t
  nlinarith

/-- The gain of the backward pass. -/
noncomputable def gain (ov cv : ℝ) (t : ℕ) : ℝ := fwdVar ov cv t / (fwdVar ov cv t + cv)

/-- The variance of the backward pass. -/
noncomputable def backVar (ov cv : ℝ) (t : ℕ) : ℝ := fwdVar ov cv t * cv / (fwdVar ov cv t + cv)

theorem energy_forward (hov : 0 < ov) (hcv : 0 < cv) (obs m : ℕ → ℝ) (T : ℕ) :
    energy ov cv obs T m = (m T - fwdMean ov cv obs T) ^ 2 / fwdVar ov cv T +
      ∑ t ∈ range T, (m t - (cv / (fwdVar ov cv t + cv) * fwdMean ov cv obs t +
        (1 - cv / (fwdVar ov cv t + cv)) * m (t + 1))) ^ 2 / backVar ov cv t +
      ∑ t ∈ range T, (obs t - fwdMean ov cv obs t) ^ 2 / (fwdVar ov cv t + cv + ov) := by
  induction T with
  | zero => simp [energy, fwdMean, fwdVar, mul_comm]
  | succ T ih =>
    have e : energy ov cv obs (T + 1) m = energy ov cv obs T m +
        ((m (T + 1) - m T) ^ 2 / cv + (obs T - m (T + 1)) ^ 2 / ov) := by
      simp only [energy, sum_range_succ]; ring
    rw [e, ih, sum_range_succ, sum_range_succ]
    have hp := fwdVar_pos hov hcv T
    rw [fwdVar_succ hov, show fwdMean ov cv obs (T + 1) = ov / (fwdVar ov cv T + cv + ov) * fwdMean ov cv obs T +
      (1 - ov / (fwdVar ov cv T + cv + ov)) * obs T from rfl, backVar]
    generalize fwdVar ov cv T = P at *
    generalize fwdMean ov cv obs T = f
    generalize m T = a
    generalize m (T + 1) = b
    generalize obs T = o
    have h1 : (a - f) ^ 2 / P + (b - a) ^ 2 / cv =
        (b - f) ^ 2 / (P + cv) + (a - (cv / (P + cv) * f + (1 - cv / (P + cv)) * b)) ^ 2 / (P * cv / (P + cv)) := by
      field_simp
      ring
    have h2 : (b - f) ^ 2 / (P + cv) + (o - b) ^ 2 / ov =
        (b - (ov / (P + cv + ov) * f + (1 - ov / (P + cv + ov)) * o)) ^ 2 / (ov / (P + cv + ov) * (P + cv)) +
          (o - f) ^ 2 / (P + cv + ov) := by
      field_simp
      ring
    linarith

/-- How far a path is from the posterior mean. -/
theorem energy_split (hov : 0 < ov) (hcv : 0 < cv) (obs m : ℕ → ℝ) (T : ℕ) :
    energy ov cv obs T m = energy ov cv obs T (postMean ov cv obs T) +
      ((m T - postMean ov cv obs T T) ^ 2 / fwdVar ov cv T +
      ∑ t ∈ range T, ((m t - postMean ov cv obs T t) -
        gain ov cv t * (m (t + 1) - postMean ov cv obs T (t + 1))) ^ 2 / backVar ov cv t) := by
  rw [energy_forward hov hcv obs m T, energy_forward hov hcv obs (postMean ov cv obs T) T, postMean_last]
  have z : ∑ t ∈ range T, (postMean ov cv obs T t - (cv / (fwdVar ov cv t + cv) * fwdMean ov cv obs t +
      (1 - cv / (fwdVar ov cv t + cv)) * postMean ov cv obs T (t + 1))) ^ 2 / backVar ov cv t = 0 := by
    refine sum_eq_zero fun t ht => ?_
    rw [postMean_step hcv obs (mem_range.1 ht)]
    simp
  have e : ∑ t ∈ range T, (m t - (cv / (fwdVar ov cv t + cv) * fwdMean ov cv obs t +
        (1 - cv / (fwdVar ov cv t + cv)) * m (t + 1))) ^ 2 / backVar ov cv t =
      ∑ t ∈ range T, ((m t - postMean ov cv obs T t) -
        gain ov cv t * (m (t + 1) - postMean ov cv obs T (t + 1))) ^ 2 / backVar ov cv t := by
    refine sum_congr rfl fun t ht => ?_
    rw [postMean_step hcv obs (mem_range.1 ht)]
    have hp := fwdVar_pos hov hcv t
    have g : gain ov cv t = 1 - cv / (fwdVar ov cv t + cv) := by rw [gain]; field_simp; ring
    rw [g]
    congr 1
    ring
  rw [z, e]
  simp
  ring

theorem backVar_pos (hov : 0 < ov) (hcv : 0 < cv) (t : ℕ) : 0 < backVar ov cv t := by
  have := fwdVar_pos hov hcv t
  rw [backVar]; positivity

/-- **C99**.  The means a chain computes for a word are the most probable path of the random walk given the
word's observations, and the only one. -/
theorem C99_mean_is_the_most_probable_path (hov : 0 < ov) (hcv : 0 < cv) (obs : ℕ → ℝ) (T : ℕ) (m : ℕ → ℝ) :
    energy ov cv obs T (postMean ov cv obs T) ≤ energy ov cv obs T m ∧
    (energy ov cv obs T m = energy ov cv obs T (postMean ov cv obs T) → ∀ t ≤ T, m t = postMean ov cv obs T t) := by
  rw [energy_split hov hcv obs m T]
  have hn : ∀ t ∈ range T, 0 ≤ ((m t - postMean ov cv obs T t) -
        gain ov cv t * (m (t + 1) - postMean ov cv obs T (t + 1))) ^ 2 / backVar ov cv t :=
    fun t _ => div_nonneg (sq_nonneg _) (backVar_pos hov hcv t).le
  have h0 : 0 ≤ (m T - postMean ov cv obs T T) ^ 2 / fwdVar ov cv T :=
    div_nonneg (sq_nonneg _) (fwdVar_pos hov hcv T).le
  have h1 := sum_nonneg hn
  refine ⟨by linarith, fun h => ?_⟩
  have ha : (m T - postMean ov cv obs T T) ^ 2 / fwdVar ov cv T = 0 := by linarith
  have hb := (sum_eq_zero_iff_of_nonneg hn).1 (by linarith)
  refine down_induction ?_ ?_
  · rcases div_eq_zero_iff.1 ha with h | h
    · have := pow_eq_zero_iff (two_ne_zero) |>.1 h; linarith
    · exact absurd h (fwdVar_pos hov hcv T).ne'
  · intro t ht ih
    rcases div_eq_zero_iff.1 (hb t (mem_range.2 ht)) with h | h
    · have := pow_eq_zero_iff (two_ne_zero) |>.1 h
      rw [ih] at this
      linarith
    · exact absurd h (backVar_pos hov hcv t).ne'

theorem merge_bound {a v w d e : ℝ} (hv : 0 < v) (hw : 0 < w) :
    d ^ 2 / (a ^ 2 * v + w) ≤ e ^ 2 / v + (d - a * e) ^ 2 / w := by
  have hs : 0 < a ^ 2 * v + w := by positivity
  have : e ^ 2 / v + (d - a * e) ^ 2 / w - d ^ 2 / (a ^ 2 * v + w) =
      ((a ^ 2 * v + w) * e - a * v * d) ^ 2 / (v * w * (a ^ 2 * v + w)) := by
    field_simp
    ring
  have h2 : 0 ≤ ((a ^ 2 * v + w) * e - a * v * d) ^ 2 / (v * w * (a ^ 2 * v + w)) := by positivity
  linarith

theorem merge_eq {a v w d : ℝ} (hv : 0 < v) (hw : 0 < w) :
    (a * v * d / (a ^ 2 * v + w)) ^ 2 / v + (d - a * (a * v * d / (a ^ 2 * v + w))) ^ 2 / w =
      d ^ 2 / (a ^ 2 * v + w) := by
  have hs : 0 < a ^ 2 * v + w := by positivity
  field_simp
  ring

theorem tail_bound (hov : 0 < ov) (hcv : 0 < cv) (T : ℕ) (d : ℕ → ℝ) : ∀ t ≤ T,
    d t ^ 2 / postVar ov cv T t ≤ d T ^ 2 / fwdVar ov cv T +
      ∑ s ∈ Ico t T, (d s - gain ov cv s * d (s + 1)) ^ 2 / backVar ov cv s := by
  refine down_induction ?_ ?_
  · simp [postVar_last]
  · intro t ht ih
    rw [sum_eq_sum_Ico_succ_bot ht, postVar_step hov hcv ht]
    have := merge_bound (a := gain ov cv t) (d := d t) (e := d (t + 1))
      ((C99_variances hov hcv T).1 (t + 1) ht).1 (backVar_pos hov hcv t)
    simp only [gain, backVar] at *
    linarith

/-- The path that attains the bound: it leaves the slice `t` with distance `x`. -/
theorem tail_attained (hov : 0 < ov) (hcv : 0 < cv) (T : ℕ) : ∀ t ≤ T, ∀ x : ℝ, ∃ d : ℕ → ℝ, d t = x ∧
    d T ^ 2 / fwdVar ov cv T + ∑ s ∈ Ico t T, (d s - gain ov cv s * d (s + 1)) ^ 2 / backVar ov cv s =
      x ^ 2 / postVar ov cv T t := by
  refine down_induction ?_ ?_
  · intro x; exact ⟨fun _ => x, rfl, by simp [postVar_last]⟩
  · intro t ht ih x
    set v := postVar ov cv T (t + 1)
    obtain ⟨d, hd, he⟩ := ih (gain ov cv t * v * x / (gain ov cv t ^ 2 * v + backVar ov cv t))
    refine ⟨Function.update d t x, by simp, ?_⟩
    rw [sum_eq_sum_Ico_succ_bot ht, postVar_step hov hcv ht]
    have hc : ∑ s ∈ Ico (t + 1) T, (Function.update d t x s - gain ov cv s * Function.update d t x (s + 1)) ^ 2 /
        backVar ov cv s = ∑ s ∈ Ico (t + 1) T, (d s - gain ov cv s * d (s + 1)) ^ 2 / backVar ov cv s := by
      refine sum_congr rfl fun s hs => ?_
      have := (mem_Ico.1 hs).1
      rw [Function.update_of_ne (by omega), Function.update_of_ne (by omega)]
    rw [hc, Function.update_of_ne (by omega), Function.update_of_ne (by omega : t + 1 ≠ t), Function.update_self, hd]
    have := merge_eq (a := gain ov cv t) (d := x) ((C99_variances hov hcv T).1 (t + 1) ht).1 (backVar_pos hov hcv t)
    change _ = x ^ 2 / (gain ov cv t ^ 2 * v + backVar ov cv t)
    rw [← this]
    simp only [v] at *
    linarith

theorem head_attained (T t : ℕ) (ht : t ≤ T) (d : ℕ → ℝ) : ∃ e : ℕ → ℝ, (∀ s, t ≤ s → e s = d s) ∧
    ∑ s ∈ range t, (e s - gain ov cv s * e (s + 1)) ^ 2 / backVar ov cv s = 0 := by
  cases t with
  | zero => exact ⟨d, fun _ _ => rfl, by simp⟩
  | succ t =>
    -- the path runs down from `t + 1` without noise
    let e : ℕ → ℝ := fun s => if t + 1 ≤ s then d s else
      (∏ r ∈ Ico s (t + 1), gain ov cv r) * d (t + 1)
    refine ⟨e, fun s hs => if_pos hs, sum_eq_zero fun s hs => ?_⟩
    have hs' := mem_range.1 hs
    have e1 : e s = gain ov cv s * e (s + 1) := by
      simp only [e]
      rw [if_neg (by omega), prod_eq_prod_Ico_succ_bot (by omega)]
      by_cases h : t + 1 ≤ s + 1
      · have : s = t := by omega
        subst this
        simp
      · rw [if_neg h]; ring
    rw [e1]; simp

/-- **C99**.  The variances a chain computes are the posterior variances of the random walk: fixing the
parameter of slice `t` to `x` costs exactly `(x - mean)² / variance` of density, for the best choice of the rest of
the path. -/
theorem C99_variance_is_the_posterior_variance (hov : 0 < ov) (hcv : 0 < cv) (obs : ℕ → ℝ) (T t : ℕ) (ht : t ≤ T)
    (x : ℝ) :
    IsLeast {j | ∃ m : ℕ → ℝ, m t = x ∧ j = energy ov cv obs T m}
      (energy ov cv obs T (postMean ov cv obs T) + (x - postMean ov cv obs T t) ^ 2 / postVar ov cv T t) := by
  constructor
  · obtain ⟨d, hd, he⟩ := tail_attained hov hcv T t ht (x - postMean ov cv obs T t)
    obtain ⟨e, h1, h2⟩ := head_attained (ov := ov) (cv := cv) T t ht d
    refine ⟨fun s => postMean ov cv obs T s + e s, by simp only [h1 t (le_refl _), hd]; ring, ?_⟩
    rw [energy_split hov hcv obs (fun s => postMean ov cv obs T s + e s) T]
    simp only [add_sub_cancel_left]
    rw [← sum_range_add_sum_Ico _ ht, h2, ← he, h1 T ht, zero_add]
    congr 2
    refine sum_congr rfl fun s hs => ?_
    have := (mem_Ico.1 hs).1
    rw [h1 s this, h1 (s + 1) (by omega)]
  · rintro j ⟨m, hm, rfl⟩
    rw [energy_split hov hcv obs m T]
    have h1 := tail_bound hov hcv T (fun s => m s - postMean ov cv obs T s) t ht
    have h2 : 0 ≤ ∑ s ∈ range t, ((m s - postMean ov cv obs T s) -
        gain ov cv s * (m (s + 1) - postMean ov cv obs T (s + 1))) ^ 2 / backVar ov cv s :=
      sum_nonneg fun s _ => div_nonneg (sq_nonneg _) (backVar_pos hov hcv s).le
    rw [← sum_range_add_sum_Ico _ ht]
    simp only [hm] at h1
    linarith

/-- The forward pass is exact with the forward variances. -/
theorem fwdMean_update (hov : 0 < ov) (obs : ℕ → ℝ) (time : ℕ) (y : ℝ) (t : ℕ) :
    fwdMean ov cv (Function.update obs time (obs time + y)) t =
      fwdMean ov cv obs t + y * fwdDeriv ov cv (fwdVar ov cv) time t := by
  induction t with
  | zero => simp [fwdMean, fwdDeriv]
  | succ t ih =>
    simp only [fwdMean, fwdDeriv, hov, if_true, ih]
    by_cases h : time = t
    · subst h; simp; ring
    · rw [Function.update_of_ne (fun e => h e.symm), if_neg h]; ring

/-- **C99**.  The recursion for the derivative of the means by one observation is exact when it is run with the
forward variances. -/
theorem C99_derivative_with_forward_variances (hov : 0 < ov) (hcv : 0 < cv) (obs : ℕ → ℝ) (time T : ℕ) (y : ℝ) :
    ∀ t ≤ T, postMean ov cv (Function.update obs time (obs time + y)) T t =
      postMean ov cv obs T t + y * derivWith ov cv (fwdVar ov cv) time T t := by
  refine down_induction ?_ ?_
  · rw [postMean_last, postMean_last, derivWith, if_neg (lt_irrefl _)]
    exact fwdMean_update hov obs time y T
  · intro t ht ih
    rw [postMean_step hcv _ ht, postMean_step hcv _ ht, derivWith, if_pos ht, ih, fwdMean_update hov]
    simp only [hcv.ne', if_false]
    ring

/-- **C99** (finding).  The code runs it with the posterior variances: the derivative of the newest mean by the newest
observation, which the optimiser is given, is too small for every model. -/
theorem C99_derivative_is_wrong (hov : 0 < ov) (hcv : 0 < cv) (obs : ℕ → ℝ) (T : ℕ) (y : ℝ) (hy : 0 < y) :
    postMean ov cv obs (T + 1) (T + 1) + y * meanDeriv ov cv T (T + 1) (T + 1) <
      postMean ov cv (Function.update obs T (obs T + y)) (T + 1) (T + 1) := by
  rw [C99_derivative_with_forward_variances hov hcv obs T (T + 1) y _ (le_refl _)]
  have hz : ∀ fv : ℕ → ℝ, ∀ t ≤ T, fwdDeriv ov cv fv T t = 0 := by
    intro fv t ht
    induction t with
    | zero => rfl
    | succ t ih => rw [fwdDeriv, ih (by omega), if_neg (by omega : T ≠ t)]; simp
  have hd : ∀ fv : ℕ → ℝ, derivWith ov cv fv T (T + 1) (T + 1) = 1 - ov / (fv T + cv + ov) := by
    intro fv
    rw [derivWith, if_neg (lt_irrefl _), fwdDeriv, hz fv T (le_refl _)]
    simp [hov]
  rw [meanDeriv, hd, hd]
  have h1 := (C99_variances hov hcv (T + 1)).2.1 T (by omega)
  have h2 := ((C99_variances hov hcv (T + 1)).1 T (by omega)).1
  have h3 : ov / (fwdVar ov cv T + cv + ov) < ov / (postVar ov cv (T + 1) T + cv + ov) :=
    div_lt_div_of_pos_left hov (by positivity) (by linarith)
  nlinarith

end Verif.LdaSeq
