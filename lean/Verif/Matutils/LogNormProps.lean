import Verif.Matutils.LogNormModel
import Verif.Matutils.PsiProps

/-!
# C128: `ret_log_normalize_vec`
-/

namespace Verif.PsiNum

open Real

theorem sum_exp_pos (x : ℝ) (xs : List ℝ) : 0 < ((x :: xs).map exp).sum := by
  rw [List.map_cons, List.sum_cons]
  have : 0 ≤ (xs.map exp).sum := List.sum_nonneg (by
    intro y hy
    obtain ⟨z, _, rfl⟩ := List.mem_map.1 hy
    exact (exp_pos z).le)
  have := exp_pos x
  linarith

theorem sum_exp_shift (l : List ℝ) (s : ℝ) : ((l.map fun a => a + s).map exp).sum = (l.map exp).sum * exp s := by
  rw [List.map_map, ← List.sum_map_mul_right]
  congr 1
  refine List.map_congr_left fun a _ => ?_
  simp [exp_add]

theorem logNorm_eq (l : List ℝ) (h : l ≠ []) : logNorm l = some (log (l.map exp).sum) := by
  cases l with
  | nil => exact absurd rfl h
  | cons x xs =>
    simp only [logNorm, shifted]
    rw [sum_exp_shift, log_mul (sum_exp_pos x xs).ne' (exp_pos _).ne', log_exp]
    congr 1
    ring

theorem sum_exp_normal (l : List ℝ) (h : l ≠ []) :
    ((l.map fun a => a - log (l.map exp).sum).map exp).sum = 1 := by
  cases l with
  | nil => exact absurd rfl h
  | cons x xs =>
    have hp := sum_exp_pos x xs
    generalize hs : ((x :: xs).map exp).sum = s at *
    have := sum_exp_shift (x :: xs) (-log s)
    simp only [← sub_eq_add_neg] at this
    rw [this, hs, exp_neg, exp_log hp]
    exact mul_inv_cancel₀ hp.ne'

/-- **C128.** A vector: the norm is the logarithm of the sum of the exponentials, which is subtracted from every number, so
that the exponentials then sum to 1; whatever the axis. The argument itself is changed. An empty vector is refused. -/
theorem C128_lognorm_vector (v : List ℝ) (axis : ℤ) :
    (v = [] → retLogNormalize (.vec v) axis = none) ∧
    (v ≠ [] → ∃ out, retLogNormalize (.vec v) axis = some ⟨.vec out, [log (v.map exp).sum], .vec out⟩ ∧
      out = v.map (fun a => a - log (v.map exp).sum) ∧ (out.map exp).sum = 1) := by
  refine ⟨fun h => by rw [h]; rfl, fun h => ⟨_, ?_, rfl, sum_exp_normal v h⟩⟩
  unfold retLogNormalize
  simp only [logNorm_eq v h, Option.map_some]

theorem rowNorms_eq {r c : ℕ} (a : Fin r → Fin c → ℝ) (h : r = 0 ∨ c ≠ 0) :
    rowNorms r c a = some fun i => log (∑ j, exp (a i j)) := by
  unfold rowNorms
  rw [if_neg (by rintro ⟨h1, h2⟩; rcases h with h | h; exacts [h1 h, h h2])]
  congr 1
  funext i
  have hc : c ≠ 0 := h.resolve_left (fun e => by subst e; exact i.elim0)
  rw [logNorm_eq _ (fun e => hc (by simpa using congrArg List.length e)), Option.getD_some, List.map_ofFn, List.sum_ofFn]
  rfl

theorem sum_exp_log {c : ℕ} (hc : c ≠ 0) (f : Fin c → ℝ) : ∑ j, exp (f j - log (∑ k, exp (f k))) = 1 := by
  have hp : 0 < ∑ k, exp (f k) := Finset.sum_pos (fun k _ => exp_pos _) ⟨⟨0, Nat.pos_of_ne_zero hc⟩, Finset.mem_univ _⟩
  simp only [exp_sub, exp_log hp]
  rw [← Finset.sum_div, div_self hp.ne']

/-- **C128.** A matrix and axis 1: every row is normalised on its own, its exponentials then sum to 1, and the argument is
left as it was. -/
theorem C128_lognorm_rows (r c : ℕ) (a : Fin r → Fin c → ℝ) (h : r = 0 ∨ c ≠ 0) :
    ∃ out, retLogNormalize (.mat r c a) 1
        = some ⟨.mat r c out, List.ofFn fun i => log (∑ j, exp (a i j)), .mat r c a⟩ ∧
      ∀ i, (∀ j, out i j = a i j - log (∑ k, exp (a i k))) ∧ ∑ j, exp (out i j) = 1 := by
  refine ⟨fun i j => a i j - log (∑ k, exp (a i k)), ?_, fun i => ⟨fun _ => rfl, ?_⟩⟩
  · unfold retLogNormalize
    simp only [if_true, rowNorms_eq a h, Option.map_some]
  · exact sum_exp_log (h.resolve_left (fun e => by subst e; exact i.elim0)) (a i)

/-- **C128.** A matrix and axis 0: the same for the columns. -/
theorem C128_lognorm_columns (r c : ℕ) (a : Fin r → Fin c → ℝ) (h : c = 0 ∨ r ≠ 0) :
    ∃ out, retLogNormalize (.mat r c a) 0
        = some ⟨.mat r c out, List.ofFn fun j => log (∑ i, exp (a i j)), .mat r c a⟩ ∧
      ∀ j, (∀ i, out i j = a i j - log (∑ k, exp (a k j))) ∧ ∑ i, exp (out i j) = 1 := by
  refine ⟨fun i j => a i j - log (∑ k, exp (a k j)), ?_, fun j => ⟨fun _ => rfl, ?_⟩⟩
  · unfold retLogNormalize
    simp only [if_neg (show ¬ (0 : ℤ) = 1 by decide), if_true, rowNorms_eq (fun j i => a i j) h, Option.map_some]
  · exact sum_exp_log (h.resolve_left (fun e => by subst e; exact j.elim0)) fun i => a i j

/-- **C128.** Any other axis, and rows or columns without numbers, are refused. -/
theorem C128_lognorm_refused (r c : ℕ) (a : Fin r → Fin c → ℝ) :
    (∀ axis : ℤ, axis ≠ 0 → axis ≠ 1 → retLogNormalize (.mat r c a) axis = none) ∧
    (r ≠ 0 → c = 0 → retLogNormalize (.mat r c a) 1 = none) ∧
    (c ≠ 0 → r = 0 → retLogNormalize (.mat r c a) 0 = none) := by
  refine ⟨fun axis h0 h1 => ?_, fun h1 h2 => ?_, fun h1 h2 => ?_⟩
  · unfold retLogNormalize
    simp only [if_neg h0, if_neg h1]
  · unfold retLogNormalize rowNorms
    simp only [if_true, if_pos (And.intro h1 h2), Option.map_none]
  · unfold retLogNormalize rowNorms
    simp only [if_neg (show ¬ (0 : ℤ) = 1 by decide), if_true, if_pos (And.intro h1 h2), Option.map_none]

/-- **C128.** The exponentials neither overflow nor vanish: for `n` numbers the exponents are at most `100 - log (n + 1)`, which
one of them is, and the sum lies between `e¹⁰⁰ / (n + 1)` and `e¹⁰⁰`, however large or small the numbers. -/
theorem C128_lognorm_safe (x : ℝ) (xs : List ℝ) :
    (∀ e ∈ shifted x xs, e ≤ 100 - log ((xs.length : ℝ) + 2)) ∧ (100 - log ((xs.length : ℝ) + 2)) ∈ shifted x xs ∧
    exp 100 / ((xs.length : ℝ) + 2) ≤ ((shifted x xs).map exp).sum ∧ ((shifted x xs).map exp).sum < exp 100 := by
  have hn : (0 : ℝ) < (xs.length : ℝ) + 2 := by positivity
  have hlen : (((x :: xs).length : ℝ) + 1) = (xs.length : ℝ) + 2 := by rw [List.length_cons]; push_cast; ring
  obtain ⟨h1, h2, h3⟩ := maxOf_ge x xs
  have hle : ∀ e ∈ shifted x xs, e ≤ 100 - log ((xs.length : ℝ) + 2) := by
    intro e he
    obtain ⟨a, ha, rfl⟩ := List.mem_map.1 he
    unfold logShift
    rw [hlen]
    rcases List.mem_cons.1 ha with rfl | ha
    · linarith
    · linarith [h2 a ha]
  have hmem : (100 - log ((xs.length : ℝ) + 2)) ∈ shifted x xs := by
    refine List.mem_map.2 ⟨maxOf x xs, ?_, ?_⟩
    · rcases h3 with h3 | h3
      · rw [h3]; exact List.mem_cons_self
      · exact List.mem_cons_of_mem _ h3
    · unfold logShift; rw [hlen]; ring
  have hexp : exp (100 - log ((xs.length : ℝ) + 2)) = exp 100 / ((xs.length : ℝ) + 2) := by
    rw [exp_sub, exp_log hn]
  refine ⟨hle, hmem, ?_, ?_⟩
  · rw [← hexp]
    apply List.single_le_sum
    · intro y hy
      obtain ⟨z, _, rfl⟩ := List.mem_map.1 hy
      exact (exp_pos z).le
    · exact List.mem_map.2 ⟨_, hmem, rfl⟩
  · have := List.sum_le_card_nsmul ((shifted x xs).map exp) (exp 100 / ((xs.length : ℝ) + 2)) (by
      intro y hy
      obtain ⟨z, hz, rfl⟩ := List.mem_map.1 hy
      rw [← hexp]
      exact exp_le_exp.2 (hle z hz))
    refine lt_of_le_of_lt this ?_
    have hl : ((shifted x xs).map exp).length = xs.length + 1 := by simp [shifted]
    rw [hl, nsmul_eq_mul, mul_div_assoc', div_lt_iff₀ hn]
    push_cast
    nlinarith [exp_pos 100]

/-- Non-vacuity: a matrix of numbers whose exponentials overflow as floats. -/
example : ∃ out, retLogNormalize (.mat 2 3 fun i j => 1000 * (i.val : ℝ) + j.val) 1
    = some ⟨.mat 2 3 out, List.ofFn fun i : Fin 2 => log (∑ j : Fin 3, exp (1000 * (i.val : ℝ) + j.val)),
        .mat 2 3 fun i j => 1000 * (i.val : ℝ) + j.val⟩ :=
  let ⟨out, h, _⟩ := C128_lognorm_rows 2 3 (fun i j => 1000 * (i.val : ℝ) + j.val) (Or.inr (by decide))
  ⟨out, h⟩

end Verif.PsiNum
