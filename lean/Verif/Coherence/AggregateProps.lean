import Verif.Coherence.AggregateModel
import Mathlib.Algebra.Order.BigOperators.Group.List
import Mathlib.Tactic.Linarith
import Mathlib.Tactic.FieldSimp
import Mathlib.Tactic.Ring

/-!
# C171: the aggregated confirmation of a topic
-/

namespace Verif.Aggregate

/-- The form of the result: the mean alone, or a tuple of the mean, then the deviation if asked for, then the number of
    segments if asked for. -/
theorem C171_form (sims : List ℝ) :
    aggregate sims false false = .value (.num (mean sims)) ∧
    aggregate sims true false = .tuple [.num (mean sims), .num (std sims)] ∧
    aggregate sims false true = .tuple [.num (mean sims), .count sims.length] ∧
    aggregate sims true true = .tuple [.num (mean sims), .num (std sims), .count sims.length] :=
  ⟨rfl, rfl, rfl, rfl⟩

theorem mean_some {sims : List ℝ} (h : sims ≠ []) : mean sims = some (sims.sum / sims.length) := if_neg h

theorem length_pos' {sims : List ℝ} (h : sims ≠ []) : (0 : ℝ) < sims.length := by
  exact_mod_cast List.length_pos_iff.2 h

theorem sum_dev (sims : List ℝ) (m : ℝ) :
    (sims.map fun x => (x - m) * (x - m)).sum = (sims.map fun x => x ^ 2).sum - 2 * m * sims.sum + sims.length * m ^ 2 := by
  induction sims with
  | nil => simp
  | cons x l ih =>
    rw [List.map_cons, List.sum_cons, ih, List.map_cons, List.sum_cons, List.sum_cons, List.length_cons]
    push_cast
    ring

/-- For at least one segment: the mean is the number that the segments' values differ from by 0 in total, it lies between
    any bounds of the values, and the square of the deviation is the mean of the squares less the square of the mean. -/
theorem C171_mean (sims : List ℝ) (h : sims ≠ []) :
    ∃ m s, mean sims = some m ∧ std sims = some s ∧ (sims.map fun x => x - m).sum = 0 ∧
      (∀ lo hi, (∀ x ∈ sims, lo ≤ x ∧ x ≤ hi) → lo ≤ m ∧ m ≤ hi ∧ s ≤ hi - lo) ∧
      0 ≤ s ∧ s ^ 2 = (sims.map fun x => x ^ 2).sum / sims.length - m ^ 2 ∧
      (s = 0 ↔ ∀ x ∈ sims, x = m) := by
  have hl := length_pos' h
  set m := sims.sum / sims.length with hm
  have hms : sims.sum = sims.length * m := by rw [hm]; field_simp
  have hne : (sims.map fun x => (x - m) * (x - m)) ≠ [] := by simpa using h
  set v := (sims.map fun x => (x - m) * (x - m)).sum / sims.length with hv
  have hstd : std sims = some (Real.sqrt v) := by
    unfold std
    rw [mean_some h]
    change Option.map Real.sqrt (mean (sims.map fun x => (x - m) * (x - m))) = _
    rw [mean_some hne, List.length_map]
    rfl
  have hsum0 : 0 ≤ (sims.map fun x => (x - m) * (x - m)).sum := List.sum_nonneg fun y hy => by
    obtain ⟨x, -, rfl⟩ := List.mem_map.1 hy
    exact mul_self_nonneg _
  have hv0 : 0 ≤ v := div_nonneg hsum0 hl.le
  have bounds : ∀ (l : List ℝ) (lo hi : ℝ), (∀ x ∈ l, lo ≤ x ∧ x ≤ hi) → l.length * lo ≤ l.sum ∧ l.sum ≤ l.length * hi := by
    intro l lo hi
    induction l with
    | nil => intro _; simp
    | cons x l ih =>
      intro hx
      obtain ⟨a, b⟩ := ih fun y hy => hx y (List.mem_cons_of_mem _ hy)
      obtain ⟨c, d⟩ := hx x List.mem_cons_self
      rw [List.sum_cons, List.length_cons]
      push_cast
      constructor <;> linarith
  refine ⟨m, Real.sqrt v, mean_some h, hstd, ?_, fun lo hi hb => ?_, Real.sqrt_nonneg _, ?_, ?_⟩
  · have : ∀ l : List ℝ, (l.map fun x => x - m).sum = l.sum - l.length * m := by
      intro l
      induction l with
      | nil => simp
      | cons x l ih => rw [List.map_cons, List.sum_cons, ih, List.sum_cons, List.length_cons]; push_cast; ring
    rw [this, hms, sub_self]
  · obtain ⟨a, b⟩ := bounds sims lo hi hb
    have m1 : lo ≤ m := by rw [hm, le_div_iff₀ hl]; linarith
    have m2 : m ≤ hi := by rw [hm, div_le_iff₀ hl]; linarith
    refine ⟨m1, m2, ?_⟩
    have hd : 0 ≤ hi - lo := by linarith
    refine Real.sqrt_le_iff.2 ⟨hd, ?_⟩
    rw [hv, div_le_iff₀ hl]
    have := (bounds (sims.map fun x => (x - m) * (x - m)) 0 ((hi - lo) ^ 2) fun y hy => by
      obtain ⟨x, hx, rfl⟩ := List.mem_map.1 hy
      obtain ⟨c, d⟩ := hb x hx
      exact ⟨mul_self_nonneg _, by nlinarith⟩).2
    rw [List.length_map] at this
    linarith
  · rw [Real.sq_sqrt hv0, hv, sum_dev, hms]
    field_simp
    ring
  · rw [Real.sqrt_eq_zero hv0, hv, div_eq_zero_iff, or_iff_left hl.ne']
    constructor
    · intro h0 x hx
      have key : ∀ l : List ℝ, (l.map fun x => (x - m) * (x - m)).sum = 0 → ∀ x ∈ l, x = m := by
        intro l
        induction l with
        | nil => simp
        | cons y l ih =>
          intro hs x hx
          rw [List.map_cons, List.sum_cons] at hs
          have hn : 0 ≤ (l.map fun x => (x - m) * (x - m)).sum := List.sum_nonneg fun z hz => by
            obtain ⟨w, -, rfl⟩ := List.mem_map.1 hz
            exact mul_self_nonneg _
          have hy : (y - m) * (y - m) = 0 := le_antisymm (by linarith) (mul_self_nonneg _)
          rcases List.mem_cons.1 hx with rfl | hx
          · linarith [mul_self_eq_zero.1 hy]
          · exact ih (by linarith) x hx
      exact key sims h0 x hx
    · intro hall
      refine List.sum_eq_zero fun y hy => ?_
      obtain ⟨x, hx, rfl⟩ := List.mem_map.1 hy
      rw [hall x hx, sub_self, mul_zero]

/-- The order of the segments does not matter. -/
theorem C171_order {a b : List ℝ} (h : a.Perm b) (withStd withSupport : Bool) :
    aggregate a withStd withSupport = aggregate b withStd withSupport := by
  have hmean : ∀ {a b : List ℝ}, a.Perm b → mean a = mean b := by
    intro a b h
    unfold mean
    rw [h.sum_eq, h.length_eq]
    by_cases hb : b = []
    · rw [if_pos hb, if_pos (by rw [hb] at h; exact h.eq_nil)]
    · rw [if_neg hb, if_neg (by intro ha; rw [ha] at h; exact hb h.symm.eq_nil)]
  have hstd : std a = std b := by
    unfold std
    rw [hmean h]
    cases mean b with
    | none => rfl
    | some m => simp only; rw [hmean (h.map _)]
  unfold aggregate
  rw [hmean h, hstd, h.length_eq]

/-- Without segments the mean and the deviation are not numbers; the support is 0. -/
theorem C171_empty : aggregate [] true true = .tuple [.num none, .num none, .count 0] := by
  rw [(C171_form []).2.2.2]
  simp [mean, std]

/-- the example of the documentation -/
example : mean [0.2, 0.5, 1, 0.05] = some 0.4375 := by
  rw [mean_some (by simp)]
  norm_num

end Verif.Aggregate
