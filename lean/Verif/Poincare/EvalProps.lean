import Verif.Poincare.EvalModel
import Mathlib.Tactic.Linarith
import Mathlib.Tactic.Positivity
import Mathlib.Algebra.BigOperators.Group.List.Basic
import Mathlib.Algebra.Order.BigOperators.Group.List

/-!
# C78: evaluation of a Poincaré embedding
-/

namespace Verif.Poincare

variable {R : Type} [LinearOrder R]

/-- The number of nodes that are not excluded and strictly nearer than `p`. -/
def closer (n : Nat) (d : Nat → R) (excluded : List Nat) (p : Nat) : Nat :=
  ((List.range n).filter fun j => decide (j ∉ excluded ∧ d j < d p)).length

theorem rankOf_eq (n : Nat) (d : Nat → R) (excluded : List Nat) (p : Nat) :
    rankOf n d excluded p = closer n d excluded p + 1 := by
  unfold rankOf closer
  rw [List.countP_eq_length_filter]
  congr 2
  apply List.filter_congr
  intro j _
  rw [Bool.eq_iff_iff]
  simp

/-- **C78.** The rank of a relation is one more than the number of unrelated nodes strictly nearer. -/
theorem C78_ranks (n : Nat) (d : Nat → R) (positive excluded : List Nat) :
    ranks n d positive excluded = positive.map fun p => closer n d excluded p + 1 := by
  unfold ranks
  apply List.map_congr_left
  intro p _
  exact rankOf_eq n d excluded p

theorem closer_mono (n : Nat) (d : Nat → R) (excluded : List Nat) (p q : Nat) (h : d p ≤ d q) :
    closer n d excluded p ≤ closer n d excluded q := by
  unfold closer
  rw [← List.countP_eq_length_filter, ← List.countP_eq_length_filter]
  apply List.countP_mono_left
  intro x _ hx
  simp only [decide_eq_true_eq] at hx ⊢
  exact ⟨hx.1, lt_of_lt_of_le hx.2 h⟩

theorem pySort_nat (l s : List Nat) (hp : s.Perm l) (hs : s.Pairwise fun a b => a ≤ b) :
    pySort (fun a b => decide (a ≤ b)) l = s := by
  apply sorted_perm_unique (le := fun a b => decide (a ≤ b))
    ((pySort_perm (fun a b => decide (a ≤ b)) l).trans hp.symm)
  · intro a _ b _ h1 h2
    simp only [decide_eq_true_eq] at h1 h2
    omega
  · apply pySort_sorted
    · intro a b; simp only [decide_eq_true_eq]; omega
    · intro a b c; simp only [decide_eq_true_eq]; omega
  · exact hs.imp fun h => by simpa using h

theorem avgPrecision_sorted (rs s : List Nat) (hp : s.Perm rs) (hs : s.Pairwise fun a b => a ≤ b) :
    avgPrecision rs = ((s.zipIdx.map fun q => ((q.2 + 1 : Nat) : ℚ) / ((q.1 + q.2 : Nat) : ℚ)).sum
      / (rs.length : ℚ)) := by
  unfold avgPrecision
  dsimp only
  rw [pySort_nat rs s hp hs]
  have h2 : pySort (fun a b => decide (a ≤ b)) (s.zipIdx.map fun p => p.1 + p.2)
      = s.zipIdx.map fun p => p.1 + p.2 := by
    apply pySort_nat _ _ (List.Perm.refl _)
    rw [List.pairwise_iff_getElem]
    intro i j hi hj hij
    simp only [List.length_map, List.length_zipIdx] at hi hj
    simp only [List.getElem_map, List.getElem_zipIdx]
    have := List.pairwise_iff_getElem.1 hs i j hi hj hij
    omega
  rw [h2]
  congr 2
  apply List.ext_getElem
  · simp
  · intro i h1 h2
    simp

/-- **C78.** The average precision is the mean, over the positive relations in order of distance, of the
precision at each of them: for the `k`-th of them, `k` divided by `k` plus the number of unrelated nodes
strictly nearer. -/
theorem C78_average_precision (n : Nat) (d : Nat → R) (positive excluded sorted : List Nat)
    (hp : sorted.Perm positive) (hs : sorted.Pairwise fun a b => d a ≤ d b) :
    avgPrecision (ranks n d positive excluded)
      = (sorted.zipIdx.map fun q => ((q.2 + 1 : Nat) : ℚ)
          / ((q.2 + 1 + closer n d excluded q.1 : Nat) : ℚ)).sum / (positive.length : ℚ) := by
  rw [C78_ranks]
  rw [avgPrecision_sorted _ (sorted.map fun p => closer n d excluded p + 1) (hp.map _)]
  · rw [List.length_map]
    congr 2
    apply List.ext_getElem
    · simp
    · intro i h1 h2
      simp only [List.getElem_map, List.getElem_zipIdx]
      congr 2
      omega
  · rw [List.pairwise_map]
    exact hs.imp fun h => by
      have := closer_mono n d excluded _ _ h
      omega

theorem sum_le_length (l : List ℚ) (h : ∀ x ∈ l, x ≤ 1) : l.sum ≤ (l.length : ℚ) := by
  induction l with
  | nil => simp
  | cons a l ih =>
    have h1 := ih fun x hx => h x (List.mem_cons_of_mem _ hx)
    have h2 := h a List.mem_cons_self
    rw [List.sum_cons, List.length_cons]
    push_cast
    linarith

theorem sum_eq_length (l : List ℚ) (h : ∀ x ∈ l, x ≤ 1) (he : l.sum = (l.length : ℚ)) :
    ∀ x ∈ l, x = 1 := by
  induction l with
  | nil => simp
  | cons a l ih =>
    have h1 := sum_le_length l fun x hx => h x (List.mem_cons_of_mem _ hx)
    have h2 := h a List.mem_cons_self
    rw [List.sum_cons, List.length_cons] at he
    push_cast at he
    intro x hx
    rcases List.mem_cons.1 hx with rfl | hx
    · linarith
    · exact ih (fun x hx => h x (List.mem_cons_of_mem _ hx)) (by linarith) x hx

/-- **C78.** The average precision lies in (0, 1], and it is 1 exactly when every positive relation has
rank 1, that is, when no unrelated node is strictly nearer than a related one. -/
theorem C78_average_precision_range (n : Nat) (d : Nat → R) (positive excluded : List Nat)
    (hne : positive ≠ []) :
    0 < avgPrecision (ranks n d positive excluded) ∧ avgPrecision (ranks n d positive excluded) ≤ 1 ∧
      (avgPrecision (ranks n d positive excluded) = 1 ↔
        ∀ p ∈ positive, ∀ j < n, j ∉ excluded → d p ≤ d j) := by
  let s := pySort (fun a b => decide (d a ≤ d b)) positive
  have hp : s.Perm positive := pySort_perm _ _
  have hs : s.Pairwise fun a b => d a ≤ d b := by
    have := pySort_sorted (le := fun a b => decide (d a ≤ d b))
      (by intro a b; simp only [decide_eq_true_eq]; exact le_total _ _)
      (by intro a b c; simp only [decide_eq_true_eq]; exact le_trans) positive
    exact this.imp fun h => by simpa using h
  rw [C78_average_precision n d positive excluded s hp hs]
  have hlen : s.length = positive.length := hp.length_eq
  have hpos : (0 : ℚ) < positive.length := by
    have : 0 < positive.length := List.length_pos_iff.2 hne
    exact_mod_cast this
  set l := s.zipIdx.map fun q => ((q.2 + 1 : Nat) : ℚ) / ((q.2 + 1 + closer n d excluded q.1 : Nat) : ℚ)
    with hl
  have hll : (l.length : ℚ) = positive.length := by
    rw [hl, List.length_map, List.length_zipIdx, hlen]
  have hle : ∀ x ∈ l, x ≤ 1 := by
    intro x hx
    obtain ⟨q, _, rfl⟩ := List.mem_map.1 hx
    rw [div_le_one (by positivity)]
    push_cast
    have : (0 : ℚ) ≤ (closer n d excluded q.1 : ℚ) := by positivity
    linarith
  have hgt : ∀ x ∈ l, 0 < x := by
    intro x hx
    obtain ⟨q, _, rfl⟩ := List.mem_map.1 hx
    positivity
  refine ⟨?_, ?_, ?_⟩
  · apply div_pos _ hpos
    apply List.sum_pos l hgt
    intro h0
    rw [h0] at hll
    simp at hll
    rw [← hll] at hpos
    exact lt_irrefl _ hpos
  · rw [div_le_one hpos, ← hll]
    exact sum_le_length l hle
  · rw [div_eq_one_iff_eq hpos.ne', ← hll]
    have hzero : (∀ p ∈ positive, ∀ j < n, j ∉ excluded → d p ≤ d j) ↔
        ∀ p ∈ s, closer n d excluded p = 0 := by
      constructor
      · intro h p hps
        unfold closer
        rw [List.length_eq_zero_iff, List.filter_eq_nil_iff]
        intro j hj hh
        simp only [decide_eq_true_eq] at hh
        exact absurd hh.2 (not_lt.2 (h p (hp.mem_iff.1 hps) j (List.mem_range.1 hj) hh.1))
      · intro h p hps j hj hje
        have h0 := h p (hp.mem_iff.2 hps)
        unfold closer at h0
        rw [List.length_eq_zero_iff, List.filter_eq_nil_iff] at h0
        by_contra hc
        exact h0 j (List.mem_range.2 hj) (by simpa using ⟨hje, not_le.1 hc⟩)
    rw [hzero]
    constructor
    · intro he p hps
      have h1 := sum_eq_length l hle he
      obtain ⟨i, hi, rfl⟩ := List.getElem_of_mem hps
      have h2 := h1 (((i + 1 : Nat) : ℚ) / ((i + 1 + closer n d excluded s[i] : Nat) : ℚ)) (by
        rw [hl, List.mem_map]
        refine ⟨(s[i], i), ?_, rfl⟩
        rw [List.mk_mem_zipIdx_iff_getElem?]
        exact List.getElem?_eq_getElem hi)
      rw [div_eq_one_iff_eq (by positivity)] at h2
      have h3 : i + 1 = i + 1 + closer n d excluded s[i] := by exact_mod_cast h2
      omega
    · intro h
      have h1 : ∀ x ∈ l, x = 1 := by
        intro x hx
        obtain ⟨q, hq, rfl⟩ := List.mem_map.1 hx
        have hqs : q.1 ∈ s := by
          have := List.mem_zipIdx_iff_getElem?.1 hq
          exact List.mem_of_getElem? this
        rw [h q.1 hqs, Nat.add_zero]
        apply div_self
        positivity
      rw [List.eq_replicate_of_mem h1]
      simp

/-- **C78.** The node evaluated counts as an unrelated node: unless it is related to itself, and if it is
nearer to itself than to its relations, no relation ever has rank 1 and the average precision never
is 1, however good the embedding. -/
theorem C78_self_counts (n : Nat) (d : Nat → R) (positive excluded : List Nat) (item : Nat)
    (hi : item < n) (hx : item ∉ excluded) (hne : positive ≠ [])
    (hd : ∀ p ∈ positive, d item < d p) :
    (∀ r ∈ ranks n d positive excluded, 2 ≤ r) ∧ avgPrecision (ranks n d positive excluded) < 1 := by
  constructor
  · intro r hr
    rw [C78_ranks, List.mem_map] at hr
    obtain ⟨p, hp, rfl⟩ := hr
    have : 0 < closer n d excluded p := by
      unfold closer
      apply List.length_pos_of_mem (a := item)
      rw [List.mem_filter, decide_eq_true_eq]
      exact ⟨List.mem_range.2 hi, hx, hd p hp⟩
    omega
  · obtain ⟨_, h2, h3⟩ := C78_average_precision_range n d positive excluded hne
    apply lt_of_le_of_ne h2
    intro he
    obtain ⟨p, hp⟩ := List.exists_mem_of_ne_nil positive hne
    exact absurd (hd p hp) (not_lt.2 (h3.1 he p hp item hi hx))

/-- **C78.** With `max_n` the items evaluated are those with relations among the first `max_n`, and one
more: the first with relations after them.  Without, all with relations. -/
theorem C78_max_n (hasRelations : Nat → Bool) (m : Nat) (items : List Nat) :
    evaluated hasRelations (some m) 1 items
        = (items.take m).filter hasRelations ++ ((items.drop m).filter hasRelations).take 1 ∧
      evaluated hasRelations none 1 items = items.filter hasRelations := by
  constructor
  · have gen : ∀ (items : List Nat) (i : Nat), evaluated hasRelations (some m) i items
        = (items.take (m + 1 - i)).filter hasRelations
          ++ ((items.drop (m + 1 - i)).filter hasRelations).take 1 := by
      intro items
      induction items with
      | nil => intro i; simp [evaluated]
      | cons a items ih =>
        intro i
        rw [evaluated]
        by_cases hi : i > m
        · have h0 : m + 1 - i = 0 := by omega
          have h1 : m + 1 - (i + 1) = 0 := by omega
          rw [h0]
          rw [if_pos hi, ih (i + 1), h1]
          cases h : hasRelations a <;> simp [h]
        · have h0 : m + 1 - i = (m + 1 - (i + 1)) + 1 := by omega
          rw [h0, List.take_succ_cons, List.drop_succ_cons, if_neg hi, ih (i + 1)]
          cases h : hasRelations a <;> simp [h]
    have := gen items 1
    simpa using this
  · have gen : ∀ (items : List Nat) (i : Nat), evaluated hasRelations none i items
        = items.filter hasRelations := by
      intro items
      induction items with
      | nil => intro i; simp [evaluated]
      | cons a items ih =>
        intro i
        rw [evaluated]
        rw [ih]
        cases h : hasRelations a <;> simp [h]
    exact gen items 1

/-- Node 0, related to 2 and 3, with node 1 in between. -/
example : ranks 4 (fun j => [0, 2, 1, 3].getD j 0) [2, 3] [2, 3] = [2, 3] := by decide +kernel

example : avgPrecision [2, 3] = 1 / 2 := by decide +kernel

end Verif.Poincare
