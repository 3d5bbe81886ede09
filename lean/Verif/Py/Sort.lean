/-!
# Python's `sorted`

A stable sort (insertion sort: structurally recursive, so it computes in the
kernel).  `le a b` is "a may stay before b".  Python's Timsort is stable, and all
stable sorts agree, so modelling `sorted` by insertion sort loses nothing.
-/

namespace Verif

variable {α : Type}

/-- insert `x` before the first element it does not have to follow -/
def insertSorted (le : α → α → Bool) (x : α) : List α → List α
  | [] => [x]
  | y :: ys => if le x y then x :: y :: ys else y :: insertSorted le x ys

/-- `sorted(l)` with comparison `le` (stable) -/
def pySort (le : α → α → Bool) : List α → List α
  | [] => []
  | x :: xs => insertSorted le x (pySort le xs)

theorem insertSorted_perm (le : α → α → Bool) (x : α) (l : List α) :
    (insertSorted le x l).Perm (x :: l) := by
  induction l with
  | nil => exact List.Perm.refl _
  | cons y ys ih =>
    unfold insertSorted
    split
    · exact List.Perm.refl _
    · exact (List.Perm.cons y ih).trans (List.Perm.swap x y ys)

theorem pySort_perm (le : α → α → Bool) (l : List α) : (pySort le l).Perm l := by
  induction l with
  | nil => exact List.Perm.refl _
  | cons x xs ih => exact (insertSorted_perm le x _).trans (List.Perm.cons x ih)

theorem mem_pySort {le : α → α → Bool} {l : List α} {x : α} : x ∈ pySort le l ↔ x ∈ l :=
  (pySort_perm le l).mem_iff

theorem length_pySort (le : α → α → Bool) (l : List α) : (pySort le l).length = l.length :=
  (pySort_perm le l).length_eq

theorem insertSorted_sorted {le : α → α → Bool}
    (total : ∀ a b, le a b = true ∨ le b a = true)
    (trans : ∀ a b c, le a b = true → le b c = true → le a c = true)
    (x : α) {l : List α} (h : l.Pairwise (fun a b => le a b = true)) :
    (insertSorted le x l).Pairwise (fun a b => le a b = true) := by
  induction l with
  | nil => simp [insertSorted]
  | cons y ys ih =>
    unfold insertSorted
    rw [List.pairwise_cons] at h
    split
    · rename_i hxy
      rw [List.pairwise_cons]
      refine ⟨?_, List.pairwise_cons.mpr h⟩
      intro z hz
      rcases List.mem_cons.mp hz with rfl | hz
      · exact hxy
      · exact trans _ _ _ hxy (h.1 z hz)
    · rename_i hxy
      have hyx : le y x = true := by
        rcases total x y with h' | h'
        · exact absurd h' hxy
        · exact h'
      rw [List.pairwise_cons]
      refine ⟨?_, ih h.2⟩
      intro z hz
      rcases List.mem_cons.mp ((insertSorted_perm le x ys).mem_iff.mp hz) with rfl | hz
      · exact hyx
      · exact h.1 z hz

theorem pySort_sorted {le : α → α → Bool}
    (total : ∀ a b, le a b = true ∨ le b a = true)
    (trans : ∀ a b c, le a b = true → le b c = true → le a c = true)
    (l : List α) : (pySort le l).Pairwise (fun a b => le a b = true) := by
  induction l with
  | nil => exact List.Pairwise.nil
  | cons x xs ih => exact insertSorted_sorted total trans x ih

/-- An already sorted list is returned unchanged (stability in its simplest form). -/
theorem pySort_of_sorted {le : α → α → Bool} {l : List α}
    (h : l.Pairwise (fun a b => le a b = true)) : pySort le l = l := by
  induction l with
  | nil => rfl
  | cons x xs ih =>
    rw [List.pairwise_cons] at h
    rw [pySort, ih h.2]
    cases xs with
    | nil => rfl
    | cons y ys => simp [insertSorted, h.1 y (by simp)]

/-- Stability: elements that are mutually `le` keep their relative order, i.e. the sublist of
elements satisfying `p` is unchanged when any two elements satisfying `p` are `le` both ways. -/
theorem filter_insertSorted {le : α → α → Bool} (p : α → Bool) (x : α) (l : List α)
    (hp : ∀ a b, p a = true → p b = true → le a b = true) :
    (insertSorted le x l).filter p = (x :: l).filter p := by
  induction l with
  | nil => rfl
  | cons y ys ih =>
    unfold insertSorted
    split
    · rfl
    · rename_i hxy
      rw [List.filter_cons, ih]
      by_cases hx : p x = true <;> by_cases hy : p y = true
      · exact absurd (hp x y hx hy) hxy
      · simp [hx, hy]
      · simp [hx, hy]
      · simp [hx, hy]

theorem pySort_stable {le : α → α → Bool} (p : α → Bool) (l : List α)
    (hp : ∀ a b, p a = true → p b = true → le a b = true) :
    (pySort le l).filter p = l.filter p := by
  induction l with
  | nil => rfl
  | cons x xs ih =>
    rw [pySort, filter_insertSorted p x _ hp, List.filter_cons, List.filter_cons, ih]

/-- Uniqueness: two sorted permutations of one another under an antisymmetric order are equal. -/
theorem sorted_perm_unique {le : α → α → Bool}
    {l₁ l₂ : List α} (hp : l₁.Perm l₂)
    (antisymm : ∀ a ∈ l₁, ∀ b ∈ l₁, le a b = true → le b a = true → a = b)
    (h₁ : l₁.Pairwise (fun a b => le a b = true))
    (h₂ : l₂.Pairwise (fun a b => le a b = true)) : l₁ = l₂ := by
  exact List.Perm.eq_of_pairwise (le := fun a b => le a b = true)
    (fun a b ha hb h h' => antisymm a ha b (hp.mem_iff.mpr hb) h h') h₁ h₂ hp

end Verif
