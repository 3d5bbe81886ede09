import Verif.Wiki.MarkupProps

/-!
# C139: what has to precede the formatting of a table cell
-/

namespace Verif.Wiki

/-- **C139 (cells).** Formatting of a cell is only removed after one of: a line break and a space, two line breaks, two
spaces, any character but a line break and then a line break, any character but a line break and then a tab. -/
theorem C139_cell_before (before : List Char) :
    cellBefore before.reverse = true ↔ ∃ (rest : List Char) (x y : Char), before = rest ++ [x, y] ∧
      ((x = '\n' ∧ y = ' ') ∨ (x = '\n' ∧ y = '\n') ∨ (x = ' ' ∧ y = ' ') ∨ (x ≠ '\n' ∧ y = '\n') ∨
        (x ≠ '\n' ∧ y = '\t')) := by
  have key : ∀ p : List Char, cellBefore p = true ↔ ∃ (rest : List Char) (x y : Char), p = y :: x :: rest ∧
      ((x = '\n' ∧ y = ' ') ∨ (x = '\n' ∧ y = '\n') ∨ (x = ' ' ∧ y = ' ') ∨ (x ≠ '\n' ∧ y = '\n') ∨
        (x ≠ '\n' ∧ y = '\t')) := by
    intro p
    constructor
    · intro h
      unfold cellBefore at h
      split at h
      · next x rest => 
        refine ⟨rest, x, '\n', rfl, ?_⟩
        by_cases hx : x = '\n'
        · exact .inr (.inl ⟨hx, rfl⟩)
        · exact .inr (.inr (.inr (.inl ⟨hx, rfl⟩)))
      · next x rest =>
        refine ⟨rest, x, ' ', rfl, ?_⟩
        simp only [Bool.or_eq_true, decide_eq_true_eq] at h
        rcases h with h | h
        · exact .inl ⟨h, rfl⟩
        · exact .inr (.inr (.inl ⟨h, rfl⟩))
      · next x rest =>
        refine ⟨rest, x, '\t', rfl, ?_⟩
        exact .inr (.inr (.inr (.inr ⟨by simpa using h, rfl⟩)))
      · cases h
    · rintro ⟨rest, x, y, rfl, h⟩
      rcases h with ⟨rfl, rfl⟩ | ⟨rfl, rfl⟩ | ⟨rfl, rfl⟩ | ⟨h, rfl⟩ | ⟨h, rfl⟩
      · rfl
      · rfl
      · rfl
      · rfl
      · simpa [cellBefore] using h
  rw [key]
  constructor
  · rintro ⟨rest, x, y, h, h'⟩
    refine ⟨rest.reverse, x, y, ?_, h'⟩
    have := congrArg List.reverse h
    simpa using this
  · rintro ⟨rest, x, y, h, h'⟩
    exact ⟨rest.reverse, x, y, by rw [h]; simp, h'⟩

example : cellBefore "text\t".toList.reverse = true ∧ cellBefore "text\n\t".toList.reverse = false := by decide +kernel

end Verif.Wiki
