import Verif.FastText.BatchModel

/-!
# C44: reading a matrix in batches is reading it at once
-/

namespace Verif.FastText.Batch

variable {α : Type}

theorem batches_spec (b count : Nat) (s : List α) :
    (s.length < count → batches b count s = none) ∧
    (count ≤ s.length → ∃ bs, batches b count s = some (bs, s.drop count) ∧ bs.flatten = s.take count ∧
      ∀ x ∈ bs, x.length ≤ b + 1) := by
  induction count using Nat.strongRecOn generalizing s with
  | ind count ih =>
    rw [batches]
    by_cases hc : b + 1 < count
    · rw [if_pos hc]
      unfold unpackFloats
      by_cases hl : b + 1 ≤ s.length
      · rw [if_pos hl]
        obtain ⟨h1, h2⟩ := ih (count - (b + 1)) (by omega) (s.drop (b + 1))
        rw [List.length_drop] at h1 h2
        refine ⟨fun h => ?_, fun h => ?_⟩
        · simp only [h1 (by omega)]
        · obtain ⟨bs, e, hf, hb⟩ := h2 (by omega)
          refine ⟨s.take (b + 1) :: bs, ?_, ?_, ?_⟩
          · simp only [e, List.drop_drop]
            rw [show b + 1 + (count - (b + 1)) = count by omega]
          · rw [List.flatten_cons, hf, ← List.take_add, show b + 1 + (count - (b + 1)) = count by omega]
          · intro x hx
            rcases List.mem_cons.1 hx with rfl | hx
            · rw [List.length_take]; omega
            · exact hb x hx
      · rw [if_neg hl]
        exact ⟨fun _ => rfl, fun h => absurd h (by omega)⟩
    · rw [if_neg hc]
      unfold unpackFloats
      by_cases hl : count ≤ s.length
      · rw [if_pos hl]
        refine ⟨fun h => absurd h (by omega), fun _ => ⟨[s.take count], rfl, by simp, ?_⟩⟩
        intro x hx
        rw [List.mem_singleton.1 hx, List.length_take]
        omega
      · rw [if_neg hl]
        exact ⟨fun _ => rfl, fun h => absurd h hl⟩

/-- C44: reading a matrix of a compressed file in batches gives, for every batch size and every number of values,
exactly the next values of the file and leaves it right behind them; a file with too few values is an error. -/
theorem C44_batched (b count : Nat) (s : List α) :
    fromFile b count s = if count ≤ s.length then some (s.take count, s.drop count) else none := by
  obtain ⟨h1, h2⟩ := batches_spec b count s
  unfold fromFile
  by_cases h : count ≤ s.length
  · obtain ⟨bs, e, hf, _⟩ := h2 h
    rw [if_pos h, e, Option.map_some, hf]
  · rw [if_neg h, h1 (by omega)]; rfl

/-- C44: no read asks for more values than one batch. -/
theorem C44_batch_size (b count : Nat) (s : List α) (bs : List (List α)) (rest : List α)
    (h : batches b count s = some (bs, rest)) : ∀ x ∈ bs, x.length ≤ b + 1 := by
  obtain ⟨h1, h2⟩ := batches_spec b count s
  by_cases hc : count ≤ s.length
  · obtain ⟨bs', e, _, hb⟩ := h2 hc
    rw [e] at h
    cases h
    exact hb
  · rw [h1 (by omega)] at h; cases h

/-- non-vacuity: seven values in batches of three, two left -/
example : batches 2 7 [1, 2, 3, 4, 5, 6, 7, 8, 9] = some ([[1, 2, 3], [4, 5, 6], [7]], [8, 9]) := by
  simp [batches, unpackFloats]

end Verif.FastText.Batch
