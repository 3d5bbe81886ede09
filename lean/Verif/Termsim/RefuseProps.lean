import Verif.Termsim.Props

/-!
# C56: when the matrix is refused
-/

namespace Verif.Termsim
open Verif
variable {K : Type} [Field K] [LinearOrder K] [IsStrictOrderedRing K]

/-- **C56** An empty dictionary is refused, and so is a TF-IDF model that does not know the last id, or knows a later
one. -/
theorem C56_refused (cfg : Cfg K) (index : Nat → Nat → List (Nat × K)) :
    (cfg.ids = [] → createSource cfg index = none) ∧
    (∀ d, cfg.idfs = some d → (cfg.ids.length - 1 ∉ d.keys ∨ ∃ k ∈ d.keys, cfg.ids.length ≤ k) → createSource cfg index = none) := by
  constructor
  · intro h
    simp [createSource, h]
  · intro d hd h
    unfold createSource
    split
    · rfl
    · rename_i hne
      have hpos : 0 < cfg.ids.length := by
        cases e : cfg.ids with
        | nil => simp [e] at hne
        | cons a l => simp
      have : columns cfg = none := by
        unfold columns
        rw [hd]
        simp only
        rw [if_neg]
        intro hm
        rw [List.max?_eq_some_iff] at hm
        rcases h with h | ⟨k, hk, hlt⟩
        · exact h hm.1
        · have := hm.2 k hk
          omega
      rw [this]

example : createSource (K := ℚ) ⟨[0, 1, 2], some [(0, 1), (1, 2)], true, false, 100⟩ (fun _ _ => []) = none :=
  (C56_refused _ _).2 _ rfl (Or.inl (by decide))

end Verif.Termsim
