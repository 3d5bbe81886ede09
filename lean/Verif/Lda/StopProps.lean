import Verif.Lda.InferProps

/-!
# C90: when the inference of a document stops
-/

namespace Verif.LdaInfer

open Verif.Dirichlet

variable {T W : Type} [Fintype T] [DecidableEq W]

/-- how much two gammas differ, summed over the topics -/
noncomputable def gap (g g' : T → ℝ) : ℝ := ∑ k, |g' k - g k|

theorem loop_stops [Nonempty T] (p : Params T W) (doc : List (W × ℝ)) : ∀ (n : ℕ) (g : T → ℝ),
    ∃ r, r ≤ n ∧ loop p doc n g = (fun g => gammaStep p (expElog g) doc)^[r] g ∧
      (r < n → ∃ s, r = s + 1 ∧ gap ((fun g => gammaStep p (expElog g) doc)^[s] g)
        ((fun g => gammaStep p (expElog g) doc)^[r] g) < p.threshold * Fintype.card T) ∧
      (∀ s, s + 1 < r → p.threshold * Fintype.card T ≤ gap ((fun g => gammaStep p (expElog g) doc)^[s] g)
        ((fun g => gammaStep p (expElog g) doc)^[s + 1] g)) := by
  have hpos : (0 : ℝ) < Fintype.card T := by exact_mod_cast Fintype.card_pos
  intro n
  induction n with
  | zero => intro g; exact ⟨0, le_refl _, rfl, fun h => absurd h (by omega), fun s hs => by omega⟩
  | succ n ih =>
    intro g
    by_cases h : meanChange (gammaStep p (expElog g) doc) g < p.threshold
    · have h' : gap g (gammaStep p (expElog g) doc) < p.threshold * Fintype.card T := by
        unfold meanChange at h
        rwa [div_lt_iff₀ hpos] at h
      refine ⟨1, by omega, ?_, fun _ => ⟨0, rfl, h'⟩, fun s hs => by omega⟩
      simp only [loop, if_pos h, Function.iterate_one]
    · have h' : p.threshold * Fintype.card T ≤ gap g (gammaStep p (expElog g) doc) := by
        unfold meanChange at h
        rwa [not_lt, le_div_iff₀ hpos] at h
      obtain ⟨r, h1, h2, h3, h4⟩ := ih (gammaStep p (expElog g) doc)
      refine ⟨r + 1, by omega, ?_, ?_, ?_⟩
      · simp only [loop, if_neg h]
        rw [h2, Function.iterate_succ_apply]
      · intro hr
        obtain ⟨s, e, hs⟩ := h3 (by omega)
        refine ⟨s + 1, by omega, ?_⟩
        rw [Function.iterate_succ_apply, Function.iterate_succ_apply]
        exact hs
      · intro s hs
        rcases s with _ | s
        · exact h'
        · rw [Function.iterate_succ_apply, Function.iterate_succ_apply]
          exact h4 s (by omega)

/-- **C90** Inference repeats its update until the mean change of a topic's weight is below the threshold for the first
time, and `iterations` times if that does not happen. -/
theorem C90_stops [Nonempty T] (p : Params T W) (doc : List (W × ℝ)) (g0 : T → ℝ) :
    let step := fun g => gammaStep p (expElog g) doc
    ∃ r, r ≤ p.iterations ∧ inferDoc p doc g0 = step^[r] g0 ∧
      (r < p.iterations → ∃ s, r = s + 1 ∧ gap (step^[s] g0) (step^[r] g0) < p.threshold * Fintype.card T) ∧
      (∀ s, s + 1 < r → p.threshold * Fintype.card T ≤ gap (step^[s] g0) (step^[s + 1] g0)) :=
  loop_stops p doc p.iterations g0

end Verif.LdaInfer
