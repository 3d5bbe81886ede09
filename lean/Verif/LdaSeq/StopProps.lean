import Verif.LdaSeq.Props

/-!
# C99: when the fitting of a document stops
-/

namespace Verif.LdaSeq

variable {k V : ℕ}

/-- the relative change of the bound (per token) from one round to the next -/
noncomputable def relChange (doc : Doc V) (old new : ℝ) : ℝ := |(old - new) / (old * (doc.map Prod.snd).sum)|

theorem fitLoop_stops (sp : Special) (alpha : Fin (k + 1) → ℝ) (topics : Fin V → Fin (k + 1) → ℝ) (doc : Doc V) :
    ∀ (n : ℕ) (c : ℝ) (p : Post k doc.length),
      let step := fun q : Post k doc.length => round sp alpha topics doc q.phi
      ∃ r, r ≤ n ∧ fitLoop sp alpha topics doc (doc.map Prod.snd).sum n c p = step^[r] p ∧
        (0 < r → 1 / 10 ^ 8 < c) ∧ (r < n → r = 0 → c ≤ 1 / 10 ^ 8) ∧
        (∀ s, r = s + 1 → r < n → relChange doc (step^[s] p).lhood (step^[r] p).lhood ≤ 1 / 10 ^ 8) ∧
        (∀ s, s + 1 < r → 1 / 10 ^ 8 < relChange doc (step^[s] p).lhood (step^[s + 1] p).lhood) := by
  intro n
  induction n with
  | zero =>
    intro c p
    exact ⟨0, le_refl _, rfl, fun h => absurd h (by omega), fun h => absurd h (by omega), fun s h => by omega, fun s h => by omega⟩
  | succ n ih =>
    intro c p step
    by_cases h : 1 / 10 ^ 8 < c
    · obtain ⟨r, h1, h2, h3, h4, h5, h6⟩ := ih |(p.lhood - (round sp alpha topics doc p.phi).lhood) / (p.lhood * (doc.map Prod.snd).sum)|
        (round sp alpha topics doc p.phi)
      refine ⟨r + 1, by omega, ?_, fun _ => h, fun _ h0 => by omega, ?_, ?_⟩
      · simp only [fitLoop, if_pos h]
        rw [h2, Function.iterate_succ_apply]
      · intro s hs hlt
        obtain rfl : s = r := by omega
        rcases s with _ | s
        · exact h4 (by omega) rfl
        · rw [Function.iterate_succ_apply, Function.iterate_succ_apply]
          exact h5 s rfl (by omega)
      · intro s hs
        rcases s with _ | s
        · exact h3 (by omega)
        · rw [Function.iterate_succ_apply, Function.iterate_succ_apply]
          exact h6 s (by omega)
    · refine ⟨0, by omega, ?_, fun h0 => absurd h0 (by omega), fun _ _ => not_lt.1 h, fun s h => by omega, fun s h => by omega⟩
      simp only [fitLoop, if_neg h, Function.iterate_zero, id]

/-- **C99** A document is fitted by rounds from even word weights until a round changes the bound by at most `1e-8` per
token for the first time, or `maxIter` rounds after the first; the first round is compared with the bound at even
weights. -/
theorem C99_stops (sp : Special) (alpha : Fin (k + 1) → ℝ) (topics : Fin V → Fin (k + 1) → ℝ) (doc : Doc V)
    (stale : ℕ → Fin (k + 1) → ℝ) (maxIter : ℕ) :
    let step := fun q : Post k doc.length => round sp alpha topics doc q.phi
    let even := fun (_ : Fin doc.length) (_ : Fin (k + 1)) => ((k : ℝ) + 1)⁻¹
    let first := round sp alpha topics doc even
    let before := lhood sp alpha topics doc (fun _ => alpha 0 + (doc.map Prod.snd).sum / ((k : ℝ) + 1)) even fun n j => stale n j
    ∃ r, r ≤ maxIter ∧ fitDoc sp alpha topics doc stale maxIter = step^[r] first ∧
      (0 < r → 1 / 10 ^ 8 < relChange doc before first.lhood) ∧
      (r < maxIter → r = 0 → relChange doc before first.lhood ≤ 1 / 10 ^ 8) ∧
      (∀ s, r = s + 1 → r < maxIter → relChange doc (step^[s] first).lhood (step^[r] first).lhood ≤ 1 / 10 ^ 8) ∧
      (∀ s, s + 1 < r → 1 / 10 ^ 8 < relChange doc (step^[s] first).lhood (step^[s + 1] first).lhood) := by
  intro step even first before
  have he : (fun (_ : Fin doc.length) (_ : Fin (k + 1)) => 1 / ((k + 1 : ℕ) : ℝ)) = even := by
    funext _ _
    rw [one_div, Nat.cast_add, Nat.cast_one]
  have hb : lhood sp alpha topics doc (fun _ => alpha 0 + (doc.map Prod.snd).sum / ((k + 1 : ℕ) : ℝ)) even (fun n j => stale n j) = before := by
    show _ = lhood _ _ _ _ _ _ _
    rw [Nat.cast_add, Nat.cast_one]
  have := fitLoop_stops sp alpha topics doc maxIter (relChange doc before first.lhood) first
  unfold fitDoc
  simp only [he, hb]
  exact this

end Verif.LdaSeq
