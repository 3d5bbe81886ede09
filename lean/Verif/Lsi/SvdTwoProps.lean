import Verif.Lsi.SvdProps

/-!
# C116: how many samples, how much is lost, and which reading of the corpus is used for what
-/

namespace Verif.Lsi
open Matrix

/-- **C116.** The number of samples is twice the rank but at least ten, unless a number of extra dimensions is asked
for; it is never smaller than the rank. -/
theorem C116_samples (rank : ℕ) :
    (samples rank none = 10 ↔ rank ≤ 5) ∧ (5 ≤ rank → samples rank none = rank + rank) ∧
    (∀ e, samples rank (some e) = rank + e) ∧ ∀ extra, rank ≤ samples rank extra := by
  refine ⟨?_, ?_, fun e => rfl, ?_⟩
  · simp only [samples]
    omega
  · intro h
    simp only [samples]
    omega
  · intro extra
    cases extra <;> simp only [samples] <;> omega

/-- **C116.** Training in several passes, from the documents to a new model: if the samples capture the documents and
these are not all zeros, the model represents the term-document matrix minus a remainder that is never negative, and
that is at most a millionth of the whole (as the trace measures it) if fewer than `num_topics` topics are kept. -/
theorem C116_twopass {m : ℕ} (lib : Linalg) (hl : LinalgOk lib) (k : ℕ) (hk : 0 < k) (extra : Option ℕ) (iters : ℕ)
    (decay : ℝ) (size : ℕ) (hz : 0 < size) (docs : List (Fin m → ℝ)) (gauss : ℕ → Fin (samples k extra) → ℝ)
    (hc : Captures docs 0 gauss) (hne : colsM docs * (colsM docs)ᵀ ≠ 0) (len : Option ℕ) :
    ∃ p, (addTwoPass lib k extra iters decay size gauss ⟨none, 0⟩ (fun _ => docs) len).projection = some p ∧ Good p ∧
      ∃ E, gram p + E = colsM docs * (colsM docs)ᵀ ∧ (∀ x, 0 ≤ x ⬝ᵥ E *ᵥ x) ∧
        (p.n < k → 1000000 * E.trace ≤ (colsM docs * (colsM docs)ᵀ).trace) := by
  have he : (0 : ℝ) ≤ defaultEps := by unfold defaultEps; norm_num
  obtain ⟨g, E, r⟩ := C116_exact lib hl k hk extra iters defaultEps he size hz docs gauss hc hne
  refine ⟨_, rfl, g, E, r.eq, r.nonneg, ?_⟩
  intro h
  have := r.few h
  unfold defaultEps at this
  linarith

end Verif.Lsi
