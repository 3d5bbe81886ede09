import Verif.Dictionary.FilterProps
import Verif.Dictionary.MergeProps

/-! Property C03 (document frequency never exceeds the number of documents, in every reachable
state) and the exact size left by the pruning check of `add_documents` (C09). -/

namespace Verif.Dictionary
open Verif PyDict

variable {τ : Type} [LinearOrder τ]

/-- document frequencies are at most `num_docs` -/
def DfLe (d : Dct τ) : Prop := ∀ w, (dfOf d w).getD 0 ≤ d.numDocs

theorem dfLe_filtered {d : Dct τ} (h : Inv d) (hd : DfLe d) (keep : Nat → Bool) :
    DfLe (filtered d keep) := by
  intro w
  show _ ≤ d.numDocs
  by_cases hw : known (filtered d keep) w
  · rw [dfOf_filtered h keep hw]; exact hd w
  · have : idOf (filtered d keep) w = none := by
      cases hh : idOf (filtered d keep) w with
      | none => rfl
      | some i => exact absurd (by simp [known, hh]) hw
    simp [dfOf, this]

theorem dfLe_update {d : Dct τ} (h : Inv d) (hd : DfLe d) (doc : List τ) : DfLe (update d doc) := by
  intro w
  show _ ≤ d.numDocs + 1
  rw [dfOf_update h]
  have := hd w
  split
  · simp only [Option.getD_some]; omega
  · omega

theorem dfLe_mergeLoop_nil (its : List (Nat × τ)) {d : Dct τ} (h : Inv d) (hd : DfLe d)
    (m : PyDict Nat Nat) : DfLe (mergeLoop [] its (d, m)).1 := by
  induction its generalizing d m with
  | nil => exact hd
  | cons p its ih =>
    obtain ⟨oid, tok⟩ := p
    have hstep : mergeLoop [] ((oid, tok) :: its) (d, m) =
      mergeLoop [] its (mergeStep [] d oid tok, set m oid (mergeTok d tok).2) := mergeLoop_cons ..
    rw [hstep]
    refine ih (inv_mergeStep [] h oid tok) ?_ _
    intro w
    have hn : (mergeStep [] d oid tok).numDocs = d.numDocs := by
      unfold mergeStep mergeDf mergeTok
      split <;> split <;> rfl
    rw [hn, dfOf_mergeStep h]
    split
    · have := hd tok; simpa [getD] using this
    · exact hd w

/-- **C03.** Whatever has been done to a dictionary, no token's document frequency exceeds the
number of documents the dictionary has seen. -/
theorem C03_df_le_num_docs {d : Dct τ} (h : Reachable d) (w : τ) :
    (dfOf d w).getD 0 ≤ d.numDocs := by
  have key : DfLe d := by
    induction h with
    | empty => intro w; simp [dfOf, idOf, Verif.Dictionary.empty]
    | update doc hr ih => exact dfLe_update hr.inv ih doc
    | addDocuments docs pruneAt hr e ih =>
      obtain ⟨d', e', _, h'⟩ := addDocumentsFrom_induct (P := DfLe) pruneAt
        (fun d k hP hi _ _ => dfLe_filtered hi hP _)
        (fun d doc hP hi => dfLe_update hi hP doc) docs 0 _ hr.inv ih
      unfold Verif.Dictionary.addDocuments at e
      rw [e'] at e; cases e; exact h'
    | filterTokens bad good hr e ih =>
      rw [filterTokens_some hr.inv] at e; cases e; exact dfLe_filtered hr.inv ih _
    | filterExtremes nb na kn keep hr e ih =>
      rw [filterExtremes_some hr.inv] at e; cases e; exact dfLe_filtered hr.inv ih _
    | filterNMostFrequent n hr e ih =>
      rw [filterNMostFrequent_some hr.inv] at e; cases e; exact dfLe_filtered hr.inv ih _
    | compactify hr e ih =>
      rw [compactify_some hr.inv] at e; cases e; exact dfLe_filtered hr.inv ih _
    | lookup i hr ih =>
      intro w
      have := ih w
      show (dfOf (refresh _) w).getD 0 ≤ (refresh _).numDocs
      unfold refresh
      split <;> exact this
    | mergeWith hd ho e ih1 ih2 =>
      obtain ⟨d', m', e', _, _, hf, ⟨hn, _⟩, _⟩ := C08_merge_with hd ho
      rw [e'] at e; cases e
      intro w
      rw [hf w, hn]
      have := ih1 w; have := ih2 w; omega
    | mergeWithPlain o hr ih => exact dfLe_mergeLoop_nil o hr.inv ih []
  exact key w

/-- **C09.** The pruning check removes no more than it must: right when it fires, exactly
`min k (number of tokens)` tokens are left (processing `[[]]`, one empty document, runs the check
and adds no token), and a token is dropped only in favour of tokens of at least its frequency. -/
theorem C09_check_leaves_exactly {d d' : Dct τ} (h : Reachable d) (k : Nat)
    (e : addDocuments d [[]] (some k) = some d') :
    d'.len = min k d.len ∧
    (∀ w, known d' w → known d w) ∧
    (∀ w w', known d' w → known d w' → ¬ known d' w' →
      (dfOf d w').getD 0 ≤ (dfOf d w).getD 0) := by
  have hup : ∀ c : Dct τ, Inv c → (update c []).len = c.len ∧
      (∀ w, known (update c []) w ↔ known c w) := by
    intro c hc
    refine ⟨?_, fun w => by rw [known_update hc]; simp⟩
    have h1 := len_update_le hc ([] : List τ)
    have h2 : c.len ≤ (update c []).len := by
      unfold Dct.len; rw [length_update hc.wf]; omega
    simp at h1; omega
  unfold addDocuments at e
  unfold addDocumentsFrom at e
  by_cases hk : d.len > k
  · obtain ⟨c, ec, c1, c2, c3, _⟩ := C05_filter_extremes h 0 d.numDocs (some k) []
    simp only [Nat.zero_mod, if_true, hk, ec, addDocumentsFrom, Option.some.injEq] at e
    subst e
    have hc : Inv c := (Reachable.filterExtremes 0 d.numDocs (some k) [] h ec).inv
    obtain ⟨u1, u2⟩ := hup c hc
    have hel : ∀ w, known d w → eligible d 0 d.numDocs [] w := by
      intro w hw
      have := C03_df_le_num_docs h w
      simp only [eligible, hw, true_and]
      right; constructor <;> omega
    have hE : ((keys d.token2id).filter
        (fun w => decide (eligible d 0 d.numDocs [] w))).length = d.len := by
      rw [List.filter_eq_self.mpr]
      · simp [Dct.len, keys]
      · intro w hw
        simpa using hel w ((known_iff d w).mpr hw)
    refine ⟨?_, ?_, ?_⟩
    · rw [u1, c2]; simp only [hE]
    · intro w hw
      exact (c1 w ((u2 w).mp hw)).1
    · intro w w' hw hw' hn
      rcases c3 w w' ((u2 w).mp hw) (hel w' hw') (fun hh => hn ((u2 w').mpr hh)) with h1 | h1
      · simpa [prio] using Nat.le_of_lt h1
      · have := h1.1
        simp [prio] at this
        omega
  · simp only [Nat.zero_mod, if_true, hk, if_false, addDocumentsFrom, Option.some.injEq] at e
    subst e
    obtain ⟨u1, u2⟩ := hup d h.inv
    refine ⟨by rw [u1]; omega, fun w hw => (u2 w).mp hw, ?_⟩
    intro w w' _ hw' hn
    exact absurd ((u2 w').mpr hw') hn

example : ((addDocuments demo [[]] (some 2)).map (fun d => (keys d.token2id, d.len))) =
    some ([10, 20], 2) ∧ 2 < demo.len ∧ Reachable demo :=
  ⟨by decide, by decide, reachable_foldl .empty _⟩

end Verif.Dictionary
