import Mathlib.Data.Nat.Basic
import Verif.Dictionary.Effects

/-! Property theorems C01–C06 about `Dictionary`. -/

namespace Verif.Dictionary
open Verif PyDict

variable {τ : Type} [LinearOrder τ]

/-! A concrete history used by the non-vacuity examples: three documents, a lookup, a filter. -/

/-- three documents over the words 10..50 -/
def demoDocs : List (List Nat) := [[30, 10, 30], [20, 10, 50], [40, 10, 20]]
/-- the dictionary after feeding `demoDocs` -/
def demo : Dct Nat := demoDocs.foldl update empty

theorem reachable_foldl {d : Dct τ} (h : Reachable d) (docs : List (List τ)) :
    Reachable (docs.foldl update d) := by
  induction docs generalizing d with
  | nil => exact h
  | cons doc docs ih => exact ih (Reachable.update doc h)

theorem reachable_demo : Reachable demo := reachable_foldl .empty _

/-! ### C01 -/

/-- **C01.** After any history of operations: distinct tokens have distinct ids, and the ids in use
are exactly `0 .. len-1`. -/
theorem C01_ids_dense_bijection {d : Dct τ} (h : Reachable d) :
    (∀ w w' i, idOf d w = some i → idOf d w' = some i → w = w') ∧
    (∀ i, (∃ w, idOf d w = some i) ↔ i < d.len) := by
  refine ⟨fun w w' i h1 h2 => idOf_inj h.inv h1 h2, fun i => ⟨?_, ?_⟩⟩
  · rintro ⟨w, hw⟩; exact idOf_lt h.inv hw
  · intro hi
    have := (h.inv.mem_values i).mpr hi
    obtain ⟨p, hp, rfl⟩ := List.mem_map.mp this
    exact ⟨p.1, get?_of_mem h.inv.wf hp⟩

/-- **C01.** In every reachable state every operation of the API succeeds (no `KeyError` or
`TypeError` escapes), so histories never get stuck. -/
theorem C01_operations_never_raise {d : Dct τ} (h : Reachable d) :
    (∀ docs p, (addDocuments d docs p).isSome) ∧
    (∀ b g, (filterTokens d b g).isSome) ∧
    (∀ nb na kn k, (filterExtremes d nb na kn k).isSome) ∧
    (∀ n, (filterNMostFrequent d n).isSome) ∧
    (compactify d).isSome ∧
    (∀ o, Reachable o → (mergeWith d o).isSome) := by
  refine ⟨?_, ?_, ?_, ?_, ?_, ?_⟩
  · intro docs p
    obtain ⟨d', e, _⟩ := addDocuments_some h.inv docs p
    simp [e]
  · intro b g; simp [filterTokens_some h.inv]
  · intro nb na kn k; simp [filterExtremes_some h.inv]
  · intro n; simp [filterNMostFrequent_some h.inv]
  · simp [compactify_some h.inv]
  · intro o ho; simp [mergeWith_some ho.inv]

/-- **C01.** New tokens get consecutive ids in the order they entered the dictionary; listing the
dictionary lists the ids in increasing order. -/
theorem C01_listing_order {d : Dct τ} (h : Reachable d) :
    values d.token2id = List.range d.len := h.ordered

example : Reachable demo ∧ demo.len = 5 ∧ idOf demo 30 = some 1 ∧ idOf demo 40 = some 4 :=
  ⟨reachable_demo, by decide, by decide, by decide⟩

/-! ### C02 -/

/-- **C02.** `doc2bow` returns a vector strictly increasing in id whose entries are exactly the
known words of the document with the number of times they occur in it. -/
theorem C02_doc2bow_exact {d : Dct τ} (h : Reachable d) (doc : List τ) :
    (bow d doc).Pairwise (fun p q => p.1 < q.1) ∧
    (∀ i n, (i, n) ∈ bow d doc ↔ ∃ w ∈ doc, idOf d w = some i ∧ n = doc.count w) := by
  have hs := pySort_sorted (le := fun a b : Nat × Nat => decide (a.1 ≤ b.1))
    (by intro a b; simp; omega) (by intro a b c; simp; omega)
    (bowDict d.token2id (counter doc))
  have hperm := pySort_perm (fun a b : Nat × Nat => decide (a.1 ≤ b.1))
    (bowDict d.token2id (counter doc))
  constructor
  · have hnd : (bow d doc).Pairwise (fun p q => p.1 ≠ q.1) := by
      have : (keys (bow d doc)).Nodup :=
        (hperm.map Prod.fst).nodup_iff.mpr (WF_bowDict _ _)
      exact List.pairwise_map.mp this
    exact (hs.and hnd).imp (by rintro a b ⟨h1, h2⟩; simp at h1; omega)
  · intro i n
    unfold bow
    rw [mem_pySort, mem_bowDict h.inv.nodup]
    constructor
    · rintro ⟨w, h1, h2, h3⟩; exact ⟨w, h2, h1, h3⟩
    · rintro ⟨w, h1, h2, h3⟩; exact ⟨w, h2, h1, h3⟩

/-- **C02.** `return_missing=True` reports exactly the unknown words of the document with their
counts, each once. -/
theorem C02_missing_exact {d : Dct τ} (doc : List τ) :
    (bowMissing d doc).Nodup ∧
    (∀ w n, (w, n) ∈ bowMissing d doc ↔ w ∈ doc ∧ ¬ known d w ∧ n = doc.count w) := by
  constructor
  · have : WF (bowMissing d doc) := WF_missing _ (WF_counter doc)
    exact List.Nodup.of_map _ this
  · intro w n
    unfold bowMissing missing
    rw [mem_pySort, List.mem_filter, mem_counter]
    simp only [known, idOf, contains, Bool.not_eq_true', Bool.not_eq_true]
    tauto

/-- **C02.** After `doc2bow(doc, allow_update=True)` every word of `doc` is known, the old ids are
unchanged, and the returned vector is the one computed with the updated dictionary. -/
theorem C02_update_knows_all {d : Dct τ} (h : Reachable d) (doc : List τ) :
    (∀ w, known (doc2bow d doc true).1 w ↔ known d w ∨ w ∈ doc) ∧
    (∀ w i, idOf d w = some i → idOf (doc2bow d doc true).1 w = some i) ∧
    (doc2bow d doc true).2.1 = (doc2bow (doc2bow d doc true).1 doc false).2.1 :=
  ⟨known_update h.inv doc, fun _ _ hw => idOf_update_old h.inv doc hw, rfl⟩

example : bow demo [20, 99, 10, 20] = [(0, 1), (2, 2)] ∧ bowMissing demo [20, 99, 10, 20] = [(99, 1)] := by
  decide

/-! ### C03 -/

theorem docFreq_append (a b : List (List τ)) (w : τ) :
    docFreq (a ++ b) w = docFreq a w + docFreq b w := by simp [docFreq]

theorem collFreq_append (a b : List (List τ)) (w : τ) :
    collFreq (a ++ b) w = collFreq a w + collFreq b w := by simp [collFreq]

theorem docFreq_zero (docs : List (List τ)) (w : τ) (hn : w ∉ docs.flatten) :
    docFreq docs w = 0 := by
  simp only [docFreq, List.length_eq_zero_iff, List.filter_eq_nil_iff, decide_eq_true_eq]
  intro x hx hwx
  exact hn (List.mem_flatten.mpr ⟨x, hx, hwx⟩)

theorem collFreq_zero (docs : List (List τ)) (w : τ) (hn : w ∉ docs.flatten) :
    collFreq docs w = 0 := by
  induction docs with
  | nil => rfl
  | cons doc docs ih =>
    simp only [List.flatten_cons, List.mem_append, not_or] at hn
    have := ih hn.2
    simp only [collFreq, List.map_cons, List.sum_cons] at *
    rw [this, List.count_eq_zero.mpr hn.1]

theorem foldl_update_spec {d : Dct τ} (h : Inv d) (docs : List (List τ)) :
    let d' := docs.foldl update d
    Inv d' ∧
    (∀ w, known d' w ↔ known d w ∨ w ∈ docs.flatten) ∧
    (∀ w, dfOf d' w = if w ∈ docs.flatten then some ((dfOf d w).getD 0 + docFreq docs w)
      else dfOf d w) ∧
    (∀ w, cfOf d' w = if w ∈ docs.flatten then some ((cfOf d w).getD 0 + collFreq docs w)
      else cfOf d w) ∧
    d'.numDocs = d.numDocs + docs.length ∧ d'.numPos = d.numPos + positions docs ∧
    d'.numNnz = d.numNnz + nnz docs := by
  induction docs generalizing d with
  | nil => simp [h, docFreq, collFreq, positions, nnz]
  | cons doc docs ih =>
    obtain ⟨i1, i2, i3, i4, i5, i6, i7⟩ := ih (inv_update h doc)
    have hdf : docFreq docs = fun w => docFreq docs w := rfl
    refine ⟨i1, ?_, ?_, ?_, ?_, ?_, ?_⟩
    · intro w
      rw [List.foldl_cons, i2, known_update h, List.flatten_cons, List.mem_append]; tauto
    · intro w
      rw [List.foldl_cons, i3, dfOf_update h]
      simp only [List.flatten_cons, List.mem_append]
      have hz := docFreq_zero docs w
      have hcons : docFreq (doc :: docs) w = (if w ∈ doc then 1 else 0) + docFreq docs w := by
        by_cases hw : w ∈ doc <;> simp [docFreq, hw, Nat.add_comm]
      by_cases h1 : w ∈ doc <;> by_cases h2 : w ∈ docs.flatten
      · simp [h1, h2, hcons]; omega
      · have := hz h2
        simp only [h1, h2, if_false, if_true, or_false, hcons, this]
      · simp [h1, h2, hcons]
      · simp only [h1, h2, if_false, or_false]
    · intro w
      rw [List.foldl_cons, i4, cfOf_update h]
      simp only [List.flatten_cons, List.mem_append]
      have hz := collFreq_zero docs w
      have hcons : collFreq (doc :: docs) w = doc.count w + collFreq docs w := by
        simp [collFreq]
      by_cases h1 : w ∈ doc <;> by_cases h2 : w ∈ docs.flatten
      · simp [h1, h2, hcons]; omega
      · have := hz h2
        simp only [h1, h2, if_false, if_true, or_false, hcons, this]; simp
      · have := List.count_eq_zero.mpr h1
        simp [h1, h2, hcons, this]
      · simp only [h1, h2, if_false, or_false]
    · rw [List.foldl_cons, i5]; show d.numDocs + 1 + _ = _; simp; omega
    · rw [List.foldl_cons, i6, numPos_update]; simp [positions]; omega
    · rw [List.foldl_cons, i7, numNnz_update h]; simp [nnz]; omega

theorem addDocumentsFrom_none (docs : List (List τ)) (n : Nat) (d : Dct τ) :
    addDocumentsFrom none n d docs = some (docs.foldl update d) := by
  induction docs generalizing n d with
  | nil => rfl
  | cons doc docs ih =>
    unfold addDocumentsFrom
    by_cases hn : n % 10000 = 0 <;> simp [hn, ih]

theorem len_le_update {d : Dct τ} (h : Inv d) (doc : List τ) : d.len ≤ (update d doc).len := by
  unfold Dct.len; rw [length_update h.wf]; omega

theorem len_le_foldl {d : Dct τ} (h : Inv d) (docs : List (List τ)) :
    d.len ≤ (docs.foldl update d).len := by
  induction docs generalizing d with
  | nil => exact Nat.le_refl _
  | cons doc docs ih => exact Nat.le_trans (len_le_update h doc) (ih (inv_update h doc))

theorem addDocumentsFrom_big {d : Dct τ} (h : Inv d) (docs : List (List τ)) (n k : Nat)
    (hk : (docs.foldl update d).len ≤ k) :
    addDocumentsFrom (some k) n d docs = some (docs.foldl update d) := by
  induction docs generalizing n d with
  | nil => rfl
  | cons doc docs ih =>
    have hle : ¬ d.len > k := by have := len_le_foldl h (doc :: docs); omega
    unfold addDocumentsFrom
    by_cases hn : n % 10000 = 0 <;> simp [hn, hle, ih (inv_update h doc) (n + 1) hk]

theorem len_foldl_empty (docs : List (List τ)) :
    (docs.foldl update (empty : Dct τ)).len = docs.flatten.dedup.length := by
  obtain ⟨i1, i2, _⟩ := foldl_update_spec (inv_empty (τ := τ)) docs
  have : (keys (docs.foldl update (empty : Dct τ)).token2id).Perm docs.flatten.dedup := by
    rw [List.perm_ext_iff_of_nodup i1.wf (List.nodup_dedup _)]
    intro w
    rw [← known_iff, i2, List.mem_dedup]
    simp [known, idOf, empty]
  simpa [Dct.len] using this.length_eq

/-- **C03.** Feed any documents into a fresh dictionary, with pruning off or with a `prune_at` no
smaller than the number of distinct words.  Then the dictionary knows exactly the words fed, and
`dfs`, `cfs`, `num_docs`, `num_pos`, `num_nnz` are the exact counts of the corpus. -/
theorem C03_statistics_exact (docs : List (List τ)) (pruneAt : Option Nat)
    (hp : ∀ k, pruneAt = some k → docs.flatten.dedup.length ≤ k) :
    ∃ d, addDocuments empty docs pruneAt = some d ∧
      (∀ w, known d w ↔ ∃ doc ∈ docs, w ∈ doc) ∧
      (∀ w, known d w → dfOf d w = some (docFreq docs w) ∧ cfOf d w = some (collFreq docs w)) ∧
      d.numDocs = docs.length ∧ d.numPos = positions docs ∧ d.numNnz = nnz docs := by
  refine ⟨docs.foldl update empty, ?_, ?_⟩
  · unfold addDocuments
    cases pruneAt with
    | none => exact addDocumentsFrom_none docs 0 empty
    | some k => exact addDocumentsFrom_big inv_empty docs 0 k (by rw [len_foldl_empty]; exact hp k rfl)
  · obtain ⟨i1, i2, i3, i4, i5, i6, i7⟩ := foldl_update_spec (inv_empty (τ := τ)) docs
    have hkn : ∀ w, known (docs.foldl update (empty : Dct τ)) w ↔ w ∈ docs.flatten := by
      intro w; rw [i2]; simp [known, idOf, empty]
    refine ⟨fun w => by rw [hkn, List.mem_flatten], ?_, by simpa [empty] using i5,
      by simpa [empty] using i6, by simpa [empty] using i7⟩
    intro w hw
    have hw' := (hkn w).mp hw
    refine ⟨?_, ?_⟩
    · rw [i3, if_pos hw']; simp [dfOf, idOf, empty]
    · rw [i4, if_pos hw']; simp [cfOf, idOf, empty]

/-- **C03.** More documents fed into any reachable dictionary add exactly their counts. -/
theorem C03_statistics_additive {d : Dct τ} (h : Reachable d) (docs : List (List τ)) :
    ∃ d', addDocuments d docs none = some d' ∧
      (∀ w, known d' w ↔ known d w ∨ ∃ doc ∈ docs, w ∈ doc) ∧
      (∀ w, (dfOf d' w).getD 0 = (dfOf d w).getD 0 + docFreq docs w) ∧
      (∀ w, (cfOf d' w).getD 0 = (cfOf d w).getD 0 + collFreq docs w) ∧
      d'.numDocs = d.numDocs + docs.length ∧ d'.numPos = d.numPos + positions docs ∧
      d'.numNnz = d.numNnz + nnz docs := by
  obtain ⟨i1, i2, i3, i4, i5, i6, i7⟩ := foldl_update_spec h.inv docs
  refine ⟨_, addDocumentsFrom_none docs 0 d, ?_, ?_, ?_, i5, i6, i7⟩
  · intro w; rw [i2, List.mem_flatten]
  · intro w
    rw [i3]
    by_cases hw : w ∈ docs.flatten
    · simp [hw]
    · have hz := docFreq_zero docs w hw
      simp only [hw, if_false, hz]; rfl
  · intro w
    rw [i4]
    by_cases hw : w ∈ docs.flatten
    · simp [hw]
    · have hz := collFreq_zero docs w hw
      simp only [hw, if_false, hz]; rfl

/-- **C03.** The order in which documents are fed does not change a word's frequencies. -/
theorem C03_order_independent (docs docs' : List (List τ)) (hp : docs.Perm docs')
    {d d' : Dct τ} (h : addDocuments empty docs none = some d)
    (h' : addDocuments empty docs' none = some d') :
    (∀ w, dfOf d w = dfOf d' w ∧ cfOf d w = cfOf d' w) ∧
    d.numDocs = d'.numDocs ∧ d.numPos = d'.numPos ∧ d.numNnz = d'.numNnz := by
  rw [addDocuments, addDocumentsFrom_none] at h h'
  cases h; cases h'
  obtain ⟨i1, i2, i3, i4, i5, i6, i7⟩ := foldl_update_spec (inv_empty (τ := τ)) docs
  obtain ⟨j1, j2, j3, j4, j5, j6, j7⟩ := foldl_update_spec (inv_empty (τ := τ)) docs'
  have hm : ∀ w, w ∈ docs.flatten ↔ w ∈ docs'.flatten := by
    intro w; simp only [List.mem_flatten]
    constructor
    · rintro ⟨x, hx, h⟩; exact ⟨x, hp.mem_iff.mp hx, h⟩
    · rintro ⟨x, hx, h⟩; exact ⟨x, hp.mem_iff.mpr hx, h⟩
  have hdf : ∀ w, docFreq docs w = docFreq docs' w := fun w => (hp.filter _).length_eq
  have hcf : ∀ w, collFreq docs w = collFreq docs' w := fun w => (hp.map _).sum_nat
  refine ⟨fun w => ⟨?_, ?_⟩, ?_, ?_, ?_⟩
  · rw [i3, j3, hdf]; simp only [hm]
  · rw [i4, j4, hcf]; simp only [hm]
  · rw [i5, j5, hp.length_eq]
  · rw [i6, j6]; unfold positions; rw [(hp.map _).sum_nat]
  · rw [i7, j7]; unfold nnz; rw [(hp.map _).sum_nat]

example : (∀ k, (some 5 : Option Nat) = some k → demoDocs.flatten.dedup.length ≤ k) ∧
    addDocuments empty demoDocs (some 5) = some demo ∧ dfOf demo 10 = some 3 ∧ cfOf demo 30 = some 2 ∧
    demo.numDocs = 3 ∧ demo.numPos = 9 ∧ demo.numNnz = 8 := by
  refine ⟨?_, by decide, by decide, by decide, by decide, by decide, by decide⟩
  intro k hk; cases hk; decide

/-! ### C04 -/

/-- **C04.** `doc2bow` without update returns the dictionary state it was given (all fields:
ids, frequencies, counters, reverse map), in every state. -/
theorem C04_doc2bow_pure (d : Dct τ) (doc : List τ) : (doc2bow d doc false).1 = d := rfl

/-- **C04.** `doc2idx` gives, position by position, the id of a known word and the given default
for an unknown one. -/
theorem C04_doc2idx (d : Dct τ) (doc : List τ) (unknown : Int) :
    (doc2idx d doc unknown).length = doc.length ∧
    ∀ k (hk : k < doc.length),
      (∀ i : Nat, idOf d doc[k] = some i → (doc2idx d doc unknown)[k]? = some (i : Int)) ∧
      (¬ known d doc[k] → (doc2idx d doc unknown)[k]? = some unknown) := by
  refine ⟨by simp [doc2idx], ?_⟩
  intro k hk
  constructor
  · intro i hi
    have hi' : get? d.token2id doc[k] = some i := hi
    simp [doc2idx, hk, hi']
  · intro hn
    have : get? d.token2id doc[k] = none := by
      cases hh : get? d.token2id doc[k] with
      | none => rfl
      | some j => exact absurd (by simp [known, idOf, hh]) hn
    simp [doc2idx, hk, this]

example : doc2idx demo [10, 77, 40] (-1) = [0, -1, 4] := by decide

/-! ### C06 -/

/-- **C06.** Reverse lookup: in every reachable state `d[i]` returns `w` iff `token2id[w] = i`;
and it raises `KeyError` iff `i` is not in use. -/
theorem C06_reverse_lookup {d : Dct τ} (h : Reachable d) (i : Nat) :
    (∀ w, (getitem d i).2 = some w ↔ idOf d w = some i) ∧
    ((getitem d i).2 = none ↔ d.len ≤ i) := by
  have h1 := fun w => getitem_spec h.inv i w
  refine ⟨h1, ?_⟩
  have hb := (C01_ids_dense_bijection h).2 i
  constructor
  · intro hn
    by_contra hc
    obtain ⟨w, hw⟩ := hb.mpr (by omega)
    rw [(h1 w).mpr hw] at hn; cases hn
  · intro hle
    cases hh : (getitem d i).2 with
    | none => rfl
    | some w => have := hb.mp ⟨w, (h1 w).mp hh⟩; omega

/-- **C06.** A lookup changes nothing a user can see: ids and frequencies and counters stay. -/
theorem C06_lookup_harmless (d : Dct τ) (i : Nat) :
    (getitem d i).1.token2id = d.token2id ∧ (getitem d i).1.dfs = d.dfs ∧
    (getitem d i).1.cfs = d.cfs ∧ (getitem d i).1.numDocs = d.numDocs ∧
    (getitem d i).1.numPos = d.numPos ∧ (getitem d i).1.numNnz = d.numNnz := by
  unfold getitem
  rcases refresh_cases d with e | ⟨e, _⟩ <;> rw [e] <;> simp

/-- a history with a lookup before an update and another after a filter, where the cache is stale -/
def demoLookups : Dct Nat := update (getitem demo 1).1 [60]

example : Reachable demoLookups ∧ (getitem demoLookups 5).2 = some 60 ∧
    (getitem demoLookups 6).2 = none ∧ demoLookups.id2token.length = 5 :=
  ⟨.update _ (.lookup _ reachable_demo), by decide, by decide, by decide⟩

end Verif.Dictionary
