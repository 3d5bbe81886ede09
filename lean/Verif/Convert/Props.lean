import Verif.Convert.Model
import Verif.Matutils.SparseProps
import Mathlib.Tactic.Linarith
import Mathlib.Tactic.NormNum
import Mathlib.Tactic.Positivity

/-!
# Properties of the conversions between matrices and corpora (C110)
-/

namespace Verif.Convert
open Verif Matutils PyDict

variable {K : Type} [Field K] [LinearOrder K] [IsStrictOrderedRing K]

/-! ## Specification -/

/-- a document in canonical form: increasing ids below `n`, no weight of magnitude up to `eps` -/
def Canonical (eps : K) (n : Nat) (d : List (Nat × K)) : Prop :=
  (d.map (·.1)).Pairwise (· < ·) ∧ (∀ p ∈ d, p.1 < n) ∧ ∀ p ∈ d, eps < |p.2|

/-- the entry in row `i` and column `j` -/
def Dense.entry (m : Dense K) (i j : Nat) : K := (m.rows.getD i []).getD j 0

/-- all rows have the length they should have -/
def Dense.WF (m : Dense K) : Prop := ∀ r ∈ m.rows, r.length = m.cols

/-! ## Dense matrices -/

theorem fill_ok (n : Nat) (docs : List (List (Nat × K))) (g : List (Nat × K) → List K)
    (hg : ∀ d ∈ docs, sparse2full d n = some (g d)) : ∀ (pre junk : List (List K)),
    fillColumns n docs pre.length (pre ++ junk) =
      if docs.length ≤ junk.length then
        .ok (pre.length + docs.length, pre ++ docs.map g ++ junk.drop docs.length)
      else .error .index := by
  induction docs with
  | nil => intro pre junk; simp [fillColumns]
  | cons d docs ih =>
    intro pre junk
    simp only [fillColumns, hg d (by simp)]
    cases junk with
    | nil => simp
    | cons c junk =>
      rw [if_pos (by simp)]
      have h1 : (pre ++ c :: junk).set pre.length (g d) = (pre ++ [g d]) ++ junk := by simp
      have h2 : pre.length + 1 = (pre ++ [g d]).length := by simp
      rw [h1, h2, ih (fun d' h => hg d' (by simp [h]))]
      simp only [List.length_append, List.length_cons, List.length_nil, List.map_cons, List.append_assoc,
        List.cons_append, List.nil_append, List.drop_succ_cons, Nat.add_le_add_iff_right]
      split
      · congr 2
        omega
      · rfl

theorem mapM_some {α β : Type} {f : α → Option β} {g : α → β} {l : List α} (h : ∀ x ∈ l, f x = some (g x)) :
    l.mapM f = some (l.map g) := by
  induction l with
  | nil => rfl
  | cons a l ih =>
    rw [List.mapM_cons, h a (by simp), ih fun x hx => h x (by simp [hx])]
    rfl

theorem sparse2full_some (d : List (Nat × K)) (n : Nat) (h : ∀ p ∈ d, p.1 < n) :
    sparse2full d n = some ((List.range n).map fun i => getD (ofPairs d) i 0) := by
  unfold sparse2full
  simp only
  rw [if_pos]
  rw [List.all_eq_true]
  intro i hi
  have : ∀ (l : List (Nat × K)) (e : PyDict Nat K), (∀ p ∈ l, p.1 < n) → (∀ i ∈ keys e, i < n) →
      ∀ i ∈ keys (l.foldl (fun e p => PyDict.set e p.1 p.2) e), i < n := by
    intro l
    induction l with
    | nil => intro e _ h2; exact h2
    | cons x l ih =>
      intro e h1 h2
      apply ih _ (fun p hp => h1 p (by simp [hp]))
      intro i hi
      rcases (mem_keys_set _ _ _ _).1 hi with h | h
      · first
          | exact h2 i h
          | (rw [h]; exact h1 x (by simp))
      · first
          | exact h2 i h
          | (rw [h]; exact h1 x (by simp))
  exact decide_eq_true (this d [] h (by simp) i hi)

/-- **C110.** `corpus2dense` without and with the number of documents gives the same matrix, whatever
the uninitialised array contains: row `t`, column `j` holds the (last) weight of term `t` in document
`j`. -/
theorem C110_corpus2dense (corpus : List (List (Nat × K))) (n : Nat) (h0 : corpus ≠ [])
    (h : ∀ d ∈ corpus, ∀ p ∈ d, p.1 < n) (junk : List (List K)) (hj : corpus.length ≤ junk.length) :
    ∃ m, corpus2dense corpus n none [] = .ok m ∧ corpus2dense corpus n (some corpus.length) junk = .ok m ∧
      m.rows.length = n ∧ m.cols = corpus.length ∧ m.WF ∧
      ∀ t j d, t < n → corpus[j]? = some d → m.entry t j = getD (ofPairs d) t 0 := by
  have hs : ∀ d ∈ corpus, sparse2full d n = some ((List.range n).map fun i => getD (ofPairs d) i 0) :=
    fun d hd => sparse2full_some d n (h d hd)
  refine ⟨ofColumns n (corpus.map fun d => (List.range n).map fun i => getD (ofPairs d) i 0), ?_, ?_, ?_, ?_, ?_, ?_⟩
  · unfold corpus2dense
    simp only
    rw [mapM_some hs]
    simp [h0]
  · unfold corpus2dense
    simp only
    have := fill_ok n corpus _ hs [] (junk.take corpus.length)
    simp only [List.length_nil, List.nil_append] at this
    rw [this, if_pos (by rw [List.length_take]; omega)]
    simp only [Nat.zero_add, if_true]
    rw [List.drop_eq_nil_of_le (by rw [List.length_take]; omega), List.append_nil]
  · simp [ofColumns]
  · simp [ofColumns]
  · intro r hr
    simp only [ofColumns, List.mem_map] at hr ⊢
    obtain ⟨i, _, rfl⟩ := hr
    simp
  · intro t j d ht hj
    simp only [Dense.entry, ofColumns, List.getD_eq_getElem?_getD, List.getElem?_map,
      List.getElem?_range ht, Option.map_some, Option.getD_some, hj]

/-- **C110.** A wrong number of documents raises, as does a corpus without documents if the number is
not given. -/
theorem C110_corpus2dense_wrong (corpus : List (List (Nat × K))) (n nd : Nat)
    (h : ∀ d ∈ corpus, ∀ p ∈ d, p.1 < n) (junk : List (List K)) (hj : nd ≤ junk.length) :
    (nd < corpus.length → corpus2dense corpus n (some nd) junk = .error .index) ∧
    (corpus.length < nd → corpus2dense corpus n (some nd) junk = .error .assertion) ∧
    corpus2dense ([] : List (List (Nat × K))) n none junk = .error .value := by
  have hs : ∀ d ∈ corpus, sparse2full d n = some ((List.range n).map fun i => getD (ofPairs d) i 0) :=
    fun d hd => sparse2full_some d n (h d hd)
  have hf := fill_ok n corpus _ hs [] (junk.take nd)
  simp only [List.length_nil, List.nil_append, List.length_take, Nat.min_eq_left hj] at hf
  refine ⟨?_, ?_, rfl⟩
  · intro hlt
    unfold corpus2dense
    simp only
    rw [hf, if_neg (by omega)]
  · intro hlt
    unfold corpus2dense
    simp only
    rw [hf, if_pos (by omega)]
    simp only [Nat.zero_add]
    rw [if_neg (by omega)]

theorem transpose_ofColumns (n : Nat) (cols : List (List K)) (h : ∀ c ∈ cols, c.length = n) :
    (ofColumns n cols).transpose = ⟨cols, n⟩ := by
  unfold ofColumns Dense.transpose
  simp only [List.length_map, List.length_range, List.map_map]
  congr 1
  apply List.ext_getElem (by simp)
  intro j h1 h2
  simp only [List.getElem_map, List.getElem_range]
  apply List.ext_getElem
  · simp [h _ (List.getElem_mem h2)]
  · intro i h3 h4
    simp only [List.getElem_map, List.getElem_range, Function.comp, List.getD_eq_getElem?_getD,
      List.getElem?_map, List.getElem?_eq_getElem h2, Option.map_some, Option.getD_some,
      List.getElem?_eq_getElem h4]

/-- **C110.** A corpus in canonical form comes back unchanged from `Dense2Corpus(corpus2dense(corpus))`. -/
theorem C110_dense_roundtrip {eps : K} (heps : 0 ≤ eps) {n : Nat} {corpus : List (List (Nat × K))}
    (h0 : corpus ≠ []) (h : ∀ d ∈ corpus, Canonical eps n d) :
    ∃ m, corpus2dense corpus n none [] = .ok m ∧ denseCorpus eps m true = corpus ∧
      denseCorpusLen m true = corpus.length := by
  have hs : ∀ d ∈ corpus, sparse2full d n = some ((List.range n).map fun i => getD (ofPairs d) i 0) :=
    fun d hd => sparse2full_some d n (h d hd).2.1
  refine ⟨ofColumns n (corpus.map fun d => (List.range n).map fun i => getD (ofPairs d) i 0), ?_, ?_, ?_⟩
  · unfold corpus2dense
    simp only
    rw [mapM_some hs]
    simp [h0]
  · unfold denseCorpus
    simp only [if_true]
    rw [transpose_ofColumns _ _ (by simp)]
    simp only [List.map_map]
    conv_rhs => rw [← List.map_id corpus]
    apply List.map_congr_left
    intro d hd
    have := C19_sparse_roundtrip eps heps d n (h d hd).1 (h d hd).2.1 (h d hd).2.2
    rw [hs d hd] at this
    simpa using this
  · unfold denseCorpusLen
    simp only [if_true]
    rw [transpose_ofColumns _ _ (by simp)]
    simp

/-- **C110.** Reading a dense matrix as a corpus, by columns or by rows: one document per column
(row), with exactly the entries of magnitude above the threshold, by increasing position. -/
theorem C110_dense_corpus (eps : K) (m : Dense K) (hm : m.WF) :
    (denseCorpus eps m true).length = m.cols ∧ (denseCorpus eps m false).length = m.rows.length ∧
    denseCorpusLen m true = m.cols ∧ denseCorpusLen m false = m.rows.length ∧
    (∀ j d, (denseCorpus eps m true)[j]? = some d → (d.map (·.1)).Pairwise (· < ·) ∧
      ∀ i x, (i, x) ∈ d ↔ i < m.rows.length ∧ x = m.entry i j ∧ eps < |x|) ∧
    (∀ i d, (denseCorpus eps m false)[i]? = some d → (d.map (·.1)).Pairwise (· < ·) ∧
      ∀ j x, (j, x) ∈ d ↔ j < m.cols ∧ x = m.entry i j ∧ eps < |x|) := by
  refine ⟨by simp [denseCorpus, Dense.transpose], by simp [denseCorpus], by simp [denseCorpusLen, Dense.transpose],
    by simp [denseCorpusLen], ?_, ?_⟩
  · intro j d hd
    simp only [denseCorpus, if_true, List.getElem?_map, Dense.transpose] at hd
    obtain ⟨c, hc, rfl⟩ := Option.map_eq_some_iff.1 hd
    obtain ⟨j', hj', rfl⟩ := Option.map_eq_some_iff.1 hc
    have : j = j' := by
      have := List.getElem?_eq_some_iff.1 hj'
      simpa using this.2
    subst this
    refine ⟨C19_ids_increasing eps _, fun i x => ?_⟩
    rw [C19_full2sparse_entries]
    simp only [List.getElem?_map, Dense.entry, List.getD_eq_getElem?_getD]
    constructor
    · rintro ⟨h1, h2⟩
      obtain ⟨r, hr, rfl⟩ := Option.map_eq_some_iff.1 h1
      exact ⟨(List.getElem?_eq_some_iff.1 hr).1, by simp [hr], h2⟩
    · rintro ⟨h1, h2, h3⟩
      refine ⟨?_, h3⟩
      rw [List.getElem?_eq_getElem h1] at h2 ⊢
      simp [h2]
  · intro i d hd
    simp only [denseCorpus, Bool.false_eq_true, if_false, List.getElem?_map] at hd
    obtain ⟨r, hr, rfl⟩ := Option.map_eq_some_iff.1 hd
    refine ⟨C19_ids_increasing eps _, fun j x => ?_⟩
    rw [C19_full2sparse_entries]
    have hl : r.length = m.cols := hm r (List.mem_of_getElem? hr)
    simp only [Dense.entry, List.getD_eq_getElem?_getD, hr, Option.getD_some]
    constructor
    · rintro ⟨h1, h2⟩
      exact ⟨by rw [← hl]; exact (List.getElem?_eq_some_iff.1 h1).1, by simp [h1], h2⟩
    · rintro ⟨h1, h2, h3⟩
      refine ⟨?_, h3⟩
      rw [List.getElem?_eq_getElem (by rw [hl]; exact h1)] at h2 ⊢
      simp [h2]

/-! ## Sparse matrices -/

theorem csc_parts (corpus : List (List (Nat × K))) (nt : Option Nat) :
    (corpus2cscSlow nt corpus).indices = corpus.flatten.map (·.1) ∧
    (corpus2cscSlow nt corpus).data = corpus.flatten.map (·.2) ∧
    (corpus2cscSlow nt corpus).indptr = 0 :: offsetsFrom 0 corpus := by
  simp only [corpus2cscSlow, slow_fold]
  simp

theorem slice_doc (corpus : List (List (Nat × K))) (nt : Option Nat) {j : Nat} (hj : j < corpus.length) :
    slice (corpus2cscSlow nt corpus) ((corpus.take j).flatten.length) ((corpus.take (j + 1)).flatten.length) =
      corpus[j] := by
  obtain ⟨h1, h2, _⟩ := csc_parts corpus nt
  unfold slice
  rw [h1, h2]
  simp only [← List.map_take, ← List.map_drop]
  rw [List.zip_map']
  simp only [Prod.mk.eta, List.map_id']
  have hsplit : corpus = corpus.take j ++ corpus[j] :: corpus.drop (j + 1) := by
    rw [← List.drop_eq_getElem_cons hj, List.take_append_drop]
  have ht : corpus.take (j + 1) = corpus.take j ++ [corpus[j]] := by
    rw [List.take_add_one, List.getElem?_eq_getElem hj]; rfl
  have hf : corpus.flatten = (corpus.take j).flatten ++ (corpus[j] ++ (corpus.drop (j + 1)).flatten) := by
    conv_lhs => rw [hsplit]
    rw [List.flatten_append, List.flatten_cons]
  rw [ht, hf, List.flatten_append]
  generalize (corpus.take j).flatten = X
  simp [List.take_append]

theorem indptr_get (corpus : List (List (Nat × K))) (nt : Option Nat) {j : Nat} (hj : j ≤ corpus.length) :
    (corpus2cscSlow nt corpus).indptr[j]? = some ((corpus.take j).flatten.length) := by
  rw [(csc_parts corpus nt).2.2]
  have := offsets_getD corpus 0 j hj
  rw [Nat.zero_add] at this
  rw [← this, List.getD_eq_getElem?_getD, List.getElem?_eq_getElem (by simp [length_offsetsFrom]; omega)]
  rfl

theorem indptr_length (corpus : List (List (Nat × K))) (nt : Option Nat) :
    (corpus2cscSlow nt corpus).indptr.length = corpus.length + 1 := by
  rw [(csc_parts corpus nt).2.2]
  simp [length_offsetsFrom]

/-- **C110.** Every corpus comes back unchanged from `Sparse2Corpus(corpus2csc(corpus))`, with the
same order, repeated ids and zero weights; the same for a matrix with the documents as rows. -/
theorem C110_sparse_roundtrip (corpus : List (List (Nat × K))) (nt : Option Nat) :
    sparseIter (sparseInit (.inl (corpus2cscSlow nt corpus))) = corpus ∧
    sparseIter (sparseInit (.inr ⟨corpus2cscSlow nt corpus⟩)) = corpus ∧
    sparseLength (sparseInit (.inl (corpus2cscSlow nt corpus))) = corpus.length := by
  have key : sparseIter (corpus2cscSlow nt corpus) = corpus := by
    unfold sparseIter
    apply List.ext_getElem
    · simp [indptr_length]
    · intro j h1 h2
      have e1 := indptr_get corpus nt (j := j) (by omega)
      have e2 := indptr_get corpus nt (j := j + 1) (by omega)
      rw [List.getElem?_eq_getElem (by rw [indptr_length]; omega)] at e1 e2
      injection e1 with e1
      injection e2 with e2
      simp only [List.getElem_map, List.getElem_zip, List.getElem_tail, e1, e2]
      exact slice_doc corpus nt h2
  exact ⟨key, key, (C19_csc_entries corpus nt).1⟩

/-- **C110.** `Sparse2Corpus(...)[i]` is document `i`, for `i` from 0 to the number of documents minus
1, and raises IndexError from there on. -/
theorem C110_sparse_getitem (corpus : List (List (Nat × K))) (nt : Option Nat) (i : Nat) :
    sparseGet (corpus2cscSlow nt corpus) i =
      match corpus[i]? with
      | some d => .ok d
      | none => .error .index := by
  have hget : ∀ j : Nat, npGet (corpus2cscSlow nt corpus).indptr j =
      match (corpus2cscSlow nt corpus).indptr[j]? with
      | some x => .ok x
      | none => .error .index := by
    intro j
    unfold npGet
    simp only
    rw [if_neg (show ¬ ((j : Int) < 0) by omega), if_neg (show ¬ ((j : Int) < 0) by omega), Int.toNat_natCast]
    cases (corpus2cscSlow nt corpus).indptr[j]? <;> rfl
  unfold sparseGet
  have hi : ((i : Int) + 1) = ((i + 1 : Nat) : Int) := by omega
  rw [hi, hget, hget]
  by_cases h : i < corpus.length
  · rw [indptr_get corpus nt (by omega), indptr_get corpus nt (by omega)]
    simp only [List.getElem?_eq_getElem h]
    rw [slice_doc corpus nt h]
  · have hn : (corpus2cscSlow nt corpus).indptr[i + 1]? = none := by
      rw [List.getElem?_eq_none_iff, indptr_length]; omega
    have hc : corpus[i]? = none := List.getElem?_eq_none (by omega)
    rw [hn, hc]
    cases (corpus2cscSlow nt corpus).indptr[i]? <;> rfl

/-- **C110 (failure).** Negative numbers are off by one: `[-1]` is always a document without words,
`[-2]` is the last document, and so on; `[-(number of documents) - 1]` is the first. -/
theorem C110_sparse_negative (corpus : List (List (Nat × K))) (nt : Option Nat) :
    sparseGet (corpus2cscSlow nt corpus) (-1) = .ok [] ∧
    ∀ k : Nat, k < corpus.length →
      sparseGet (corpus2cscSlow nt corpus) (-(k : Int) - 2) =
        .ok (corpus.getD (corpus.length - 1 - k) []) := by
  have hneg : ∀ j : Nat, j ≤ corpus.length → npGet (corpus2cscSlow nt corpus).indptr (-(j : Int) - 1) =
      .ok ((corpus.take (corpus.length - j)).flatten.length) := by
    intro j hj
    unfold npGet
    simp only
    rw [if_pos (show -(j : Int) - 1 < 0 by omega), indptr_length]
    have e : (-(j : Int) - 1 + ((corpus.length + 1 : Nat) : Int)) = ((corpus.length - j : Nat) : Int) := by omega
    rw [e, if_neg (by omega), Int.toNat_natCast, indptr_get corpus nt (by omega)]
  constructor
  · unfold sparseGet
    have h1 := hneg 0 (by omega)
    simp only [Nat.cast_zero, neg_zero, zero_sub] at h1
    rw [h1]
    simp only
    have h2 : npGet (corpus2cscSlow nt corpus).indptr (-1 + 1) = .ok 0 := by
      rw [(csc_parts corpus nt).2.2]; rfl
    rw [h2]
    simp [slice]
  · intro k hk
    unfold sparseGet
    have h1 := hneg (k + 1) (by omega)
    have h2 := hneg k (by omega)
    have e1 : (-((k + 1 : Nat) : Int) - 1) = -(k : Int) - 2 := by omega
    have e2 : -(k : Int) - 2 + 1 = -(k : Int) - 1 := by omega
    rw [e1] at h1
    rw [h1, e2, h2]
    simp only
    have e3 : corpus.length - (k + 1) = corpus.length - 1 - k := by omega
    have e4 : corpus.length - k = corpus.length - 1 - k + 1 := by omega
    rw [e3, e4, slice_doc corpus nt (by omega)]
    rw [List.getD_eq_getElem?_getD, List.getElem?_eq_getElem (by omega)]
    rfl

/-! ## Vectors in any format -/

/-- **C110.** `any2sparse` gives the same list for a document in canonical form, for the dense vector
and for the one-row sparse matrix of it; entries of magnitude up to the threshold are dropped; a
sparse matrix with any other number of rows raises. -/
theorem C110_any2sparse {eps : K} (heps : 0 ≤ eps) {n : Nat} {d : List (Nat × K)} (h : Canonical eps n d) :
    any2sparse eps (.bow d) = .ok d ∧ any2sparse eps (.scipy [d]) = .ok d ∧
    (∃ v, sparse2full d n = some v ∧ any2sparse eps (.dense v) = .ok d) ∧
    (∀ e : List (Nat × K), ∃ r, any2sparse eps (.bow e) = .ok r ∧ any2sparse eps (.scipy [e]) = .ok r ∧
      r.Sublist e ∧ ∀ p, p ∈ r ↔ p ∈ e ∧ eps < |p.2|) ∧
    (∀ rows : List (List (Nat × K)), rows.length ≠ 1 → any2sparse eps (.scipy rows) = .error .assertion) := by
  have hf : (d.filter fun p => decide (eps < |p.2|)) = d := by
    rw [List.filter_eq_self]
    intro p hp
    exact decide_eq_true (h.2.2 p hp)
  refine ⟨?_, ?_, ?_, ?_, ?_⟩
  · simp only [any2sparse, hf]
  · simp only [any2sparse, scipy2sparse, hf]
  · have h1 := sparse2full_some d n h.2.1
    have h2 := C19_sparse_roundtrip eps heps d n h.1 h.2.1 h.2.2
    rw [h1] at h2
    exact ⟨_, h1, by simpa [any2sparse] using h2⟩
  · intro e
    refine ⟨_, rfl, rfl, List.filter_sublist, fun p => ?_⟩
    simp [List.mem_filter]
  · intro rows hr
    match rows, hr with
    | [], _ => rfl
    | [_], hr => exact absurd rfl hr
    | _ :: _ :: _, _ => rfl

/-- **C110.** `Scipy2Corpus` yields for every vector what `any2sparse` gives. -/
theorem C110_scipy_corpus (eps : K) (vecs : List (List K ⊕ List (List (Nat × K)))) (docs : List (List (Nat × K))) :
    scipyCorpus eps vecs = .ok docs ↔
      List.Forall₂ (fun v d => any2sparse eps (match v with | .inl v => .dense v | .inr r => .scipy r) = .ok d)
        vecs docs := by
  unfold scipyCorpus
  induction vecs generalizing docs with
  | nil =>
    simp only [List.mapM_nil, List.forall₂_nil_left_iff]
    exact ⟨fun h => by injection h with h; exact h.symm, fun h => by rw [h]; rfl⟩
  | cons v vecs ih =>
    rw [List.mapM_cons]
    have hv : oneVec eps v = any2sparse eps (match v with | .inl v => .dense v | .inr r => .scipy r) := by
      cases v <;> rfl
    rw [List.forall₂_cons_left_iff]
    simp only [← hv]
    cases hr : oneVec eps v with
    | error e =>
      constructor
      · intro h; cases h
      · rintro ⟨d, _, h, _⟩
        cases h
    | ok d =>
      cases hm : vecs.mapM (oneVec eps) with
      | error e =>
        constructor
        · intro h
          cases h
        · rintro ⟨_, ds, _, h2, _⟩
          rw [← ih, hm] at h2
          cases h2
      | ok ds =>
        constructor
        · intro h
          cases h
          exact ⟨d, ds, rfl, (ih ds).1 hm, rfl⟩
        · rintro ⟨d', ds', h1, h2, rfl⟩
          rw [← ih, hm] at h2
          cases h1
          cases h2
          rfl

/-- **C110.** `pad` keeps every entry, adds the given numbers of rows and columns (none if negative),
and fills them with zeros. -/
theorem C110_pad (m : Dense K) (hm : m.WF) (padrow padcol : Int) :
    (pad m padrow padcol).rows.length = m.rows.length + padrow.toNat ∧
    (pad m padrow padcol).cols = m.cols + padcol.toNat ∧ (pad m padrow padcol).WF ∧
    ∀ i j, (pad m padrow padcol).entry i j = m.entry i j := by
  have h1 : (if padrow < 0 then 0 else padrow).toNat = padrow.toNat := by split <;> omega
  have h2 : (if padcol < 0 then 0 else padcol).toNat = padcol.toNat := by split <;> omega
  refine ⟨by simp [pad, h1], by simp [pad, h2], ?_, ?_⟩
  · intro r hr
    simp only [pad, List.mem_append, List.mem_map, List.mem_replicate] at hr ⊢
    rcases hr with ⟨r', hr', rfl⟩ | ⟨_, rfl⟩
    · simp [hm r' hr']
    · simp
  · intro i j
    have hz : ∀ k j : Nat, ((List.replicate k (0 : K))[j]?).getD 0 = 0 := by
      intro k j
      rw [List.getElem?_replicate]
      split <;> rfl
    simp only [pad, Dense.entry, List.getD_eq_getElem?_getD]
    by_cases hi : i < m.rows.length
    · rw [List.getElem?_append_left (by simpa using hi), List.getElem?_map, List.getElem?_eq_getElem hi]
      simp only [Option.map_some, Option.getD_some]
      by_cases hj : j < m.rows[i].length
      · rw [List.getElem?_append_left hj]
      · rw [List.getElem?_append_right (by omega), hz, List.getElem?_eq_none (by omega)]
        rfl
    · rw [List.getElem?_append_right (by simpa using hi), List.getElem?_eq_none (l := m.rows) (by omega)]
      rw [h1, h2, List.getElem?_replicate]
      split
      · simp only [Option.getD_some, hz]; rfl
      · rfl

/-! ## Distances -/

/-- **C110.** For matrices of one row with other than two columns, `hellinger` is the Hellinger
distance. -/
theorem C110_hellinger_row (v w : List ℝ) (h : v.length ≠ 2 ∨ w.length ≠ 2) :
    hellinger (.rows [v]) (.rows [w]) =
      some (√(0.5 * (List.zipWith (fun a b => (√a - √b) ^ 2) v w).sum)) := by
  have : (isbow (.rows [v]) && isbow (.rows [w])) = false := by
    simp only [isbow]
    rcases h with h | h <;> simp [h]
  unfold hellinger
  rw [this]
  simp [flatten]

/-- **C110 (failure).** A matrix of one row with two columns is taken for a bag of words, with the
first number as the id: `hellinger` then returns a number that has nothing to do with the distance
unless the first numbers are equal. -/
theorem C110_hellinger_two (a b c d : ℝ) (hac : a ≠ c) (hb : 0 ≤ b) (hd : 0 ≤ d) :
    hellinger (.rows [[a, b]]) (.rows [[c, d]]) = some (√(0.5 * (b + d))) := by
  unfold hellinger
  have h1 : (isbow (.rows [[a, b]]) && isbow (.rows [[c, d]])) = true := rfl
  rw [h1]
  have h2 : asDict (.rows [[a, b]]) = some [(a, b)] := rfl
  have h3 : asDict (.rows [[c, d]]) = some [(c, d)] := rfl
  simp only [if_true, h2, h3]
  congr 2
  unfold hellingerDict
  congr 1
  have hk : (keys ([(a, b)] : PyDict ℝ ℝ) ++ keys ([(c, d)] : PyDict ℝ ℝ)).toFinset = {a, c} := by
    ext x; simp
  rw [hk, Finset.sum_pair hac]
  have ea : getD ([(a, b)] : PyDict ℝ ℝ) a 0 = b := by simp [getD, get?_cons]
  have eb : getD ([(c, d)] : PyDict ℝ ℝ) a 0 = 0 := by simp [getD, get?_cons, hac.symm]
  have ec : getD ([(a, b)] : PyDict ℝ ℝ) c 0 = 0 := by simp [getD, get?_cons, hac]
  have ed : getD ([(c, d)] : PyDict ℝ ℝ) c 0 = d := by simp [getD, get?_cons]
  rw [ea, eb, ec, ed, Real.sqrt_zero, sub_zero, zero_sub, neg_sq, Real.sq_sqrt hb, Real.sq_sqrt hd]

/-- **C110 (failure).** Two distributions without common support, at distance 1, are reported at
distance √½. -/
theorem C110_hellinger_wrong :
    hellinger (.rows [[1, 0]]) (.rows [[0, 1]]) = some (√0.5) ∧
    hellinger (.flat [1, 0]) (.flat [0, 1]) = some 1 := by
  constructor
  · rw [C110_hellinger_two 1 0 0 1 (by norm_num) le_rfl (by norm_num)]
    norm_num
  · simp [hellinger, isbow, flatten]
    norm_num

/-- **C110 (failure).** `jaccard` raises for two matrices with any other number of columns than
two. -/
theorem C110_jaccard_rows (m1 m2 : List (List ℝ)) (h : ∃ r, m1.head? = some r ∧ r.length ≠ 2) :
    jaccardRows m1 m2 = none := by
  obtain ⟨r, hr, h2⟩ := h
  cases m1 with
  | nil => simp at hr
  | cons r' m1 =>
    simp only [List.head?_cons, Option.some.injEq] at hr
    subst hr
    unfold jaccardRows
    simp [isbow, h2]

/-! ## Non-vacuity -/

example : Canonical (1 / 10 : ℚ) 4 [(0, 1), (3, -2)] := by
  refine ⟨by simp, by simp, ?_⟩
  intro p hp
  simp only [List.mem_cons, List.not_mem_nil, or_false] at hp
  rcases hp with rfl | rfl <;> norm_num [abs_of_pos, abs_of_neg]

example : corpus2dense [[(0, 1), (3, (-2 : ℚ))], [], [(1, 5)]] 4 (some 3) [[7, 7, 7, 7], [8, 8, 8, 8], [9, 9, 9, 9]] =
    .ok ⟨[[1, 0, 0], [0, 0, 5], [0, 0, 0], [-2, 0, 0]], 3⟩ := by decide +kernel

example : sparseGet (corpus2cscSlow none [[(2, (1 : ℚ)), (0, 0), (2, 3)], [(1, 4)]]) (-1) = .ok [] ∧
    sparseGet (corpus2cscSlow none [[(2, (1 : ℚ)), (0, 0), (2, 3)], [(1, 4)]]) (-2) = .ok [(1, 4)] ∧
    sparseGet (corpus2cscSlow none [[(2, (1 : ℚ)), (0, 0), (2, 3)], [(1, 4)]]) 0 = .ok [(2, 1), (0, 0), (2, 3)] := by
  decide +kernel

/-- **C110.** Two matrices of two columns, with different first numbers in the rows of each, are compared as bags of words: one
minus the sum of the smaller of the second numbers of rows with equal first numbers, by the sum of all second numbers. -/
theorem C110_jaccard_two (p1 p2 : List (ℝ × ℝ)) (h1 : (p1.map Prod.fst).Nodup) (h2 : (p2.map Prod.fst).Nodup)
    (hs : (p1.map Prod.snd).sum + (p2.map Prod.snd).sum ≠ 0) :
    jaccardRows (p1.map fun p => [p.1, p.2]) (p2.map fun p => [p.1, p.2]) =
      some (1 - (p1.map fun p => min p.2 (((p2.find? fun q => decide (q.1 = p.1)).map Prod.snd).getD 0)).sum /
        ((p1.map Prod.snd).sum + (p2.map Prod.snd).sum)) := by
  have hb : ∀ p : List (ℝ × ℝ), isbow (.rows (p.map fun q => [q.1, q.2])) = true := by
    intro p; cases p <;> rfl
  have hm : ∀ p : List (ℝ × ℝ), (p.map fun q => [q.1, q.2]).mapM rowPair = some p := by
    intro p
    induction p with
    | nil => rfl
    | cons q p ih => simp [rowPair, ih]
  have hg : ∀ (d : List (ℝ × ℝ)) (k : ℝ), getD (d : PyDict ℝ ℝ) k 0 = ((d.find? fun q => decide (q.1 = k)).map Prod.snd).getD 0 := by
    intro d k
    induction d with
    | nil => rfl
    | cons q d ih =>
      unfold getD at ih ⊢
      rw [get?_cons, List.find?_cons]
      by_cases e : q.1 = k
      · simp [e]
      · simp only [e, if_false, decide_false]
        exact ih
  have e1 : ofPairs p1 = p1 := ofPairs_of_WF h1
  have e2 : ofPairs p2 = p2 := ofPairs_of_WF h2
  unfold jaccardRows
  rw [hb, hb]
  simp only [Bool.and_self, if_true, hm, e1, e2, if_neg hs, hg]

end Verif.Convert
