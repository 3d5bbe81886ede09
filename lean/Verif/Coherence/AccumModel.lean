import Mathlib.Tactic.Common
import Mathlib.Data.Finset.Card

/-!
# Occurrence accumulators (`gensim/topic_coherence/text_analysis.py`)

`rel` is the iteration order of the set `relevant_ids` (any duplicate-free list): contiguous ids are
positions in it.  The dictionary is taken to be a bijection between words and ids, so windows of
words and windows of ids carry the same information; counters are unbounded (`uint32` in the code).
-/

namespace Verif.Coherence

variable {W : Type} [DecidableEq W]

/-- Models `id2contiguous[word_id]` (`KeyError` = `none`),
gensim/topic_coherence/text_analysis.py 109: `{word_id: n for n, word_id in
enumerate(relevant_ids)}`. -/
def contiguous (rel : List W) (w : W) : Option Nat :=
  if w ∈ rel then some (rel.idxOf w) else none

/-! ## Inverted index over bag-of-words documents -/

/-- State of `InvertedIndexBased`, gensim/topic_coherence/text_analysis.py 107-111, 240-241: one set
of document numbers per contiguous id, and `_num_docs`. -/
structure Index where
  sets : List (Finset Nat)
  numDocs : Nat

/-- Models `InvertedIndexBased.__init__`, gensim/topic_coherence/text_analysis.py 240-241. -/
def Index.init (rel : List W) : Index := { sets := rel.map fun _ => ∅, numDocs := 0 }

/-- Models `self._inverted_index[i].add(d)` (`IndexError` out of range = `none`),
gensim/topic_coherence/text_analysis.py 264, 323. -/
def addTo (sets : List (Finset Nat)) (i d : Nat) : Option (List (Finset Nat)) :=
  if i < sets.length then some (sets.modify i fun s => insert d s) else none

/-- Models the loop `for word_id in top_ids_in_doc: … .add(self._num_docs)`,
gensim/topic_coherence/text_analysis.py 263-264. -/
def addAll (d : Nat) : List Nat → List (Finset Nat) → Option (List (Finset Nat))
  | [], sets => some sets
  | i :: is, sets => match addTo sets i d with
    | none => none
    | some sets' => addAll d is sets'

/-- Models `CorpusAccumulator.analyze_text`, gensim/topic_coherence/text_analysis.py 259-264.  A
document is a list of `(id, count)` pairs.  The intersection is iterated in the order of `rel`; the
result does not depend on the order. -/
def analyzeDoc {C : Type} (rel : List W) (s : Index) (doc : List (W × C)) : Option Index :=
  (addAll s.numDocs ((rel.filter fun w => decide (w ∈ doc.map Prod.fst)).map rel.idxOf) s.sets).map
    fun sets => { s with sets := sets }

/-- Models `CorpusAccumulator.accumulate`, gensim/topic_coherence/text_analysis.py 266-270. -/
def accumulateCorpus {C : Type} (rel : List W) : Index → List (List (W × C)) → Option Index
  | s, [] => some s
  | s, doc :: docs => match analyzeDoc rel s doc with
    | none => none
    | some s' => accumulateCorpus rel { s' with numDocs := s'.numDocs + 1 } docs

/-- Models `_get_occurrences`, gensim/topic_coherence/text_analysis.py 134-136, 243-244. -/
def Index.occurrences (rel : List W) (s : Index) (w : W) : Option Nat :=
  (contiguous rel w).bind fun i => s.sets[i]?.map Finset.card

/-- Models `_get_co_occurrences`, gensim/topic_coherence/text_analysis.py 141-143, 246-249. -/
def Index.coOccurrences (rel : List W) (s : Index) (a b : W) : Option Nat :=
  (contiguous rel a).bind fun i => (contiguous rel b).bind fun j =>
    s.sets[i]?.bind fun s1 => s.sets[j]?.map fun s2 => (s1 ∩ s2).card

/-! ## Sliding windows -/

/-- Models `strided_windows`, gensim/utils.py 1877-1889 (zero windows when the document is
shorter). -/
def stridedWindows {α : Type} (k : Nat) (doc : List α) : List (List α) :=
  if k = doc.length then [doc]
  else if doc.length < k then []
  else (List.range (doc.length - k + 1)).map fun i => (doc.drop i).take k

/-- Models `_iter_windows` with `ignore_below_size=False`, gensim/utils.py 1920-1927. -/
def docWindows {α : Type} (k : Nat) (doc : List α) : List (List α) :=
  match stridedWindows k doc with
  | [] => [doc]
  | w :: ws => w :: ws

/-- Models `iter_windows` with `include_doc_num=True`, gensim/utils.py 1892-1917: the windows of
every document with the number of their document. -/
def iterWindows {α : Type} (k : Nat) (docs : List (List α)) : List (Nat × List α) :=
  docs.zipIdx.flatMap fun p => (docWindows k p.1).map fun w => (p.2, w)

/-- Models `text_is_relevant`, gensim/topic_coherence/text_analysis.py 309-314. -/
def textIsRelevant (rel : List W) (text : List W) : Bool := text.any fun w => decide (w ∈ rel)

/-- Models the token translation of `_iter_texts`, gensim/topic_coherence/text_analysis.py 305-307;
`_none_token` is `len(relevant_ids)` (288). -/
def tokenId (rel : List W) (w : W) : Nat := (contiguous rel w).getD rel.length

/-- Models `_iter_texts`, gensim/topic_coherence/text_analysis.py 300-307. -/
def iterTexts (rel : List W) (texts : List (List W)) : List (List Nat) :=
  (texts.filter (textIsRelevant rel)).map fun text => text.map (tokenId rel)

/-! ## InvertedIndexAccumulator -/

/-- Models `InvertedIndexAccumulator.analyze_text`, gensim/topic_coherence/text_analysis.py 320-323.
The guard `word_id is not self._none_token` compares the identity of a numpy scalar with that of a
Python integer, so it is always true and every token of the window is added. -/
def analyzeInverted (s : Index) (window : List Nat) : Option Index :=
  (addAll s.numDocs window s.sets).map fun sets => { s with sets := sets }

/-- Models the loop of `WindowedTextsAnalyzer.accumulate` for `InvertedIndexAccumulator`,
gensim/topic_coherence/text_analysis.py 295-298. -/
def runInverted : Index → List (Nat × List Nat) → Option Index
  | s, [] => some s
  | s, w :: ws => match analyzeInverted s w.2 with
    | none => none
    | some s' => runInverted { s' with numDocs := s'.numDocs + 1 } ws

/-- Models `InvertedIndexAccumulator.accumulate`, gensim/topic_coherence/text_analysis.py 290-298. -/
def accumulateInverted (rel : List W) (k : Nat) (s : Index) (texts : List (List W)) :
    Option Index :=
  runInverted s (iterWindows k (iterTexts rel texts))

/-! ## WordOccurrenceAccumulator -/

/-- State of `WordOccurrenceAccumulator`, gensim/topic_coherence/text_analysis.py 329-335, 356-358:
`_occurrences`, `_co_occurrences`, `_uniq_words`, `_counter`, `_current_doc_num` (`-1` = `none`),
`_token_at_edge`, `_num_docs`. -/
structure Acc where
  occ : Nat → Nat
  co : Nat → Nat → Nat
  uniq : Nat → Bool
  counter : Nat → Nat → Nat
  cur : Option Nat
  edge : Option Nat
  numDocs : Nat

/-- Models `WordOccurrenceAccumulator.__init__`, gensim/topic_coherence/text_analysis.py 329-335. -/
def Acc.init : Acc :=
  { occ := fun _ => 0, co := fun _ _ => 0, uniq := fun _ => false, counter := fun _ _ => 0,
    cur := none, edge := none, numDocs := 0 }

/-- Models the update of `_uniq_words` for the first window of a document,
gensim/topic_coherence/text_analysis.py 375-376. -/
def resetMask (window : List Nat) : Nat → Bool := fun t => decide (t ∈ window)

/-- Models the update of `_uniq_words` for a following window,
gensim/topic_coherence/text_analysis.py 379-380: first the token at the edge is cleared, then the
last token of the window is set. -/
def moveMask (u : Nat → Bool) (edge : Option Nat) (window : List Nat) : Nat → Bool :=
  fun t => if window.getLast? = some t then true else if edge = some t then false else u t

/-- Models `_slide_window`, gensim/topic_coherence/text_analysis.py 373-382. -/
def slideWindow (s : Acc) (n : Nat) (window : List Nat) : Acc :=
  if s.cur ≠ some n then
    { s with uniq := resetMask window, cur := some n, edge := window.head? }
  else
    { s with uniq := moveMask s.uniq s.edge window, edge := window.head? }

/-- Models the counting part of `analyze_text`, gensim/topic_coherence/text_analysis.py 368-371, for
`v` relevant words: `mask` is the first `v` flags, and `itertools.combinations(np.nonzero(mask)[0],
2)` is the pairs `i < j` of flagged positions. -/
def countMask (v : Nat) (s : Acc) : Acc :=
  if (List.range v).any s.uniq then
    { s with
      occ := fun t => s.occ t + if t < v ∧ s.uniq t = true then 1 else 0
      counter := fun i j =>
        s.counter i j + if i < j ∧ j < v ∧ s.uniq i = true ∧ s.uniq j = true then 1 else 0 }
  else s

/-- Models one turn of the loop of `WindowedTextsAnalyzer.accumulate`,
gensim/topic_coherence/text_analysis.py 295-297, 366-371. -/
def accStep (v : Nat) (s : Acc) (w : Nat × List Nat) : Acc :=
  let s' := countMask v (slideWindow s w.1 w.2)
  { s' with numDocs := s'.numDocs + 1 }

/-- Models `partial_accumulate` on the (already translated) documents,
gensim/topic_coherence/text_analysis.py 346-364. -/
def partialAccumulate (v k : Nat) (s : Acc) (docs : List (List Nat)) : Acc :=
  let s' := (iterWindows k docs).foldl (accStep v)
    { s with cur := none, edge := none, counter := fun _ _ => 0 }
  { s' with co := fun i j => s'.co i j + s'.counter i j }

/-- Models `_symmetrize`, gensim/topic_coherence/text_analysis.py 384-396: the diagonal is set to
the occurrences, then `co + co.T - diag`. -/
def symmetrize (s : Acc) : Acc :=
  { s with co := fun i j =>
      if i = j then s.occ i + s.occ i - s.occ i else s.co i j + s.co j i }

/-- Models `WordOccurrenceAccumulator.accumulate`, gensim/topic_coherence/text_analysis.py 340-344. -/
def accumulate (rel : List W) (k : Nat) (s : Acc) (texts : List (List W)) : Acc :=
  symmetrize (partialAccumulate rel.length k s (iterTexts rel texts))

/-- Models `get_occurrences`, gensim/topic_coherence/text_analysis.py 194-200, 398-399. -/
def Acc.occurrences (rel : List W) (s : Acc) (w : W) : Option Nat :=
  (contiguous rel w).map s.occ

/-- Models `get_co_occurrences`, gensim/topic_coherence/text_analysis.py 209-213, 401-402. -/
def Acc.coOccurrences (rel : List W) (s : Acc) (a b : W) : Option Nat :=
  (contiguous rel a).bind fun i => (contiguous rel b).map fun j => s.co i j

end Verif.Coherence
