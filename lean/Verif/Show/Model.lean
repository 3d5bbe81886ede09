import Mathlib.Algebra.Order.Field.Basic
import Mathlib.Algebra.Order.Group.Abs
import Mathlib.Data.Rat.Defs
import Verif.Py.Sort

/-!
# Showing topics

`gensim/matutils.py`: `argsort`.
`gensim/models/ldamodel.py`: `show_topics` (1152-1180), `show_topic` (1199), `get_topics` (1211-1212),
`get_topic_terms` (1231-1234), `top_topics` (1277-1286), `get_term_topics` (1386-1399).
`gensim/models/nmf.py`: `show_topics` (265-303), `show_topic` (324-331), `get_topic_terms` (352-360), `top_topics` (406-415).
`gensim/models/lsimodel.py`: `get_topics` (629-636), `show_topic` (662-667), `show_topics` (691-703).
`gensim/models/hdpmodel.py`: `HdpTopicFormatter` (991-1190).

Numbers are elements of an ordered field. A matrix of topics is the list of its rows, a row has one weight
per word. Words are looked up in `id2word`, `none` is `KeyError`. Logging and formatting as strings are left out.
-/

namespace Verif.Show
open Verif

variable {K W : Type} [Field K] [LinearOrder K] [IsStrictOrderedRing K]

/-! ### numpy -/

/-- The sorting functions of numpy. -/
structure Np (K : Type) where
  argsort : List K → List Nat
  argpartition : List K → Nat → List Nat

/-- `x[i]`. -/
def at' (x : List K) (i : Nat) : K := x.getD i 0

/-- models `matutils.argsort` (matutils.py:67-79). -/
def argsort (np : Np K) (x : List K) (topn : Option Int) (reverse : Bool) : List Nat :=
  let topn := topn.getD x.length
  if topn ≤ 0 then []
  else
    let x := if reverse then x.map (fun v => -v) else x
    if x.length ≤ topn then (np.argsort x).take topn.toNat
    else
      let most := (np.argpartition x topn.toNat).take topn.toNat
      (np.argsort (most.map (at' x))).map (fun j => most.getD j 0)

/-- A Python index into the rows, possibly negative; `none` is `IndexError`. -/
def pyRow {α : Type} (rows : List α) (i : Int) : Option α :=
  if 0 ≤ i then rows[i.toNat]? else if -(rows.length : Int) ≤ i then rows[(rows.length + i).toNat]? else none

/-- `topic / topic.sum()`. -/
def normalise (t : List K) : List K := t.map (fun v => v / t.sum)

/-- The words of the ids with their weights. -/
def named (id2word : Nat → Option W) (t : List K) (ids : List Nat) : Option (List (W × K)) :=
  ids.mapM (fun i => (id2word i).map (fun w => (w, at' t i)))

/-! ### LDA -/

/-- models ldamodel.py:1231-1234 `get_topic_terms`: the topic is normalised twice. -/
def ldaTerms (np : Np K) (lam : List (List K)) (topicid : Int) (topn : Int) : Option (List (Nat × K)) :=
  (pyRow (lam.map normalise) topicid).map (fun t =>
    (argsort np (normalise t) (some topn) true).map (fun i => (i, at' (normalise t) i)))

/-- models ldamodel.py:1199 `show_topic`. -/
def ldaShowTopic (np : Np K) (id2word : Nat → Option W) (lam : List (List K)) (topicid : Int) (topn : Int) :
    Option (List (W × K)) :=
  (ldaTerms np lam topicid topn).bind (fun ts => ts.mapM (fun p => (id2word p.1).map (fun w => (w, p.2))))

/-- models ldamodel.py:1152-1163 and nmf.py:277-286: the topics listed, `key` is `alpha` plus a little noise for LDA
and the fraction of zeros for NMF. `l[-n // 2:]` is the whole list for `n = 0`. -/
def chosen (np : Np K) (numTopics : Nat) (key : List K) (n : Int) : List Nat :=
  if n < 0 ∨ (numTopics : Int) ≤ n then List.range numTopics
  else
    let sorted := argsort np key none false
    sorted.take (n.toNat / 2) ++ (if n = 0 then sorted else sorted.drop (sorted.length - (n.toNat + 1) / 2))

/-- models ldamodel.py:1165-1180 `show_topics(formatted=False)`. -/
def ldaShowTopics (np : Np K) (id2word : Nat → Option W) (lam : List (List K)) (key : List K) (numTopics numWords : Int) :
    Option (List (Nat × List (W × K))) :=
  (chosen np lam.length key numTopics).mapM (fun i => (lam[i]?).bind (fun t =>
    (named id2word (normalise t) (argsort np (normalise t) (some numWords) true)).map (fun ws => (i, ws))))

/-- models ldamodel.py:1279-1286 and nmf.py:408-415 `top_topics`, given the topics and their coherence. -/
def topTopics (np : Np K) (id2word : Nat → Option W) (topics : List (List K)) (scores : List K) (topn : Int) :
    Option (List (List (K × W) × K)) :=
  (topics.mapM (fun t => (named id2word t (argsort np t (some topn) true)).map (fun ws => ws.map Prod.swap))).map
    (fun strs => pySort (fun a b => decide (b.2 ≤ a.2)) (strs.zip scores))

/-- How a word can be given to `get_term_topics`. -/
inductive Query (W : Type) | id (i : Nat) | word (w : W)

/-- models ldamodel.py:1390-1392. -/
def Query.toId (token2id : W → Option Nat) : Query W → Option Nat
  | .id i => some i
  | .word w => token2id w

/-- models ldamodel.py:1386-1399 `get_term_topics`: `expElogbeta` row by row, `token2id` the dictionary (a word that
it does not have gives an empty bag, and `[0]` an `IndexError`), `least` is `max(minimum_probability, 1e-8)`. -/
def termTopics (token2id : W → Option Nat) (expElogbeta : List (List K)) (q : Query W) (least : K) : Option (List (Nat × K)) :=
  (q.toId token2id).bind (fun i =>
    ((expElogbeta.zipIdx).mapM (fun (p : List K × Nat) => (p.1[i]?).map (fun v => (p.2, v)))).map
      (fun (vs : List (Nat × K)) => vs.filter (fun p => decide (least ≤ p.2))))

/-! ### NMF -/

/-- models nmf.py:352-360 `get_topic_terms`: the terms and, since the normalisation is done in place, the topics
afterwards. `topics` are the columns of the matrix. -/
def nmfTerms (np : Np K) (topics : List (List K)) (normalize : Bool) (topicid : Nat) (topn : Int) :
    Option (List (Nat × K) × List (List K)) :=
  (topics[topicid]?).map (fun t =>
    let t := if normalize then normalise t else t
    ((argsort np t (some topn) true).map (fun i => (i, at' t i)), topics.set topicid t))

/-- models nmf.py:268-275: the fraction of zeros of each topic. -/
def sparsity (topics : List (List K)) : List K :=
  topics.map (fun t => (t.countP (fun v => decide (v = 0)) : K) / t.length)

/-- models nmf.py:265-303 `show_topics(formatted=False)`. -/
def nmfShowTopics (np : Np K) (id2word : Nat → Option W) (topics : List (List K)) (normalize : Bool) (numTopics numWords : Int) :
    Option (List (Nat × List (W × K))) :=
  (chosen np topics.length (sparsity topics) numTopics).mapM (fun i => (topics[i]?).bind (fun t =>
    let t := if normalize then normalise t else t
    (named id2word t (argsort np t (some numWords) true)).map (fun ws => (i, ws))))

/-! ### LSI -/

/-- `np.sqrt(np.sum(np.dot(c, c)))`, for a function `sqrt`. -/
def norm (sqrt : K → K) (c : List K) : K := sqrt ((c.map (fun v => v * v)).sum)

/-- models lsimodel.py:629-636 `get_topics`; `u` has a row for each topic (`projection.u.T`). -/
def lsiTopics (sqrt : K → K) (u : List (List K)) : List (List K) := u.map (fun c => c.map (fun v => v / norm sqrt c))

/-- models lsimodel.py:662-667 `show_topic`: the empty string beyond the rank is the empty list. -/
def lsiShowTopic (np : Np K) (sqrt : K → K) (id2word : Nat → Option W) (u : List (List K)) (topicno : Int) (topn : Int) :
    Option (List (W × K)) :=
  if (u.length : Int) ≤ topicno then some []
  else (pyRow u topicno).bind (fun c =>
    (argsort np (c.map (fun v => |v|)) (some topn) true).mapM (fun i => (id2word i).map (fun w => (w, at' c i / norm sqrt c))))

/-- models lsimodel.py:691-703 `show_topics(formatted=False)`; `s` are the singular values. -/
def lsiShowTopics (np : Np K) (sqrt : K → K) (id2word : Nat → Option W) (u : List (List K)) (s : List K)
    (modelTopics : Nat) (numTopics numWords : Int) : Option (List (Nat × List (W × K))) :=
  let n := if numTopics < 0 then modelTopics else min numTopics.toNat modelTopics
  ((List.range n).filter (fun i => decide (i < s.length))).mapM (fun (i : Nat) =>
    (lsiShowTopic np sqrt id2word u i numWords).map (fun ws => (i, ws)))

/-! ### HDP -/

/-- `l[:n]`. -/
def pyTake {α : Type} (l : List α) : Option Int → List α
  | none => l
  | some n => if 0 ≤ n then l.take n.toNat else l.take (l.length - (-n).toNat)

/-- models hdpmodel.py:1047-1053 and 1130-1136: the words of a topic by weight, Python's `sorted` is stable; `none` for
`num_words` is `topic_data[:None]`, a negative one leaves out the last words. -/
def hdpTerms (id2word : Nat → Option W) (row : List K) (numWords : Option Int) : Option (List (W × K)) :=
  let temp := pySort (fun (a b : K × Nat) => decide (b.1 ≤ a.1)) (normalise row).zipIdx
  (pyTake temp numWords).mapM (fun p => (id2word p.2).map (fun w => (w, p.1)))

/-- models hdpmodel.py:1042-1065 `show_topics(formatted=False)`. -/
def hdpShowTopics (id2word : Nat → Option W) (data : List (List K)) (numTopics : Int) (numWords : Option Int) :
    Option (List (Nat × List (W × K))) :=
  (List.range (min (max numTopics 0).toNat data.length)).mapM (fun k => (data[k]?).bind (fun row =>
    (hdpTerms id2word row numWords).map (fun ws => (k, ws))))

/-- models hdpmodel.py:1124-1148 `show_topic(formatted=False)`. -/
def hdpShowTopic (id2word : Nat → Option W) (data : List (List K)) (topicId : Int) (topn : Option Int) : Option (List (W × K)) :=
  (pyRow data topicId).bind (fun row => hdpTerms id2word row topn)

end Verif.Show
