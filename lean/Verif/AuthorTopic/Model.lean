import Mathlib.Data.Rat.Defs
import Mathlib.Algebra.Order.Ring.Rat
import Mathlib.Order.Defs.LinearOrder
import Mathlib.Data.List.Dedup
import Verif.Py.Dict
import Verif.Py.Sort

/-!
# The author-topic model: author and document tables, inference, queries

`gensim/models/atmodel.py`.  The state is the four tables of the model (`author2doc`, `doc2author`,
`author2id`, `id2author`), the two counters, the stored corpus and the matrix `state.gamma`, one row per
author id.

Simplifications: author names are an arbitrary linearly ordered type `A` (Python compares strings by code
point); numbers are exact rationals; the digamma-based `exp(dirichlet_expectation(·))` is an arbitrary
function `ee` on rows; the rows drawn by `random_state.gamma` are inputs; the topics' `expElogbeta` is an
input.  The M step, perplexity logging and the distributed mode are not modelled here.
-/

namespace Verif.AuthorTopic

open Verif

/-- A document: `(word id, count)` pairs. -/
abbrev Doc := List (ℕ × ℚ)

/-- One row of `state.gamma`. -/
abbrev Row := List ℚ

/-- The fields of `AuthorTopicModel` set in `__init__` and changed by `update`
(`atmodel.py` 252-268, 303, 727-769). -/
structure St (A : Type) where
  /-- `self.author2doc` -/
  author2doc : PyDict A (List ℕ)
  /-- `self.doc2author` -/
  doc2author : PyDict ℕ (List A)
  /-- `self.author2id` -/
  author2id : PyDict A ℕ
  /-- `self.id2author` -/
  id2author : PyDict ℕ A
  /-- `self.num_authors` -/
  numAuthors : ℕ
  /-- `self.total_docs` -/
  totalDocs : ℕ
  /-- `self.corpus` (the unserialised list) -/
  corpus : List Doc
  /-- `self.state.gamma` -/
  gamma : List Row
deriving DecidableEq

/-- A model created without a corpus (`atmodel.py` 252-268, 303). -/
def St.empty (A : Type) : St A :=
  ⟨[], [], [], [], 0, 0, [], []⟩

/-- What can go wrong. -/
inductive Err
  /-- `ValueError` -/
  | value
  /-- `KeyError` -/
  | key
  /-- `AssertionError` -/
  | assertion
deriving DecidableEq, Repr

section

variable {A : Type} [LinearOrder A]

/-- `construct_doc2author` (`atmodel.py` 102-125); `n` is the number of documents of the corpus. -/
def constructDoc2Author (n : ℕ) (a2d : PyDict A (List ℕ)) : PyDict ℕ (List A) :=
  (List.range n).map fun d => (d, (a2d.filter fun p => decide (d ∈ p.2)).map Prod.fst)

/-- The set of all authors of `construct_author2doc` (`atmodel.py` 142-146), without
repetition. -/
def authorSet (d2a : PyDict ℕ (List A)) : List A :=
  (d2a.flatMap Prod.snd).dedup

/-- `construct_author2doc` (`atmodel.py` 128-155).  `order` is the order in which Python iterates over
the set of authors. -/
def constructAuthor2Doc (order : List A → List A) (d2a : PyDict ℕ (List A)) : PyDict A (List ℕ) :=
  (order (authorSet d2a)).map fun a =>
    (a, (d2a.filter fun p => decide (a ∈ p.2)).map Prod.fst)

/-- `not self.author2doc.get(a)` (`atmodel.py` 736, 760): true for a missing author and for an empty
document list. -/
def falsy (a2d : PyDict A (List ℕ)) (a : A) : Bool :=
  match PyDict.get? a2d a with
  | none => true
  | some ids => ids.isEmpty

/-- The list `new_authors` (`atmodel.py` 732-737). -/
def newAuthors (s : St A) (a2d : PyDict A (List ℕ)) : List A :=
  (pySort (fun a b => decide (a ≤ b)) (PyDict.keys a2d)).filter (falsy s.author2doc)

/-- The loop giving ids to new authors (`atmodel.py` 741-744); `i` is `a_id + self.num_authors`. -/
def assignIds (s : St A) : ℕ → List A → St A
  | _, [] => s
  | i, a :: as =>
    assignIds { s with author2id := s.author2id.set a i, id2author := s.id2author.set i a } (i + 1) as

/-- One step of the loop combining `author2doc` with the model's (`atmodel.py` 758-765). -/
def addDocs (t : PyDict A (List ℕ)) (p : A × List ℕ) : PyDict A (List ℕ) :=
  if falsy t p.1 then t.set p.1 p.2 else t.set p.1 (PyDict.getD t p.1 [] ++ p.2)

/-- `sorted(train_corpus_idx)` (`atmodel.py` 771-778): the distinct documents of all authors. -/
def trainIdx (a2d : PyDict A (List ℕ)) : List ℕ :=
  pySort (fun a b => decide (a ≤ b)) (a2d.flatMap Prod.snd).dedup

/-- The part of `update` before training when a corpus is given (`atmodel.py` 727-778): counters, corpus,
new authors, `gamma`, tables and the list of documents to train on.  `draw` are the rows drawn for new
authors.  The loop of lines 755-756 only assigns a local variable, so it has no effect. -/
def absorb (s : St A) (docs : List Doc) (a2d : PyDict A (List ℕ)) (d2a : PyDict ℕ (List A))
    (draw : ℕ → Row) : St A × List ℕ :=
  let new := newAuthors s a2d
  let s1 : St A := { s with totalDocs := s.totalDocs + docs.length, corpus := s.corpus ++ docs }
  let s2 := assignIds s1 s1.numAuthors new
  let a2d' := a2d.foldl addDocs s2.author2doc
  let d2a' := d2a.foldl (fun t p => t.set p.1 p.2) s2.doc2author
  ({ s2 with
      numAuthors := s2.numAuthors + new.length
      gamma := s2.gamma ++ (List.range new.length).map draw
      author2doc := a2d'
      doc2author := d2a' },
    trainIdx a2d')

/-- `update` up to training (`atmodel.py` 697-778).  `corpus` absent means continuing on the stored
documents.  The result `none` of the training list is the early return for an empty corpus. -/
def prepare (s : St A) (order : List A → List A) (corpus : Option (List Doc))
    (a2d : Option (PyDict A (List ℕ))) (d2a : Option (PyDict ℕ (List A))) (draw : ℕ → Row) :
    Except Err (St A × Option (List ℕ)) :=
  match corpus with
  | none =>
    if 0 < s.totalDocs then .ok (s, some (List.range s.totalDocs)) else .error .assertion
  | some docs =>
    match a2d, d2a with
    | none, none => .error .value
    | some m, none =>
      if docs.length = 0 then .ok (s, none)
      else
        let r := absorb s docs m (constructDoc2Author docs.length m) draw
        .ok (r.1, some r.2)
    | none, some m =>
      if docs.length = 0 then .ok (s, none)
      else
        let r := absorb s docs (constructAuthor2Doc order m) m draw
        .ok (r.1, some r.2)
    | some m, some m' =>
      if docs.length = 0 then .ok (s, none)
      else
        let r := absorb s docs m m' draw
        .ok (r.1, some r.2)

/-! ### Inference -/

/-- The fixed inputs of inference: `self.alpha`, `self.expElogbeta` as a function of topic and word,
`exp(dirichlet_expectation(·))` on a row, `self.iterations` and `self.gamma_threshold`. -/
structure Par where
  /-- `self.alpha` -/
  alpha : Row
  /-- `self.expElogbeta` -/
  beta : ℕ → ℕ → ℚ
  /-- `exp(dirichlet_expectation(row))`, entry by entry -/
  ee : Row → ℕ → ℚ
  /-- `self.iterations` -/
  iterations : ℕ
  /-- `self.gamma_threshold` -/
  threshold : ℚ

/-- `compute_phinorm` for one word (`atmodel.py` 374-396): the sum over authors and topics, plus
`1e-100`. -/
def phinorm (P : Par) (rows : List Row) (w : ℕ) : ℚ :=
  ((List.range P.alpha.length).map fun k => (rows.map fun r => P.ee r k).sum * P.beta k w).sum
    + 1 / 10 ^ 100

/-- The new row of one author: the assignment of `tilde_gamma[ai]` and the interpolation with the
author's row before the document (`atmodel.py` 489-496).  `n` is the author's number of documents, `g` the
row before, `t` the current row, `rows` the current rows of all the document's authors. -/
def newRow (P : Par) (rho : ℚ) (doc : Doc) (rows : List Row) (n : ℕ) (g t : Row) : Row :=
  (List.range P.alpha.length).map fun k =>
    (1 - rho) * g.getD k 0 +
      rho * (P.alpha.getD k 0 +
        n * P.ee t k * (doc.map fun w => w.2 / phinorm P rows w.1 * P.beta k w.1).sum)

/-- One round over the authors of the document (`atmodel.py` 484-503). -/
def roundRows (P : Par) (rho : ℚ) (doc : Doc) (ns : List ℕ) (gs ts : List Row) : List Row :=
  (ns.zip (gs.zip ts)).map fun p => newRow P rho doc ts p.1 p.2.1 p.2.2

/-- `mean_absolute_difference` of two matrices (`atmodel.py` 507). -/
def meanDiff (a b : List Row) : ℚ :=
  ((a.flatten.zip b.flatten).map fun p => |p.1 - p.2|).sum / a.flatten.length

/-- The loop of a document until convergence or the iteration limit (`atmodel.py` 484-512). -/
def loopRows (P : Par) (rho : ℚ) (doc : Doc) (ns : List ℕ) (gs : List Row) : ℕ → List Row → List Row
  | 0, ts => ts
  | fuel + 1, ts =>
    let ts' := roundRows P rho doc ns gs ts
    if meanDiff ts' ts < P.threshold then ts' else loopRows P rho doc ns gs fuel ts'

/-- `state.gamma[authors_d, :] = tilde_gamma` (`atmodel.py` 515): row by row, later rows win. -/
def storeRows (gamma : List Row) : List (ℕ × Row) → List Row
  | [] => gamma
  | p :: ps => storeRows (gamma.set p.1 p.2) ps

/-- The ids of the authors of a document: `self.author2id[a] for a in self.doc2author[doc_no]`
(`atmodel.py` 470 and 978). -/
def authorsOf (s : St A) (docNo : ℕ) : Option (List ℕ) :=
  match PyDict.get? s.doc2author docNo with
  | none => none
  | some as => as.mapM fun a => PyDict.get? s.author2id a

/-- `len(self.author2doc[self.id2author[a]])` (`atmodel.py` 490). -/
def docCount (s : St A) (i : ℕ) : Option ℕ :=
  match PyDict.get? s.id2author i with
  | none => none
  | some a => (PyDict.get? s.author2doc a).map List.length

/-- One document of `inference` (`atmodel.py` 454-518), in the model's tables. -/
def inferDoc (P : Par) (rho : ℚ) (s : St A) (docNo : ℕ) (doc : Doc) : Except Err (St A) :=
  match authorsOf s docNo with
  | none => .error .key
  | some ids =>
    match ids.mapM (docCount s), ids.mapM (fun i => s.gamma[i]?) with
    | some ns, some gs =>
      .ok { s with gamma := storeRows s.gamma (ids.zip (loopRows P rho doc ns gs P.iterations gs)) }
    | _, _ => .error .key

/-- `inference` over a chunk given with its document numbers (`atmodel.py` 398-538, without statistics).
The parameters `author2doc` and `doc2author` of the method are not used by it.  The second component is
the state at the point where it stopped, which is what an exception leaves behind. -/
def infer (P : Par) (rho : ℚ) : St A → List (ℕ × Doc) → Option Err × St A
  | s, [] => (none, s)
  | s, p :: ps =>
    match inferDoc P rho s p.1 p.2 with
    | .error e => (some e, s)
    | .ok s' => infer P rho s' ps

/-- One pass of training over the listed documents of the stored corpus (`atmodel.py` 828-853): each
chunk is an `inference` with `rho` of that moment; here `rho` is given per document. -/
def trainPass (P : Par) : St A → List (ℕ × ℚ) → Option Err × St A
  | s, [] => (none, s)
  | s, p :: ps =>
    match s.corpus[p.1]? with
    | none => (some .key, s)
    | some doc =>
      match inferDoc P p.2 s p.1 doc with
      | .error e => (some e, s)
      | .ok s' => trainPass P s' ps

/-! ### Queries -/

/-- The topic distribution of a row (`atmodel.py` 1157). -/
def normRow (r : Row) : Row := r.map (· / r.sum)

/-- `get_author_topics` (`atmodel.py` 1107-1164). -/
def getAuthorTopics (s : St A) (a : A) (minProb : ℚ) : Except Err (List (ℕ × ℚ)) :=
  match PyDict.get? s.author2id a with
  | none => .error .key
  | some i =>
    match s.gamma[i]? with
    | none => .error .key
    | some r =>
      .ok (((normRow r).zipIdx.map fun p => (p.2, p.1)).filter
        fun p => decide (max minProb (1 / 10 ^ 8) ≤ p.2))

/-- The document numbers given to the query's documents (`atmodel.py` 1078). -/
def queryIdx (s : St A) (n : ℕ) : List ℕ := (List.range n).map (s.totalDocs + ·)

/-- The model with the placeholder author added (`atmodel.py` 1080-1094). -/
def addPlaceholder (s : St A) (ph : A) (n : ℕ) (draw : Row) : St A :=
  { s with
    author2id := s.author2id.set ph s.numAuthors
    id2author := s.id2author.set s.numAuthors ph
    author2doc := s.author2doc.set ph (queryIdx s n)
    doc2author := (queryIdx s n).foldl (fun t d => t.set d [ph]) s.doc2author
    gamma := s.gamma ++ [draw] }

/-- `rollback_new_author_chages` (`atmodel.py` 1057-1066). -/
def rollback (s : St A) (ph : A) (idx : List ℕ) : St A :=
  { s with
    gamma := s.gamma.dropLast
    author2doc := PyDict.erase s.author2doc ph
    id2author := PyDict.erase s.id2author (PyDict.getD s.author2id ph 0)
    author2id := PyDict.erase s.author2id ph
    doc2author := idx.foldl PyDict.erase s.doc2author }

/-- `get_new_author_topics` (`atmodel.py` 1035-1105): the answer or the exception, and the model
afterwards. -/
def getNewAuthorTopics (P : Par) (rho : ℚ) (s : St A) (ph : A) (docs : List Doc) (minProb : ℚ)
    (draw : Row) : Except Err (List (ℕ × ℚ)) × St A :=
  if docs.length = 0 then (.error .value, s)
  else if s.author2id.contains ph then (.error .value, s)
  else
    let idx := queryIdx s docs.length
    let s1 := addPlaceholder s ph docs.length draw
    match infer P rho s1 (idx.zip docs) with
    | (some e, s2) => (.error e, rollback s2 ph idx)
    | (none, s2) => (getAuthorTopics s2 ph minProb, rollback s2 ph idx)

/-- The author ids that `bound` uses for each of the `n` documents of a chunk (`atmodel.py` 937-978),
with the checks before.  `idx` is `chunk_doc_idx`. -/
def boundAuthors (s : St A) (n : ℕ) (idx : Option (List ℕ))
    (a2d : Option (PyDict A (List ℕ))) (d2a : Option (PyDict ℕ (List A))) :
    Except Err (List (List ℕ)) :=
  let go : List ℕ → Except Err (List (List ℕ)) := fun ds =>
    match ds.mapM (authorsOf s) with
    | none => .error .key
    | some l => .ok l
  match a2d, d2a with
  | none, none =>
    match idx with
    | none => .error .value
    | some [] => .error .value
    | some l => go (l.take n)
  | some m, some _ =>
    if (PyDict.keys m).any (falsy s.author2doc) then .error .value
    else match idx with
      | none => go (List.range n)
      | some [] => go (List.range n)
      | some _ => .error .value
  | _, _ => .error .value

end

end Verif.AuthorTopic
