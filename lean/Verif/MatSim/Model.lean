import Verif.Matutils.SparseModel
import Verif.Matutils.NormModel
import Verif.Utils.ChunkModel

/-!
# Model of the in-memory similarity indexes

`gensim/similarities/docsim.py` `MatrixSimilarity` and `SparseMatrixSimilarity`, with the query and
iteration code they inherit from `gensim/interfaces.py` `SimilarityABC`.

Numbers are real numbers: rounding to `float32` is not modelled.  Ids are natural numbers, and in the
sparse index they are taken to be below the number of features (scipy does not check).  The tie-breaking
of numpy's sorting functions is left open (`srt`, `part`), as in `Verif.Matutils.SparseModel`.
-/

namespace Verif.MatSim
open Verif Matutils

/-- a document in the sparse gensim format -/
abbrev Doc := List (Nat × ℝ)

/-- what can go wrong -/
inductive Err
  | value | index | type | assertion
deriving DecidableEq

/-- the kinds of query: a document, a list of documents, a one- or two-dimensional numpy array, a
scipy sparse matrix given by the stored entries of its rows -/
inductive Query
  | doc (d : Doc)
  | corpus (ds : List Doc)
  | dense (v : List ℝ)
  | rows (m : List (List ℝ))
  | csr (m : List Doc)

/-- what `self[query]` returns: a one- or two-dimensional array, a list of pairs, a list of lists of
pairs, or a scipy sparse matrix (the entries of its rows) -/
inductive Answer
  | vec (v : List ℝ)
  | mat (m : List (List ℝ))
  | pairs (p : List (Nat × ℝ))
  | pairss (p : List (List (Nat × ℝ)))
  | spmat (rows : List (List (Nat × ℝ)))

/-- models utils.py:855-877 `is_corpus`, on the kinds of query above: an empty list of documents is
the empty list, which is taken for a document (line 868); arrays and sparse matrices are no corpora -/
def isCorpus : Query → Bool
  | .corpus ds => !ds.isEmpty
  | _ => false

/-- models utils.py:868: the empty list of documents and the document without words are the same
object -/
def asPython : Query → Query
  | .corpus [] => .doc []
  | q => q

/-- the numpy product of two vectors -/
noncomputable def dot (a b : List ℝ) : ℝ := (List.zipWith (· * ·) a b).sum

/-! ## MatrixSimilarity -/

/-- models docsim.py:795-833 `MatrixSimilarity.__init__` on a list of documents: `num_features` is
1 + the largest id if not given (`utils.get_max_id`, -1 for a corpus without words) -/
noncomputable def matBuild (numFeatures : Option Nat) (docs : List Doc) : Except Err (Nat × List (List ℝ)) :=
  let n := match numFeatures with
    | some n => n
    | none => (docs.flatten.map fun p => p.1 + 1).foldl max 0
  if n = 0 then .error .value
  else
    match docs.mapM fun d => (sparse2full d n).map (unitvecDense .l2) with
    | some rows => .ok (n, rows)
    | none => .error .index

/-- models docsim.py:838-875 `MatrixSimilarity.get_similarities`.  A scipy matrix becomes a
two-dimensional array (`toarray` adds up repeated entries). -/
noncomputable def matSims (n : Nat) (index : List (List ℝ)) (q : Query) : Except Err Answer :=
  match asPython q with
  | .corpus ds =>
    match ds.mapM fun d => sparse2full d n with
    | some rows => .ok (.mat (rows.map fun r => index.map fun d => dot d r))
    | none => .error .index
  | .doc d =>
    match sparse2full d n with
    | some r => .ok (.vec (index.map fun d => dot d r))
    | none => .error .index
  | .dense v => if v.length = n then .ok (.vec (index.map fun d => dot d v)) else .error .value
  | .rows m =>
    if m.all fun r => r.length = n then .ok (.mat (m.map fun r => index.map fun d => dot d r))
    else .error .value
  | .csr m =>
    .ok (.mat (m.map fun r => index.map fun d =>
      dot d ((List.range n).map fun t => ((r.filter fun p => p.1 = t).map (·.2)).sum)))

/-! ## SparseMatrixSimilarity -/

/-- models docsim.py:1143-1177 `SparseMatrixSimilarity.__init__` on a list of documents, `num_docs` and
`num_nnz` not given: the columns of `corpus2csc` are the rows of the index -/
noncomputable def spBuild (numFeatures : Option Nat) (docs : List Doc) : Except Err (Csc ℝ) :=
  match numFeatures with
  | none => .error .value
  | some n =>
    match docs.mapM (unitvecSparse .l2) with
    | some ds => .ok (corpus2cscSlow (some n) ds)
    | none => .error .assertion

/-- the product of document `i` of the index with column `c` of the query, over the terms -/
noncomputable def spDot (index query : Csc ℝ) (i c : Nat) : ℝ :=
  ((List.range index.numTerms).map fun t => index.entry t i * query.entry t c).sum

/-- the entries stored in a row of a sparse product: those that are not zero -/
noncomputable def storedRow (r : List ℝ) : List (Nat × ℝ) :=
  (r.zipIdx.filter fun p => p.1 ≠ 0).map fun p => (p.2, p.1)

/-- models docsim.py:1216-1227, the product and its shape -/
noncomputable def spProduct (maintain : Bool) (index : Csc ℝ) (query : Csc ℝ) (isC : Bool) : Answer :=
  let col (c : Nat) : List ℝ := (List.range index.numDocs).map fun i => spDot index query i c
  if query.numDocs = 1 ∧ isC = false then .vec (col 0)
  else if maintain then .spmat ((List.range query.numDocs).map fun c => storedRow (col c))
  else .mat ((List.range query.numDocs).map col)

/-- a dense vector as the entries of a row of `csr_matrix` -/
noncomputable def denseRow (v : List ℝ) : Doc := storedRow v

/-- models docsim.py:1183-1228 `SparseMatrixSimilarity.get_similarities` -/
noncomputable def spSims (maintain : Bool) (index : Csc ℝ) (q : Query) : Except Err Answer :=
  let n := index.numTerms
  match asPython q with
  | .corpus ds => .ok (spProduct maintain index (corpus2cscSlow (some n) ds) true)
  | .doc d => .ok (spProduct maintain index (corpus2cscSlow (some n) [d]) false)
  | .dense v =>
    if v.length = n then .ok (spProduct maintain index (corpus2cscSlow (some n) [denseRow v]) false)
    else .error .value
  | .rows m =>
    if m.all fun r => r.length = n then
      .ok (spProduct maintain index (corpus2cscSlow (some n) (m.map denseRow)) false)
    else .error .value
  | .csr m => .ok (spProduct maintain index (corpus2cscSlow (some n) m) false)

/-! ## Queries -/

/-- models interfaces.py:326-337, the normalisation of a query: matrices are left alone (a
one-dimensional array is not a matrix) -/
noncomputable def normQuery (normalize : Bool) (q : Query) : Except Err Query :=
  if normalize then
    match asPython q with
    | .corpus ds =>
      match ds.mapM (unitvecSparse .l2) with
      | some ds => .ok (.corpus ds)
      | none => .error .assertion
    | .doc d =>
      match unitvecSparse .l2 d with
      | some d => .ok (.doc d)
      | none => .error .assertion
    | .dense v => .ok (.dense (unitvecDense .l2 v))
    | q => .ok q
  else .ok q

section
variable (srt : List ℝ → List Nat) (part : List ℝ → Nat → List Nat)

/-- the `topn` stored entries of a row with the largest magnitudes, matutils.py:299-306 -/
noncomputable def clipRow (topn : Int) (r : List (Nat × ℝ)) : List (Nat × ℝ) :=
  (argsort srt part (r.map fun p => |p.2|) topn true).map fun j => r.getD j (0, 0)

/-- models matutils.py:281-315 `scipy2scipy_clipped` on the sparse matrix that `get_similarities` returns
(docsim.py:1223: the transpose of a csr matrix, which is a csc matrix).  Of a matrix with one row, line
289 takes `matrix.indices` for the columns: those of a csc matrix are row numbers, which are all 0.
scipy (for one row) and `np.max` (for more) refuse to work out the width of a matrix without entries. -/
noncomputable def scipyClipped (rows : List (List (Nat × ℝ))) (topn : Int) : Except Err Answer :=
  if topn ≤ 0 then .ok (.spmat [[]])
  else
    let r := rows.map (clipRow srt part topn)
    if r.all List.isEmpty then .error .value
    else match r with
      | [row] => .ok (.spmat [row.map fun p => (0, p.2)])
      | r => .ok (.spmat r)

/-- models interfaces.py:340-353, what is done to the result when `num_best` is given; the threshold
of `full2sparse_clipped` is 1e-9.  `scipy2scipy_clipped` on a numpy array: ValueError (matutils.py:282). -/
noncomputable def clip (maintain : Bool) (numBest : Option Int) (a : Answer) : Except Err Answer :=
  match numBest with
  | none => .ok a
  | some k =>
    if maintain then
      match a with
      | .spmat rows => scipyClipped srt part rows k
      | _ => .error .value
    else
      match a with
      | .mat m => .ok (.pairss (m.map fun v => full2sparseClipped srt part (1 / 10 ^ 9) v k))
      | .vec v => .ok (.pairs (full2sparseClipped srt part (1 / 10 ^ 9) v k))
      | a => .ok a

/-- models interfaces.py:326-353 `SimilarityABC.__getitem__`; `sims` is `get_similarities` -/
noncomputable def getitem (sims : Query → Except Err Answer) (maintain normalize : Bool)
    (numBest : Option Int) (q : Query) : Except Err Answer :=
  match normQuery normalize q with
  | .error e => .error e
  | .ok q =>
    match sims q with
    | .error e => .error e
    | .ok a => clip srt part maintain numBest a

/-! ## Iteration -/

/-- what an iteration over the index yields -/
inductive Item
  | ans (a : Answer)
  | scalar (x : ℝ)
  | pair (p : Nat × ℝ)

/-- what iterating over an answer yields: the rows of a matrix, the items of a list, and the numbers
of a one-dimensional array -/
def items : Answer → List Item
  | .vec v => v.map .scalar
  | .mat m => m.map fun v => .ans (.vec v)
  | .pairs p => p.map .pair
  | .pairss p => p.map fun l => .ans (.pairs l)
  | .spmat rows => rows.map fun r => .ans (.spmat [r])

/-- models interfaces.py:365-398 `SimilarityABC.__iter__`, run to its end: the index is queried with
its own rows, in chunks if `chunksize > 1` and one by one otherwise, without normalisation.  `whole`
is the query made of some rows, `single` the one made of one row. -/
noncomputable def iterate {ρ : Type} (sims : Query → Except Err Answer) (maintain : Bool)
    (numBest : Option Int) (chunksize : Nat) (whole : List ρ → Query) (single : ρ → Query)
    (rows : List ρ) : Except Err (List Item) :=
  if 1 < chunksize then
    match (Chunk.chunks chunksize rows).mapM fun c =>
        getitem srt part sims maintain false numBest (whole c) with
    | .ok as => .ok (as.flatMap items)
    | .error e => .error e
  else
    match rows.mapM fun r => getitem srt part sims maintain false numBest (single r) with
    | .ok as => .ok (as.map .ans)
    | .error e => .error e

/-- `MatrixSimilarity(docs, num_best, num_features)[query]` -/
noncomputable def matQuery (numFeatures : Option Nat) (docs : List Doc) (numBest : Option Int)
    (q : Query) : Except Err Answer :=
  match matBuild numFeatures docs with
  | .error e => .error e
  | .ok (n, index) => getitem srt part (matSims n index) false true numBest q

/-- `list(MatrixSimilarity(docs, num_best, num_features, chunksize))`: a row of the index is a
one-dimensional array, several are a two-dimensional one -/
noncomputable def matIter (numFeatures : Option Nat) (docs : List Doc) (numBest : Option Int)
    (chunksize : Nat) : Except Err (List Item) :=
  match matBuild numFeatures docs with
  | .error e => .error e
  | .ok (n, index) =>
    iterate srt part (matSims n index) false numBest chunksize .rows .dense index

/-- `SparseMatrixSimilarity(docs, num_features, num_best, maintain_sparsity)[query]` -/
noncomputable def spQuery (numFeatures : Option Nat) (docs : List Doc) (maintain : Bool)
    (numBest : Option Int) (q : Query) : Except Err Answer :=
  match spBuild numFeatures docs with
  | .error e => .error e
  | .ok index => getitem srt part (spSims maintain index) maintain true numBest q

/-- the stored entries of row `i` of the index: those of column `i` of the matrix it was made from -/
noncomputable def indexRow (index : Csc ℝ) (i : Nat) : Doc :=
  let a := index.indptr.getD i 0
  let b := index.indptr.getD (i + 1) 0
  ((index.indices.zip index.data).take b).drop a

/-- `list(SparseMatrixSimilarity(docs, num_features, num_best, chunksize, maintain_sparsity))`: rows of
the index are sparse matrices -/
noncomputable def spIter (numFeatures : Option Nat) (docs : List Doc) (maintain : Bool)
    (numBest : Option Int) (chunksize : Nat) : Except Err (List Item) :=
  match spBuild numFeatures docs with
  | .error e => .error e
  | .ok index =>
    iterate srt part (spSims maintain index) maintain numBest chunksize .csr (fun r => .csr [r])
      ((List.range index.numDocs).map (indexRow index))

end

end Verif.MatSim
