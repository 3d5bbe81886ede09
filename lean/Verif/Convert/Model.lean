import Verif.Matutils.SparseModel
import Verif.Matutils.NormModel

/-!
# Model of `gensim/matutils.py`: matrices as corpora and back

`corpus2dense`, `Dense2Corpus`, `Sparse2Corpus`, `Scipy2Corpus`, `scipy2sparse`, `any2sparse`, `pad`,
`isbow` and what `hellinger` does with it.  Numbers are not rounded.  A dense matrix is the list of
its rows; a scipy matrix is what it stores (`Matutils.Csc`, read column by column, or a list of rows).
-/

namespace Verif.Convert
open Verif Matutils PyDict

variable {K : Type} [Field K] [LinearOrder K] [IsStrictOrderedRing K]

/-- what can go wrong -/
inductive Err
  | value | index | assertion
deriving DecidableEq

/-- a dense matrix: its rows and its number of columns -/
structure Dense (K : Type) where
  rows : List (List K)
  cols : Nat
deriving DecidableEq

/-- `m.T` of numpy -/
def Dense.transpose (m : Dense K) : Dense K :=
  ⟨(List.range m.cols).map fun j => m.rows.map fun r => r.getD j 0, m.rows.length⟩

/-- the matrix with the given columns of length `n`: `np.column_stack` -/
def ofColumns (n : Nat) (cols : List (List K)) : Dense K :=
  ⟨(List.range n).map fun i => cols.map fun c => c.getD i 0, cols.length⟩

/-- models matutils.py:493-498, the loop of `corpus2dense` with `num_docs` given: column `docno` of the
array (its columns: `junk` to begin with, `np.empty`) is overwritten; a column number that is too large
raises IndexError -/
def fillColumns (n : Nat) : List (List (Nat × K)) → Nat → List (List K) → Except Err (Nat × List (List K))
  | [], docno, cols => .ok (docno, cols)
  | doc :: docs, docno, cols =>
    match sparse2full doc n with
    | none => .error .index
    | some c => if docno < cols.length then fillColumns n docs (docno + 1) (cols.set docno c) else .error .index

/-- models matutils.py:468-508 `corpus2dense`; `junk` are the columns of the uninitialised array.
`np.column_stack` of nothing: ValueError. -/
def corpus2dense (corpus : List (List (Nat × K))) (numTerms : Nat) (numDocs : Option Nat)
    (junk : List (List K)) : Except Err (Dense K) :=
  match numDocs with
  | some nd =>
    match fillColumns numTerms corpus 0 (junk.take nd) with
    | .error e => .error e
    | .ok (count, cols) => if count = nd then .ok (ofColumns numTerms cols) else .error .assertion
  | none =>
    match corpus.mapM fun d => sparse2full d numTerms with
    | none => .error .index
    | some cols => if cols = [] then .error .value else .ok (ofColumns numTerms cols)

/-- models matutils.py:527-555 `Dense2Corpus.__init__`, `__iter__`: the documents it yields; the
threshold of `full2sparse` is a parameter (1e-9 in the code) -/
def denseCorpus (eps : K) (m : Dense K) (documentsColumns : Bool) : List (List (Nat × K)) :=
  ((if documentsColumns then m.transpose else m).rows).map (full2sparse eps)

/-- models matutils.py:557, `len(Dense2Corpus)` -/
def denseCorpusLen (m : Dense K) (documentsColumns : Bool) : Nat :=
  (if documentsColumns then m.transpose else m).rows.length

/-- a matrix stored row by row (`scipy.sparse.csr_matrix`): the triple of the transposed matrix stored
column by column -/
structure Csr (K : Type) where
  tr : Csc K
deriving DecidableEq

/-- models matutils.py:571-585 `Sparse2Corpus.__init__` on a csc matrix with documents in columns
(`tocsc` is the matrix itself), and on a csr matrix with documents in rows (`.T` of a csr matrix is the
csc matrix of the same triple) -/
def sparseInit (m : Csc K ⊕ Csr K) : Csc K :=
  match m with
  | .inl m => m
  | .inr m => m.tr

/-- the slice `list(zip(indices[a:b], data[a:b]))` -/
def slice (m : Csc K) (a b : Nat) : List (Nat × K) :=
  ((m.indices.take b).drop a).zip ((m.data.take b).drop a)

/-- models matutils.py:587-597 `Sparse2Corpus.__iter__` -/
def sparseIter (m : Csc K) : List (List (Nat × K)) :=
  (m.indptr.zip m.indptr.tail).map fun p => slice m p.1 p.2

/-- models matutils.py:599-600 `Sparse2Corpus.__len__` -/
def sparseLength (m : Csc K) : Nat := m.numDocs

/-- indexing a numpy array with an integer: negative numbers count from the end -/
def npGet (l : List Nat) (i : Int) : Except Err Nat :=
  let j := if i < 0 then i + l.length else i
  if j < 0 then .error .index
  else match l[j.toNat]? with
    | some x => .ok x
    | none => .error .index

/-- models matutils.py:602-616 `Sparse2Corpus.__getitem__` -/
def sparseGet (m : Csc K) (i : Int) : Except Err (List (Nat × K)) :=
  match npGet m.indptr i with
  | .error e => .error e
  | .ok a =>
    match npGet m.indptr (i + 1) with
    | .error e => .error e
    | .ok b => .ok (slice m a b)

/-- models matutils.py:317-336 `scipy2sparse` on a matrix given by the stored entries of its rows -/
def scipy2sparse (eps : K) (rows : List (List (Nat × K))) : Except Err (List (Nat × K)) :=
  match rows with
  | [r] => .ok (r.filter fun p => decide (eps < |p.2|))
  | _ => .error .assertion

/-- a vector in one of the three formats -/
inductive Vec (K : Type)
  | dense (v : List K)
  | scipy (rows : List (List (Nat × K)))
  | bow (d : List (Nat × K))

/-- models matutils.py:240-260 `any2sparse` -/
def any2sparse (eps : K) : Vec K → Except Err (List (Nat × K))
  | .dense v => .ok (full2sparse eps v)
  | .scipy rows => scipy2sparse eps rows
  | .bow d => .ok (d.filter fun p => decide (eps < |p.2|))

/-- models matutils.py:361-364, one vector of `Scipy2Corpus.__iter__` -/
def oneVec (eps : K) : List K ⊕ List (List (Nat × K)) → Except Err (List (Nat × K))
  | .inl v => .ok (full2sparse eps v)
  | .inr rows => scipy2sparse eps rows

/-- models matutils.py:359-364 `Scipy2Corpus.__iter__`, run to its end -/
def scipyCorpus (eps : K) (vecs : List (List K ⊕ List (List (Nat × K)))) : Except Err (List (List (Nat × K))) :=
  vecs.mapM (oneVec eps)

/-- models matutils.py:168-194 `pad` -/
def pad (m : Dense K) (padrow padcol : Int) : Dense K :=
  let padrow := if padrow < 0 then 0 else padrow
  let padcol := if padcol < 0 then 0 else padcol
  ⟨(m.rows.map fun r => r ++ List.replicate padcol.toNat 0) ++
    List.replicate padrow.toNat (List.replicate (m.cols + padcol.toNat) 0), m.cols + padcol.toNat⟩

/-! ## Distances between distributions in other formats -/

/-- an argument of `hellinger`: a bag of words, a one-dimensional array or list, a list of rows (what
`toarray()` makes of a scipy matrix) -/
inductive PyVec
  | bow (d : List (Nat × ℝ))
  | flat (v : List ℝ)
  | rows (m : List (List ℝ))

/-- models matutils.py:817-840 `isbow`: unpacking the first item raises IndexError on an empty
sequence (true), TypeError on a number and ValueError on a row whose length is not 2 (false) -/
def isbow : PyVec → Bool
  | .bow _ => true
  | .flat [] => true
  | .flat _ => false
  | .rows [] => true
  | .rows (r :: _) => r.length = 2

/-- unpacking a row into two numbers; `none`: ValueError -/
def rowPair (r : List ℝ) : Option (ℝ × ℝ) :=
  match r with
  | [a, b] => some (a, b)
  | _ => none

/-- `dict(vec)` of a vector that passed `isbow`, with the first of two numbers as key; `none`:
ValueError (a row whose length is not 2) -/
noncomputable def asDict : PyVec → Option (PyDict ℝ ℝ)
  | .bow d => some (ofPairs (d.map fun p => ((p.1 : ℝ), p.2)))
  | .flat _ => some []
  | .rows m => (m.mapM rowPair).map ofPairs

/-- models matutils.py:936-946, the formula on dictionaries, with numbers as keys -/
noncomputable def hellingerDict (v1 v2 : PyDict ℝ ℝ) : ℝ :=
  √(0.5 * ∑ i ∈ (keys v1 ++ keys v2).toFinset, (√(getD v1 i 0) - √(getD v2 i 0)) ^ 2)

/-- the numbers of an array, row by row -/
def flatten : PyVec → List ℝ
  | .bow d => d.map (·.2)
  | .flat v => v
  | .rows m => m.flatten

/-- models matutils.py:918-949 `hellinger`; arrays of different shapes (ValueError or broadcasting) are
not told apart -/
noncomputable def hellinger (v1 v2 : PyVec) : Option ℝ :=
  if isbow v1 && isbow v2 then
    match asDict v1, asDict v2 with
    | some d1, some d2 => some (hellingerDict d1 d2)
    | _, _ => none
  else some (√(0.5 * (List.zipWith (fun a b => (√a - √b) ^ 2) (flatten v1) (flatten v2)).sum))

/-- models matutils.py:967-995 `jaccard` on two arrays with rows, as `toarray()` returns them: if they do
not pass for bags of words, `set` is called on lists of lists, which are not hashable (`none`: TypeError);
otherwise the formula for bags of words, with the first of two numbers as id -/
noncomputable def jaccardRows (m1 m2 : List (List ℝ)) : Option ℝ :=
  if isbow (.rows m1) && isbow (.rows m2) then
    match m1.mapM rowPair, m2.mapM rowPair with
    | some p1, some p2 =>
      let union := (p1.map (·.2)).sum + (p2.map (·.2)).sum
      let d1 : PyDict ℝ ℝ := ofPairs p1
      let d2 : PyDict ℝ ℝ := ofPairs p2
      let inter := (d1.map fun p => min p.2 (getD d2 p.1 0)).sum
      if union = 0 then none else some (1 - inter / union)
    | _, _ => none
  else none

end Verif.Convert
