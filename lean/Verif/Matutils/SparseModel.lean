import Verif.Py.Dict
import Mathlib.Algebra.Order.Ring.Rat
import Mathlib.Algebra.Order.Group.Abs
import Mathlib.Algebra.Order.Field.Basic

/-!
# Model of `gensim/matutils.py`: conversions between sparse and dense vectors, `argsort`

Numbers are elements of a linearly ordered field: rounding to `float32`/`float64` is not modelled.
Ids are natural numbers (numpy would take a negative id as counted from the end).
-/

namespace Verif.Matutils
open Verif PyDict

variable {K : Type} [Field K] [LinearOrder K] [IsStrictOrderedRing K]

/-- models matutils.py:402-426 `full2sparse` -/
def full2sparse (eps : K) (v : List K) : List (Nat × K) :=
  v.zipIdx.filterMap (fun p => if eps < |p.1| then some (p.2, p.1) else none)

/-- models matutils.py:370-399 `sparse2full`; `none`: IndexError.  `dict(doc)` keeps the last weight
of a repeated id. -/
def sparse2full (doc : List (Nat × K)) (length : Nat) : Option (List K) :=
  let d : PyDict Nat K := ofPairs doc
  if (keys d).all (fun i => i < length) then some ((List.range length).map (fun i => getD d i 0)) else none

/-- models matutils.py:48-79 `argsort`, with `topn` given.  `srt` is `np.argsort`, `part` is
`np.argpartition`: both leave the order of ties open, so they are parameters. -/
def argsort (srt : List K → List Nat) (part : List K → Nat → List Nat) (x : List K) (topn : Int)
    (reverse : Bool) : List Nat :=
  if topn ≤ 0 then []
  else
    let x := if reverse then x.map (fun a => -a) else x
    let n := topn.toNat
    if x.length ≤ n then (srt x).take n
    else
      let extreme := (part x n).take n
      (srt (extreme.map (fun i => x.getD i 0))).map (fun j => extreme.getD j 0)

/-- models matutils.py:432-465 `full2sparse_clipped` -/
def full2sparseClipped (srt : List K → List Nat) (part : List K → Nat → List Nat) (eps : K)
    (v : List K) (topn : Int) : List (Nat × K) :=
  if topn ≤ 0 then []
  else
    let nnz := (v.zipIdx.filter (fun p => decide (eps < |p.1|))).map (·.2)
    let biggest := (argsort srt part (nnz.map (fun i => |v.getD i 0|)) topn true).map
      (fun j => nnz.getD j 0)
    biggest.map (fun i => (i, v.getD i 0))

/-- the arguments `csc_matrix((data, indices, indptr), shape=(num_terms, num_docs))` is called with -/
structure Csc (K : Type) where
  data : List K
  indices : List Nat
  indptr : List Nat
  numTerms : Nat
  numDocs : Nat
deriving DecidableEq

/-- models matutils.py:145-164 `corpus2csc`, the general path.  Of `num_docs` the given value is
overwritten. -/
def corpus2cscSlow (numTerms : Option Nat) (corpus : List (List (Nat × K))) : Csc K :=
  let r := corpus.foldl (fun (s : Nat × List K × List Nat × List Nat) doc =>
    (s.1 + doc.length, s.2.1 ++ doc.map (·.2), s.2.2.1 ++ doc.map (·.1), s.2.2.2 ++ [s.1 + doc.length]))
    (0, [], [], [0])
  let nt := match numTerms with
    | some n => n
    | none => match r.2.2.1 with
      | [] => 0
      | i :: is => is.foldl max i + 1
  ⟨r.2.1, r.2.2.1, r.2.2.2, nt, r.2.2.2.length - 1⟩

/-- overwrite the slice `a[pos : pos + xs.length]`; `none`: numpy's ValueError, the slice is too short
(`len(a[pos:posnext])` is less than the number of values) -/
def putSlice {β : Type} (a : List β) (pos : Nat) (xs : List β) : Option (List β) :=
  if pos + xs.length ≤ a.length ∨ xs = [] then
    some (a.take pos ++ xs ++ a.drop (pos + xs.length)) else none

/-- models matutils.py:130-144 `corpus2csc`, the path with all sizes known; `none`: an exception
(too many entries, or the assertion of line 143).  `junkI`, `junkD` are the contents of the `np.empty`
buffers. -/
def corpus2cscFast (junkI : List Nat) (junkD : List K) (numTerms numDocs : Nat)
    (corpus : List (List (Nat × K))) : Option (Csc K) :=
  let r := corpus.foldl (fun (s : Option (Nat × List K × List Nat × List Nat)) doc =>
    s.bind fun s =>
      (putSlice s.2.2.1 s.1 (doc.map (·.1))).bind fun ind =>
        (putSlice s.2.1 s.1 (doc.map (·.2))).map fun dat =>
          (s.1 + doc.length, dat, ind, s.2.2.2 ++ [s.1 + doc.length]))
    (some (0, junkD, junkI, [0]))
  r.bind fun r => if r.1 = junkI.length then some ⟨r.2.1, r.2.2.1, r.2.2.2, numTerms, numDocs⟩ else none

/-- scipy's reading of the csc triple: the entry in row `i`, column `j` is the sum of the data stored
for it -/
def Csc.entry (m : Csc K) (i j : Nat) : K :=
  let a := m.indptr.getD j 0
  let b := m.indptr.getD (j + 1) 0
  ((((m.indices.zip m.data).take b).drop a).filter (fun p => p.1 = i)).foldr (fun p s => p.2 + s) 0

end Verif.Matutils
