import Verif.Termsim.Model
import Mathlib.Analysis.Real.Sqrt
import Mathlib.Algebra.BigOperators.Group.Finset.Basic

/-!
# Soft inner products (`SparseTermSimilarityMatrix.inner_product`, gensim/similarities/termsim.py)

Numbers are real, without rounding.  The matrix is a function of row and column on the ids `0 … n-1`;
a document is a list of (id, weight) pairs with different ids.
-/

namespace Verif.Termsim
open Verif
noncomputable section

/-- The values of the argument `normalized`. -/
inductive Norm
  | no
  | yes
  | maintain
  deriving DecidableEq

/-- The weight of an id in a document, 0 if absent (`X[i] if i in X else 0`). -/
def weight (doc : List (Nat × ℝ)) (i : Nat) : ℝ := (doc.lookup i).getD 0

/-- The ids of a document. -/
def words (doc : List (Nat × ℝ)) : Finset Nat := (doc.map (·.1)).toFinset

/-- `x.T.dot(matrix).dot(y)` over the given ids. -/
def bil (S : Nat → Nat → ℝ) (idx : Finset Nat) (x y : Nat → ℝ) : ℝ :=
  ∑ r ∈ idx, ∑ c ∈ idx, x r * S r c * y c

/-- Models the factor `1 / vector_norm` of `_normalize_dense_vector`,
gensim/similarities/termsim.py 312-325 (`none`: the assertion fails). -/
def vectorFactor (S : Nat → Nat → ℝ) (idx : Finset Nat) (mode : Norm) (x : Nat → ℝ) : Option ℝ :=
  match mode with
  | .no => some 1
  | .yes =>
    if bil S idx x x < 0 then none
    else if 0 < √(bil S idx x x) then some (1 / √(bil S idx x x)) else some 1
  | .maintain =>
    if bil S idx x x < 0 then none
    else
      let v := if 0 < bil S idx x x then bil S idx x x / ∑ i ∈ idx, x i * x i else bil S idx x x
      if 0 < √v then some (1 / √v) else some 1

/-- Models the factor `1 / corpus_norm` for one document of `_normalize_dense_corpus` and
`_normalize_sparse_corpus`, gensim/similarities/termsim.py 349-361, 385-397: division by a zero norm
gives 0 (these documents are empty if the matrix is positive definite; otherwise the dense variant
gives huge values, which is not modelled). -/
def corpusFactor (S : Nat → Nat → ℝ) (idx : Finset Nat) (mode : Norm) (y : Nat → ℝ) : Option ℝ :=
  match mode with
  | .no => some 1
  | .yes => if bil S idx y y < 0 then none else some (1 / √(bil S idx y y))
  | .maintain =>
    if bil S idx y y < 0 then none
    else some (1 / √(bil S idx y y / ∑ i ∈ idx, y i * y i))

/-- Models the clipping, gensim/similarities/termsim.py 547-548, 574-575, 591-592. -/
def clip (mx my : Norm) (v : ℝ) : ℝ :=
  if mx = .yes ∧ my = .yes then max (-1) (min 1 v) else v

/-- Models `inner_product` of two documents, gensim/similarities/termsim.py 520-550. -/
def innerVV (S : Nat → Nat → ℝ) (X Y : List (Nat × ℝ)) (mx my : Norm) : Option ℝ :=
  if X = [] ∨ Y = [] then some 0
  else
    let idx := words X ∪ words Y
    match vectorFactor S idx mx (weight X), vectorFactor S idx my (weight Y) with
    | some a, some b => some (clip mx my (bil S idx (fun i => a * weight X i) fun i => b * weight Y i))
    | _, _ => none

/-- The ids the mixed case restricts everything to, gensim/similarities/termsim.py 561-562: the
non-zero entries of `X.T.dot(matrix)`. -/
def related (S : Nat → Nat → ℝ) (n : Nat) (X : List (Nat × ℝ)) : Finset Nat :=
  (Finset.range n).filter fun c => ∑ r ∈ Finset.range n, weight X r * S r c ≠ 0

/-- Models the value for one document `Y` of the corpus in `inner_product` of a document and a corpus,
gensim/similarities/termsim.py 551-580. -/
def innerVC (S : Nat → Nat → ℝ) (n : Nat) (X Y : List (Nat × ℝ)) (mx my : Norm) : Option ℝ :=
  let idx := related S n X
  match vectorFactor S idx mx (weight X), corpusFactor S idx my (weight Y) with
  | some a, some b => some (clip mx my (bil S idx (fun i => a * weight X i) fun i => b * weight Y i))
  | _, _ => none

/-- Models the value for one document of each corpus in `inner_product` of two corpora,
gensim/similarities/termsim.py 581-594. -/
def innerCC (S : Nat → Nat → ℝ) (n : Nat) (X Y : List (Nat × ℝ)) (mx my : Norm) : Option ℝ :=
  let idx := Finset.range n
  match corpusFactor S idx mx (weight X), corpusFactor S idx my (weight Y) with
  | some a, some b => some (clip mx my (bil S idx (fun i => a * weight X i) fun i => b * weight Y i))
  | _, _ => none

end

end Verif.Termsim
