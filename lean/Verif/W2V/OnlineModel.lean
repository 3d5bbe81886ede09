import Verif.W2V.VocabModel

/-!
# The weights of a Word2Vec model when vocabularies are built
(gensim/models/word2vec.py, gensim/models/keyedvectors.py)

Rows are elements of a type `V`; all rows have the size of the model.  `out` is `syn1` or `syn1neg`.
-/

namespace Verif.W2V
open Verif PyDict Vocab

variable {τ : Type} [DecidableEq τ] {V : Type}

/-- The vocabulary, the word vectors and the output rows. -/
structure Weights (τ V : Type) where
  wv : WV τ
  vectors : List V
  out : List V

/-- Models `prep_vectors`, gensim/models/keyedvectors.py 1938-1955; `fresh i` is row `i` of the random
matrix.  `none` is the `ValueError` of an assignment of too many rows. -/
def prepVectors (fresh : Nat → V) (target : Nat) (prior : List V) : Option (List V) :=
  if prior.length = target then some prior
  else if target < prior.length then none
  else some (prior ++ (List.range' prior.length (target - prior.length)).map fresh)

/-- Models the reordering of allocated vectors, gensim/models/keyedvectors.py 669-671: `none` is the
`IndexError` of an index that is too large. -/
def reorderVectors (idx : List Nat) (vectors : List V) : Option (List V) :=
  if vectors.length > 0 then idx.mapM fun i => vectors[i]? else some vectors

/-- Models `prepare_vocab` and `prepare_weights` of `build_vocab`, gensim/models/word2vec.py 476-484,
733-736, 819-863.  `none` is an exception. -/
def buildFull (argsort : List Nat → List Nat) (fresh : Nat → V) (zero : V) (m : Weights τ V)
    (b : Build τ) : Option (Weights τ V) :=
  if b.update then
    let wv := prepareUpdate b.cfg b.raw m.wv
    if m.vectors.length = 0 then none
    else (prepVectors fresh wv.i2k.length m.vectors).map fun vectors =>
      { wv := wv, vectors := vectors,
        out := m.out ++ List.replicate (vectors.length - m.vectors.length) zero }
  else
    let unsorted := prepareFresh argsort { b.cfg with sorted := false } b.raw m.wv
    let wv := prepareFresh argsort b.cfg b.raw m.wv
    let sorted := if b.cfg.sorted ∧ unsorted.i2k.length > 0
      then reorderVectors (argsort unsorted.counts).reverse m.vectors else some m.vectors
    sorted.bind fun vs => (prepVectors fresh wv.i2k.length vs).map fun vectors =>
      { wv := wv, vectors := vectors, out := List.replicate wv.i2k.length zero }

/-- A model without vocabulary. -/
def Weights.empty : Weights τ V := { wv := ⟨[], [], []⟩, vectors := [], out := [] }

/-- What is done with a model: training, which changes rows in any way, or adding words. -/
inductive WOp (τ V : Type)
  | train (f g : Nat → V → V)
  | more (cfg : Cfg τ) (raw : PyDict τ Nat)

/-- The effect. -/
def wstep (argsort : List Nat → List Nat) (fresh : Nat → V) (zero : V) (m : Weights τ V) :
    WOp τ V → Option (Weights τ V)
  | .train f g => some { m with vectors := m.vectors.mapIdx f, out := m.out.mapIdx g }
  | .more cfg raw => buildFull argsort fresh zero m ⟨true, cfg, raw⟩

end Verif.W2V
