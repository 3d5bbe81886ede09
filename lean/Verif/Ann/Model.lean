import Verif.TransMat.Model

/-!
# Model of the approximate nearest neighbour indexers

Models `/repo/gensim/similarities/annoy.py`, `/repo/gensim/similarities/nmslib.py` and the `indexer` argument of
`KeyedVectors.most_similar`. The two libraries are parameters: what they return for a query is only constrained by a
contract in the theorems. Vectors are real. Files are functions from names.
-/

namespace Verif.Ann

open Verif.TransMat (Vec dot unit)

/-- What can be raised. -/
inductive Err | attribute | io | value | index | key
  deriving DecidableEq, Repr

/-- The model an indexer is built from: its keys, normed vectors and `vector_size`. -/
structure Source (W : Type) where
  size : Nat
  keys : List W
  vectors : List (Vec size)
  /-- `bool(model)`: an empty `KeyedVectors` is false, because it has a length; the other models are true. -/
  truthy : Bool

/-- An index of the library over vectors of some size. -/
structure Index where
  size : Nat
  items : List (Vec size)

/-! ### Annoy -/

/-- `AnnoyIndexer` (`annoy.py` 70-73). -/
structure Annoy (W : Type) where
  index : Option Index := none
  labels : Option (List W) := none
  model : Option (Source W) := none
  numTrees : Option Nat := none

/-- The two files of a saved indexer: the index, and the pickled dictionary. -/
structure AnnoyFiles (W : Type) where
  index : String → Option Index
  dict : String → Option (Nat × Option Nat × Option (List W))

variable {W : Type}

/-- `AnnoyIndexer.__init__` (`annoy.py` 70-85), for a model of a supported class. -/
noncomputable def annoyInit (model : Option (Source W)) (numTrees : Option Nat) : Annoy W :=
  match model, numTrees with
  | some m, some (n + 1) =>
    if m.truthy then
      -- `_build_from_model` (154-167)
      { index := some ⟨m.size, m.vectors.map unit⟩, labels := some m.keys, model := model, numTrees := numTrees }
    else { model := model, numTrees := numTrees }
  | _, _ => { model := model, numTrees := numTrees }

/-- `AnnoyIndexer.save` (`annoy.py` 104-107): the index is written before the dictionary is made. -/
def annoySave (fs : AnnoyFiles W) (a : Annoy W) (fname : String) : Option Err × AnnoyFiles W :=
  match a.index with
  | none => (some .attribute, fs)
  | some ix =>
    let fs1 := { fs with index := fun n => if n = fname then some ix else fs.index n }
    match a.model with
    | none => (some .attribute, fs1)
    | some m => (none, { fs1 with
        dict := fun n => if n = fname then some (m.size, a.numTrees, a.labels) else fs.dict n })

/-- `AnnoyIndexer.load` (`annoy.py` 137-152). The library
refuses a file whose vectors have another size than announced (simplification: it compares the size of the file). -/
def annoyLoad (fs : AnnoyFiles W) (a : Annoy W) (fname : String) : Except Err (Annoy W) :=
  match fs.index fname, fs.dict fname with
  | some ix, some (f, trees, labels) =>
    if f = ix.size then .ok { a with index := some ix, labels := labels, numTrees := trees } else .error .io
  | _, _ => .error .io

/-- `[(self.labels[id], g distance) for ...]`. -/
def answer (labels : List W) (g : ℝ → ℝ) (found : List (Nat × ℝ)) : Except Err (List (W × ℝ)) :=
  found.mapM fun p =>
    match labels[p.1]? with
    | none => .error .index
    | some w => .ok (w, g p.2)

/-- `AnnoyIndexer.most_similar` (`annoy.py` 185-188). `nns` is `get_nns_by_vector`. -/
noncomputable def annoyMostSimilar (nns : (ix : Index) → Vec ix.size → Nat → List (Nat × ℝ)) (a : Annoy W) (size : Nat)
    (v : Vec size) (k : Nat) : Except Err (List (W × ℝ)) :=
  match a.index, a.labels with
  | some ix, some labels =>
    if h : size = ix.size then answer labels (fun dist => 1 - dist / 2) (nns ix (h ▸ v) k) else .error .index
  | _, _ => .error .attribute

/-! ### NMSLIB -/

/-- An index of NMSLIB with the query time parameters that were set on it (`none`: the library's own). -/
structure NmsIndex (Q : Type) where
  index : Index
  query : Option Q

/-- `NmslibIndexer` (`nmslib.py` 122-126); construction parameters are left out. -/
structure Nmslib (W Q : Type) where
  index : Option (NmsIndex Q) := none
  labels : Option (List W) := none
  queryParams : Q

/-- `NmslibIndexer.__init__` (`nmslib.py` 117-142, 202-210). -/
noncomputable def nmsInit {Q : Type} (dflt : Q) (model : Option (Source W)) (query : Option Q) : Nmslib W Q :=
  let q := query.getD dflt
  match model with
  | some m =>
    if m.truthy then
      { index := some ⟨⟨m.size, m.vectors.map unit⟩, some q⟩, labels := some m.keys, queryParams := q }
    else { queryParams := q }
  | none => { queryParams := q }

/-- The two files: the index (`saveIndex` stores no query parameters) and the dictionary. -/
structure NmsFiles (W Q : Type) where
  index : String → Option Index
  dict : String → Option (Q × Option (List W))

/-- `NmslibIndexer.save` (`nmslib.py` 160-164). -/
def nmsSave {Q : Type} (fs : NmsFiles W Q) (a : Nmslib W Q) (fname : String) : Option Err × NmsFiles W Q :=
  match a.index with
  | none => (some .attribute, fs)
  | some ix => (none,
      { index := fun n => if n = fname then some ix.index else fs.index n
        dict := fun n => if n = fname then some (a.queryParams, a.labels) else fs.dict n })

/-- `NmslibIndexer.load` (`nmslib.py` 176-186): `setQueryTimeParams` is not called. -/
noncomputable def nmsLoad {Q : Type} (dflt : Q) (fs : NmsFiles W Q) (fname : String) : Except Err (Nmslib W Q) :=
  match fs.dict fname with
  | none => .error .io
  | some (q, labels) =>
    let inst : Nmslib W Q := nmsInit dflt none (some q)
    match fs.index fname with
    | none => .error .io
    | some ix => .ok { inst with index := some ⟨ix, none⟩, labels := labels }

/-- `NmslibIndexer.most_similar` (`nmslib.py` 228-232). `knn` is `knnQueryBatch`. -/
noncomputable def nmsMostSimilar {Q : Type} (knn : (ix : Index) → Option Q → Vec ix.size → Nat → List (Nat × ℝ))
    (a : Nmslib W Q) (size : Nat) (v : Vec size) (k : Nat) : Except Err (List (W × ℝ)) :=
  match a.index, a.labels with
  | some ix, some labels =>
    if h : size = ix.index.size then answer labels (fun dist => 1 - dist) (knn ix.index ix.query (h ▸ v) k)
    else .error .index
  | _, _ => .error .attribute

/-! ### `KeyedVectors.most_similar(positive, negative, indexer=...)` -/

/-- `get_vector(key, norm=True)` (`keyedvectors.py` 417-441). -/
noncomputable def normedVector [DecidableEq W] (m : Source W) (key : W) : Except Err (Vec m.size) :=
  match m.keys.idxOf? key with
  | none => .error .key
  | some i =>
    match m.vectors[i]? with
    | none => .error .index
    | some v => .ok (unit v)

/-- `most_similar` with an indexer and an integer `topn` (`keyedvectors.py` 730-773). `query` holds the keys of `positive`
then those of `negative`, with their weights. What the indexer returns is returned: the clipping parameters and the
set of query keys play no part. -/
noncomputable def mostSimilarWith [DecidableEq W] (m : Source W)
    (indexer : Vec m.size → Nat → Except Err (List (W × ℝ))) (query : List (W × ℝ)) (topn : Int) (_clip : Nat × Nat) :
    Except Err (List (W × ℝ)) :=
  if topn < 1 then .ok []
  else do
    let mean ← query.mapM fun p => do
      let v ← normedVector m p.1
      return (fun k => p.2 * v k : Vec m.size)
    if mean = [] then .error .value
    else indexer (unit fun k => (mean.map fun v => v k).sum / mean.length) topn.toNat

end Verif.Ann
