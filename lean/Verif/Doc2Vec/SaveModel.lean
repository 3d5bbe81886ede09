import Verif.Doc2Vec.TagsModel
import Verif.KeyedVectors.FormatModel

/-!
# Model of saving the vectors of Doc2Vec (`gensim/models/doc2vec.py` `save_word2vec_format`,
`gensim/models/keyedvectors.py` `save_word2vec_format`)
-/

namespace Verif.Doc2Vec
open Verif Verif.Text Verif.KV

variable {κ V N : Type} [DecidableEq κ]

/-- the file of the vectors and the file of the vocabulary; `none` is no file -/
structure Files where
  main : Option Str
  vocab : Option Str
deriving DecidableEq

/-- the exceptions: the attribute to sort by does not exist; the assertion about the shape; a key without vector -/
inductive SaveErr
  | noAttr
  | shape
  | key
deriving DecidableEq

/-- models keyedvectors.py:1574-1579: the records, until a key has no vector; whether all were written -/
def putRecords (get : κ → Option V) (record : κ → V → Str) : List κ → Str × Bool
  | [] => ([], true)
  | k :: ks =>
    match get k with
    | none => ([], false)
    | some v => (record k v ++ (putRecords get record ks).1, (putRecords get record ks).2)

/-- what a file opened with mode `wb` or `ab` starts with -/
def opened (append : Bool) (old : Option Str) : Str := if append then old.getD [] else []

/-- models keyedvectors.py:1503-1579 `save_word2vec_format`; `attr` is the attribute `sort_attr` if it exists, `name` the
prefix and the key as text -/
def saveKv (asInt : κ → Option Int) (ofNat : Nat → κ) (name : κ → Str) (record : Str → V → Str) (size : Nat)
    (s : Store κ V N) (attr : Option (κ → Nat)) (total : Option Nat) (header append fvocab : Bool) (fs : Files) :
    Files × Option SaveErr :=
  if fvocab && attr.isNone then (fs, some .noAttr)
  else
    let sort : Option (κ → Int) := attr.map fun f k => (f k : Int)
    let fs1 : Files :=
      if fvocab then
        { fs with vocab := some (opened append fs.vocab ++ ((storeOrder s sort).map fun k =>
            name k ++ [' '] ++ showNat ((attr.getD fun _ => 0) k) ++ ['\n']).flatten) }
      else fs
    if s.vectors.length ≠ s.indexToKey.length then (fs1, some .shape)
    else
      let r := putRecords (getVector asInt s) (fun k => record (name k)) (keysToWrite asInt ofNat s sort)
      ({ fs1 with main := some (opened append fs1.main ++
          (if header then showNat (total.getD s.indexToKey.length) ++ [' '] ++ showNat size ++ ['\n'] else []) ++ r.1) },
        if r.2 then none else some .key)

/-- the vectors of a Doc2Vec model: of words with their counts, and of tags -/
structure D2V (V N : Type) where
  wv : Store Str V N
  counts : Option (Str → Nat)
  tags : Index Str
  vecs : List V

/-- `dv`: the vectors of the tags -/
def D2V.dv (m : D2V V N) : Store (Tag Str) V N :=
  ⟨m.tags.indexToKey.map some, m.tags.keyToIndex, m.vecs, m.tags.indexToKey.length, none⟩

/-- the attribute `doc_count` of a tag -/
def docCountOf (x : Index Str) : Tag Str → Nat
  | .int _ => 0
  | .str k => (x.docCount.get? k).getD 0

/-- the attribute `doc_count` of the tags; it exists once a string tag was stored (doc2vec.py:998-1001) -/
def D2V.docCount (m : D2V V N) : Option (Tag Str → Nat) :=
  if m.tags.docCount = [] then none else some (docCountOf m.tags)

/-- a tag as text -/
def showTag : Tag Str → Str
  | .int i => showInt i
  | .str k => k

/-- models doc2vec.py:732-749 `save_word2vec_format` -/
def saveD2V (record : Str → V → Str) (size : Nat) (m : D2V V N) (doctags words : Bool) (pre : Str) (fvocab : Bool)
    (fs : Files) : Files × Option SaveErr :=
  let total := if doctags then some (m.wv.indexToKey.length + m.tags.indexToKey.length) else none
  let r := if words then saveKv (fun _ => none) (fun _ => []) id record size m.wv m.counts total true false fvocab fs
    else (fs, none)
  match r.2 with
  | some _ => r
  | none =>
    if doctags then
      saveKv Tag.asInt (fun i => .int i) (fun t => pre ++ showTag t) record size m.dv m.docCount none (!words) words fvocab r.1
    else r

end Verif.Doc2Vec
