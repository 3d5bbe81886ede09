import Verif.KeyedVectors.SimModel

/-!
# Model of the tag index of Doc2Vec (`gensim/models/doc2vec.py`)
-/

namespace Verif.Doc2Vec

open Verif Verif.KV

/-- a tag: an integer (row number) or a string -/
inductive Tag (κ : Type) where
  | int (i : Int)
  | str (k : κ)
deriving DecidableEq

def Tag.asInt {κ : Type} : Tag κ → Option Int
  | .int i => some i
  | .str _ => none

variable {κ : Type} [DecidableEq κ]

/-- models doc2vec.py:106-162 `Doctag` -/
structure Doctag where
  index : Nat
  wordCount : Nat
  docCount : Nat
deriving DecidableEq

/-- the variables `max_rawint`, `doctags_lookup`, `doctags_list` of `_scan_vocab` -/
structure Scan (κ : Type) where
  maxInt : Int
  lookup : PyDict κ Doctag
  list : List κ
deriving DecidableEq

/-- models doc2vec.py:964-975: note one tag of a document with `len` words -/
def noteTag (len : Nat) (s : Scan κ) : Tag κ → Scan κ
  | .int i => { s with maxInt := max s.maxInt i }
  | .str t =>
    match s.lookup.get? t with
    | some d => { s with lookup := s.lookup.set t ⟨d.index, d.wordCount + len, d.docCount + 1⟩ }
    | none => { s with lookup := s.lookup.set t ⟨s.list.length, len, 1⟩, list := s.list ++ [t] }

/-- models doc2vec.py:933-985: the scan; a document is its number of words and its tags -/
def scan (docs : List (Nat × List (Tag κ))) : Scan κ :=
  docs.foldl (fun s doc => doc.2.foldl (noteTag doc.1) s) ⟨-1, [], []⟩

/-- the document vectors' index and its two attributes (as dictionaries) -/
structure Index (κ : Type) where
  indexToKey : List (Tag κ)
  keyToIndex : PyDict (Tag κ) Nat
  wordCount : PyDict κ Nat
  docCount : PyDict κ Nat
deriving DecidableEq

/-- models doc2vec.py:988-1001: shift the rows of string tags behind those of integer tags and store the result;
`key_to_index` is added to, not cleared.  The attribute arrays are modelled as dictionaries over the string tags. -/
def store (old : Index κ) (s : Scan κ) : Index κ :=
  let shift := if s.maxInt > -1 then (s.maxInt + 1).toNat else 0
  { indexToKey := (List.range shift).map (fun i : Nat => Tag.int (i : Int)) ++ s.list.map Tag.str
    keyToIndex := s.lookup.foldl (fun d p => d.set (Tag.str p.1) (p.2.index + shift)) old.keyToIndex
    wordCount := s.lookup.foldl (fun d p => d.set p.1 p.2.wordCount) old.wordCount
    docCount := s.lookup.foldl (fun d p => d.set p.1 p.2.docCount) old.docCount }

/-- models doc2vec.py:933-1003 `_scan_vocab` for a new model -/
def buildTags (docs : List (Nat × List (Tag κ))) : Index κ := store ⟨[], [], [], []⟩ (scan docs)

/-- the row of a tag: keyedvectors.py:386-399 `get_index` on the document vectors -/
def rowOf (x : Index κ) (t : Tag κ) : Option Nat :=
  getIndex (V := Unit) (N := Unit) Tag.asInt ⟨x.indexToKey.map some, x.keyToIndex, [], 0, none⟩ t

end Verif.Doc2Vec
