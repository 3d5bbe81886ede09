import Verif.Py.Dict
import Mathlib.Data.Int.Order.Basic

/-!
# Model of `KeyedVectors` storage (`gensim/models/keyedvectors.py`)

Keys have any type; `asInt` tells which keys are integers (Python `int` keys double as row numbers).  Vectors
have any type `V`; `norm : V → N` computes a norm.
-/

namespace Verif.KV

open Verif

structure Store (κ V N : Type) where
  indexToKey : List (Option κ)
  keyToIndex : PyDict κ Nat
  vectors : List V
  nextIndex : Nat
  norms : Option (List N)
deriving DecidableEq

variable {κ V N : Type} [DecidableEq κ]

/-- models keyedvectors.py:220-227 `__init__(vector_size, count)` -/
def new (zero : V) (count : Nat) : Store κ V N := ⟨List.replicate count none, [], List.replicate count zero, 0, none⟩

/-- models keyedvectors.py:386-399 `get_index`; `none` is the `KeyError` -/
def getIndex (asInt : κ → Option Int) (s : Store κ V N) (k : κ) : Option Nat :=
  match s.keyToIndex.get? k with
  | some i => some i
  | none =>
    match asInt k with
    | some i => if 0 ≤ i ∧ i < s.indexToKey.length then some i.toNat else none
    | none => none

/-- models keyedvectors.py:551-563 `has_index_for`, `__contains__` -/
def has (asInt : κ → Option Int) (s : Store κ V N) (k : κ) : Bool := (getIndex asInt s k).isSome

/-- models keyedvectors.py:401-433 `get_vector` (and 367-384 `__getitem__`) with `norm=False` -/
def getVector (asInt : κ → Option Int) (s : Store κ V N) (k : κ) : Option V :=
  (getIndex asInt s k).bind (fun i => s.vectors[i]?)

/-- models keyedvectors.py:613-622 `fill_norms()` -/
def fillNorms (norm : V → N) (s : Store κ V N) : Store κ V N :=
  match s.norms with
  | none => { s with norms := some (s.vectors.map norm) }
  | some _ => s

/-- models keyedvectors.py:426-428: `get_vector(key, norm=True)`: the vector and the norm it is divided by -/
def getNormed (asInt : κ → Option Int) (norm : V → N) (s : Store κ V N) (k : κ) : Option (V × N) :=
  let s := fillNorms norm s
  (getIndex asInt s k).bind (fun i => (s.vectors[i]?).bind (fun v => (s.norms.bind (fun ns => ns[i]?)).map (fun n => (v, n))))

/-- models keyedvectors.py:513-516: add the new keys -/
def addKeys (s : Store κ V N) (new : List (κ × V)) : Store κ V N :=
  new.foldl (fun s p => { s with keyToIndex := s.keyToIndex.set p.1 s.indexToKey.length,
                                 indexToKey := s.indexToKey ++ [some p.1] }) s

/-- models keyedvectors.py:526: `self.vectors[in_vocab_idxs] = weights[in_vocab_mask]` (for a repeated row the last
value stays) -/
def setRows (vectors : List V) (rows : List (Nat × V)) : List V := rows.foldl (fun vs r => vs.set r.1 r.2) vectors

/-- models keyedvectors.py:480-528 `add_vectors(keys, weights, replace=...)`, without `extras` -/
def addVectors (asInt : κ → Option Int) (s : Store κ V N) (items : List (κ × V)) (replace : Bool) : Store κ V N :=
  let known := items.filter (fun p => has asInt s p.1)
  let unknown := items.filter (fun p => !has asInt s p.1)
  let s := addKeys s unknown
  let s := { s with vectors := s.vectors ++ unknown.map Prod.snd }
  if replace then
    { s with vectors := setRows s.vectors (known.filterMap (fun p => (getIndex asInt s p.1).map (fun i => (i, p.2)))) }
  else s

/-- models keyedvectors.py:440-478 `add_vector`; also returns the index the method returns -/
def addVector (asInt : κ → Option Int) (s : Store κ V N) (k : κ) (v : V) : Store κ V N × Nat :=
  if s.indexToKey.length ≤ s.nextIndex ∨ s.indexToKey[s.nextIndex]? ≠ some none then
    ({ addVectors asInt s [(k, v)] false with nextIndex := s.indexToKey.length + 1 }, s.indexToKey.length)
  else
    ({ s with indexToKey := s.indexToKey.set s.nextIndex (some k), keyToIndex := s.keyToIndex.set k s.nextIndex,
              vectors := s.vectors.set s.nextIndex v, nextIndex := s.nextIndex + 1 }, s.nextIndex)

/-- the operations of a history; `kv[keys] = weights` (keyedvectors.py:530-549) is `addVectors` with `replace` -/
inductive Op (κ V : Type) where
  | addVectors (items : List (κ × V)) (replace : Bool)
  | addVector (k : κ) (v : V)
  | fillNorms

def step (asInt : κ → Option Int) (norm : V → N) (s : Store κ V N) : Op κ V → Store κ V N
  | .addVectors items r => addVectors asInt s items r
  | .addVector k v => (addVector asInt s k v).1
  | .fillNorms => fillNorms norm s

end Verif.KV
