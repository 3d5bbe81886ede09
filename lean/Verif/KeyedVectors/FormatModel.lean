import Verif.Py.Text
import Verif.Py.Sort
import Verif.KeyedVectors.SimModel

/-!
# Model of the word2vec file formats (`gensim/models/keyedvectors.py`)

A file is a list of characters; in the binary format a character stands for a byte.  How a vector is written as text
or bytes, and how a key is encoded, are parameters.
-/

namespace Verif.KV

open Verif Verif.Text Verif.Matutils

variable {κ V N : Type} [DecidableEq κ]

/-- a `KeyedVectors` being loaded, and its `count` attribute -/
structure Loading (κ V N : Type) where
  kv : Store κ V N
  counts : List Nat
deriving DecidableEq

/-- outcome of loading; `diverge` is a loop that does not end -/
inductive Load (α : Type) where
  | ok (a : α)
  | error
  | diverge
deriving DecidableEq

/-- models keyedvectors.py:1747-1764 `_add_word_to_kv` without vocabulary file (`counts is None`) -/
def addWord (n : Nat) (st : Loading κ V N) (w : κ × V) : Loading κ V N :=
  if has (fun _ => none) st.kv w.1 then st
  else
    let r := addVector (fun _ => none) st.kv w.1 w.2
    ⟨r.1, (setAttr (fun _ => none) 0 r.1 st.counts w.1 (n - r.2)).getD st.counts⟩

/-! ### binary format -/

/-- models keyedvectors.py:1774-1783: the first record of the chunk: the bytes of the word, the `L` bytes of the
vector, and the rest; `none` if the chunk does not hold a whole record -/
def nextRecord (L : Nat) (chunk : Str) : Option (Str × Str × Str) :=
  if ' ' ∈ chunk then
    let word := chunk.takeWhile (fun c => c ≠ ' ')
    let rest := (chunk.dropWhile (fun c => c ≠ ' ')).drop 1
    if rest.length < L then none else some (word, rest.take L, rest.drop L)
  else none

/-- models keyedvectors.py:1779-1781: the key of the bytes of a word (leading newlines are removed; decoding does not fail) -/
def wordKey (decode : Str → κ) (w : Str) : κ := decode (w.dropWhile (fun c => c = '\n'))

/-- models keyedvectors.py:1773-1788: the loop of `_add_bytes_to_kv`: `m` is the number of iterations left -/
def addBytes (decode : Str → κ) (parse : Str → V) (n L : Nat) : Nat → Loading κ V N → Str → Loading κ V N × Nat × Str
  | 0, st, chunk => (st, 0, chunk)
  | m + 1, st, chunk =>
    match nextRecord L chunk with
    | none => (st, 0, chunk)
    | some (w, v, rest) =>
      let r := addBytes decode parse n L m (addWord n st (wordKey decode w, parse v)) rest
      (r.1, r.2.1 + 1, r.2.2)

/-- models keyedvectors.py:1791-1804 `_word2vec_read_binary`, reading `c` bytes at a time -/
def readBinary (decode : Str → κ) (parse : Str → V) (n L c : Nat) : Nat → Loading κ V N → Nat → Str → Str →
    Load (Loading κ V N)
  | 0, _, _, _, _ => .diverge
  | fuel + 1, st, tot, chunk, file =>
    if tot < n then
      let piece := file.take c
      let r := addBytes decode parse n L (n - st.kv.nextIndex) st (chunk ++ piece)
      let tot := tot + r.2.1
      if piece.length < c then (if tot ≠ n then .error else .ok r.1)
      else readBinary decode parse n L c fuel r.1 tot r.2.2 (file.drop c)
    else if tot ≠ n then .error else .ok st

/-! ### text format -/

/-- models keyedvectors.py:1816-1819 `_word2vec_line_to_vector`; `none` is a number that cannot be read -/
def lineToVector {W : Type} (dec : Str → Option W) (line : Str) : Option (Str × List W) :=
  match splitOn ' ' (rstrip bws line) with
  | [] => none
  | w :: parts => (parts.mapM dec).map (fun v => (w, v))

/-- models keyedvectors.py:1807-1813 `_word2vec_read_text`: `m` lines are still to be read; a vector of another length than
`size` cannot be stored in its row -/
def readText {W : Type} (dec : Str → Option W) (n size : Nat) : Nat → Loading Str (List W) N → List Str →
    Load (Loading Str (List W) N)
  | 0, st, _ => .ok st
  | _ + 1, _, [] => .error
  | m + 1, st, line :: lines =>
    match lineToVector dec line with
    | none => .error
    | some w => if w.2.length = size then readText dec n size m (addWord n st w) lines else .error

/-! ### loading -/

/-- models keyedvectors.py:1893-1897: header and `limit` (`if limit`: 0 is no limit) -/
def readHeader (line : Str) (limit : Option Nat) : Option (Nat × Nat) :=
  match splitWs uws line with
  | [a, b] =>
    match readInt a, readInt b with
    | some n, some d =>
      if 0 ≤ n ∧ 0 ≤ d then
        some (match limit with
          | some (l + 1) => min n.toNat (l + 1)
          | _ => n.toNat, d.toNat)
      else none
    | _, _ => none
  | _ => none

/-- models keyedvectors.py:1835-1917 `_load_word2vec_format(binary=True)` with header and without vocabulary file; `zero d` is
the initial row, `bytes d` the number of bytes of a vector -/
def loadBinary (decode : Str → κ) (parse : Str → V) (zero : Nat → V) (bytes : Nat → Nat) (c : Nat) (limit : Option Nat)
    (file : Str) : Load (Loading κ V N) :=
  match pyLines file with
  | [] => .error
  | h :: _ =>
    match readHeader h limit with
    | none => .error
    | some (n, d) =>
      readBinary decode parse n (bytes d) c (file.length + 1) ⟨new (zero d) n, []⟩ 0 [] (file.drop h.length)

/-- models keyedvectors.py:1835-1917 `_load_word2vec_format(binary=False)` with header and without vocabulary file -/
def loadText {W : Type} (dec : Str → Option W) (zero : W) (limit : Option Nat) (file : Str) :
    Load (Loading Str (List W) N) :=
  match pyLines file with
  | [] => .error
  | h :: lines =>
    match readHeader h limit with
    | none => .error
    | some (n, d) => readText dec n d n ⟨new (List.replicate d zero) n, []⟩ lines

/-! ### saving -/

/-- models keyedvectors.py:1535-1548: the order of the keys: by the attribute `sort_attr`, largest first, if it exists, else
that of `index_to_key` -/
def storeOrder (s : Store κ V N) : Option (κ → Int) → List κ
  | some attr => pySort (fun a b => decide (- attr a ≤ - attr b)) s.keyToIndex.keys
  | none => s.indexToKey.filterMap id

/-- models keyedvectors.py:1562-1566: the number of initial keys that are their own row number -/
def intPrefix (asInt : κ → Option Int) : Nat → List (Option κ) → Nat
  | _, [] => 0
  | i, k :: ks => if k.bind asInt = some (i : Int) then intPrefix asInt (i + 1) ks + 1 else 0

/-- models keyedvectors.py:1567 `keys_to_write` -/
def keysToWrite (asInt : κ → Option Int) (ofNat : Nat → κ) (s : Store κ V N) (attr : Option (κ → Int)) : List κ :=
  (List.range (intPrefix asInt 0 s.indexToKey)).map ofNat ++ storeOrder s attr

/-- models keyedvectors.py:1570-1578: header and records; `none` if a key has no vector -/
def saveWith (asInt : κ → Option Int) (ofNat : Nat → κ) (record : κ → V → Str) (size : Nat) (s : Store κ V N)
    (attr : Option (κ → Int)) : Option Str :=
  ((keysToWrite asInt ofNat s attr).mapM (fun k => (getVector asInt s k).map (record k))).map (fun rs =>
    showNat s.indexToKey.length ++ [' '] ++ showNat size ++ ['\n'] ++ rs.flatten)

/-- models keyedvectors.py:1576 a record of the binary format -/
def binaryRecord (encode : κ → Str) (toBytes : V → Str) (k : κ) (v : V) : Str := encode k ++ [' '] ++ toBytes v

/-- models keyedvectors.py:1578 a record of the text format -/
def textRecord {W : Type} (enc : W → Str) (k : Str) (v : List W) : Str :=
  k ++ [' '] ++ joinWith [' '] (v.map enc) ++ ['\n']

end Verif.KV
