import Verif.KeyedVectors.FormatModel

/-!
# Files of vectors without a header, conversions, and merging

`gensim/models/keyedvectors.py`: `_word2vec_detect_sizes_text` (1822-1832), `_load_word2vec_format` with
`no_header` (1881-1900), `intersect_word2vec_format` (1656-1691).
`gensim/scripts/glove2word2vec.py`: `get_glove_info` (85-89), `glove2word2vec` (109-114).
`gensim/scripts/word2vec2tensor.py`: `word2vec2tensor` (68-76).

As in `Verif/KeyedVectors/FormatModel.lean` a file is a list of characters (of bytes in the binary format).
-/

namespace Verif.VecFile
open Verif Verif.Text Verif.KV PyDict

variable {W N L : Type}

/-! ### Files without a header -/

/-- models keyedvectors.py:1822-1832: the loop over the lines; `k` is the counter, `size` the length found so far.
`none` is the exception for a line that cannot be read. -/
def detectFrom (dec : Str → Option W) (limit : Option Nat) : List Str → Nat → Option Nat → Option (Nat × Option Nat)
  | [], k, size => some (k, size)
  | line :: lines, k, size =>
    if limit = some k then some (k, size)
    else match size with
      | some (s + 1) => detectFrom dec limit lines (k + 1) (some (s + 1))
      | _ => match lineToVector dec line with
        | none => none
        | some w => detectFrom dec limit lines (k + 1) (some w.2.length)

/-- models keyedvectors.py:1896-1897: the number of rows to read; a limit of 0 is no limit. -/
def rows (limit : Option Nat) (n : Nat) : Nat :=
  match limit with
  | some (l + 1) => min n (l + 1)
  | _ => n

/-- models keyedvectors.py:1881-1917 `_load_word2vec_format(binary=False, no_header=True)`: the file is read a second
time with the sizes found. Without a size (`None`) numpy cannot make the matrix. -/
def loadNoHeader (dec : Str → Option W) (zero : W) (limit : Option Nat) (file : Str) :
    Load (Loading Str (List W) N) :=
  match detectFrom dec limit (pyLines file) 0 none with
  | some (n, some d) =>
    readText dec (rows limit n) d (rows limit n) ⟨new (List.replicate d zero) (rows limit n), []⟩ (pyLines file)
  | _ => .error

/-! ### Conversions -/

/-- models glove2word2vec.py:85-89: number of lines, and of fields of the first line less one. -/
def gloveInfo (file : Str) : Int × Int :=
  ((pyLines file).length, ((splitWs bws ((pyLines file).headD [])).length : Int) - 1)

/-- The attribute `count` of the vectors just loaded (keyedvectors.py:1536): it exists if any word was added. -/
def countAttr (st : Loading Str (List W) N) : Option (Str → Int) :=
  if st.counts = [] then none
  else some (fun k => ((getIndex (fun _ => none) st.kv k).bind (fun i => st.counts[i]?)).getD 0)

/-- models glove2word2vec.py:109-114: the file written and the pair returned. The length of the vectors is that of
the first row. -/
def glove (dec : Str → Option W) (enc : W → Str) (zero : W) (file : Str) : Option (Str × Nat × Nat) :=
  match (loadNoHeader dec zero none file : Load (Loading Str (List W) Unit)) with
  | .ok st =>
    let size := (st.kv.vectors.headD []).length
    (saveWith (fun _ => none) (fun _ => []) (textRecord enc) size st.kv (countAttr st)).map
      (fun out => (out, st.kv.indexToKey.length, size))
  | _ => none

/-- models word2vec2tensor.py:72-76: the two files, words and vectors, from the vectors loaded; `none` is the
exception for a row without a key. -/
def tensor (enc : W → Str) (s : Store Str (List W) N) : Option (Str × Str) :=
  (s.indexToKey.mapM (fun (k? : Option Str) => k?.bind (fun k => (getVector (fun _ => none) s k).map (fun v =>
    (k ++ ['\n'], joinWith ['\t'] (v.map enc) ++ ['\n']))))).map
    (fun ls => ((ls.map Prod.fst).flatten, (ls.map Prod.snd).flatten))

/-! ### Merging -/

/-- How a call of `intersect_word2vec_format` ends. -/
inductive End | returned | valueError | indexError | attributeError | diverges
deriving DecidableEq

/-- Vectors with lock factors (`none`: there is no attribute `vectors_lockf`). -/
structure Locked (W N L : Type) where
  kv : Store Str (List W) N
  lockf : Option (List L)

/-- models keyedvectors.py:1679-1682 and 1688-1690: one word of the file. A row of one number is broadcast by numpy.
The vector is written before the lock factor. -/
def mergeWord (size : Nat) (l : L) (s : Locked W N L) (w : Str) (v : List W) : Locked W N L × Option End :=
  match s.kv.keyToIndex.get? w with
  | none => (s, none)
  | some i =>
    if i < s.kv.vectors.length then
      if v.length = size ∨ v.length = 1 then
        let row := if v.length = size then v else (List.replicate size v).flatten
        let s := { s with kv := { s.kv with vectors := s.kv.vectors.set i row } }
        match s.lockf with
        | none => (s, some .attributeError)
        | some ls => if i < ls.length then ({ s with lockf := some (ls.set i l) }, none) else (s, some .indexError)
      else (s, some .valueError)
    else (s, some .indexError)

/-- models keyedvectors.py:1684-1690: the lines of a text file. -/
def mergeText (dec : Str → Option W) (size : Nat) (l : L) : List Str → Locked W N L → Locked W N L × Option End
  | [], s => (s, none)
  | line :: lines, s =>
    let parts := splitOn ' ' (rstrip bws line)
    if parts.length ≠ size + 1 then (s, some .valueError)
    else match parts.tail.mapM dec with
      | none => (s, some .valueError)
      | some v => match mergeWord size l s (parts.headD []) v with
        | (s, none) => mergeText dec size l lines s
        | (s, some e) => (s, some e)

/-- models keyedvectors.py:1669-1676: the bytes up to the next space, without the newlines among them; `none`: at the
end of the file `read(1)` is empty for ever. -/
def readWord (file : Str) : Option (Str × Str) :=
  if ' ' ∈ file then
    some ((file.takeWhile (fun c => c ≠ ' ')).filter (fun c => c ≠ '\n'), (file.dropWhile (fun c => c ≠ ' ')).drop 1)
  else none

/-- models keyedvectors.py:1667-1682: the records of a binary file; `parse` is `np.fromstring`, `none` its
`ValueError`. Decoding the word does not fail. -/
def mergeBinary (parse : Str → Option (List W)) (size bytes : Nat) (l : L) :
    Nat → Str → Locked W N L → Locked W N L × Option End
  | 0, _, s => (s, none)
  | n + 1, file, s =>
    match readWord file with
    | none => (s, some .diverges)
    | some (w, rest) =>
      match parse (rest.take bytes) with
      | none => (s, some .valueError)
      | some v => match mergeWord size l s w v with
        | (s, none) => mergeBinary parse size bytes l n (rest.drop bytes) s
        | (s, some e) => (s, some e)

/-- models keyedvectors.py:1656-1691 `intersect_word2vec_format`; `size` is `self.vector_size`. The last statement
logs `self.wv.vectors.shape`, but `KeyedVectors` has no attribute `wv`. Negative numbers in the
header are an error here. -/
def intersect (dec : Str → Option W) (parse : Str → Option (List W)) (bytes : Nat → Nat) (size : Nat) (l : L)
    (binary : Bool) (file : Str) (s : Locked W N L) : Locked W N L × End :=
  match readHeader ((pyLines file).headD []) none with
  | none => (s, .valueError)
  | some (n, d) =>
    if d ≠ size then (s, .valueError)
    else
      let r := if binary then mergeBinary parse size (bytes size) l n (file.drop ((pyLines file).headD []).length) s
        else mergeText dec size l (pyLines file).tail s
      match r with
      | (s, some e) => (s, e)
      | (s, none) => (s, .attributeError)

end Verif.VecFile
