/-
Model of gensim's fastText sub-word machinery: character n-grams, their UTF-8 encodings and
the FNV-1a style hash that selects the bucket of each n-gram
(gensim/models/fasttext_inner.pyx:605-715, gensim/models/fasttext.py:1285-1319).

Bytes are natural numbers (below 256 in every encoding produced here); a Python string is a
list of Unicode scalar values.
-/
import Mathlib.Data.List.Basic
import Mathlib.Data.Nat.Bitwise
import Mathlib.Tactic.Common

namespace Verif.FastText

/-! ### UTF-8 -/

/-- `str.encode('utf-8')` of one character, the encoding used by `_bytes_from_unicode`/
    `bytes(..., 'utf-8')` (fasttext_inner.pyx:687-690).  Built into Python, modelled from RFC 3629. -/
def encChar (c : Char) : List Nat :=
  let v := c.toNat
  if v < 0x80 then [v]
  else if v < 0x800 then [0xC0 + v / 64, 0x80 + v % 64]
  else if v < 0x10000 then [0xE0 + v / 4096, 0x80 + v / 64 % 64, 0x80 + v % 64]
  else [0xF0 + v / 262144, 0x80 + v / 4096 % 64, 0x80 + v / 64 % 64, 0x80 + v % 64]

/-- `text.encode('utf-8')`. -/
def encode (s : List Char) : List Nat := s.flatMap encChar

/-- `_is_utf8_continue` (fasttext.py:1292-1293; the same test inlined as
    `_ft_hash.. & _MB_MASK == _MB_START` in fasttext_inner.pyx:692-707). -/
def isCont (b : Nat) : Bool := b &&& 0xC0 == 0x80

/-- `f'<{word}>'` (fasttext_inner.pyx:656, 687). -/
def extended (word : List Char) : List Char := '<' :: word ++ ['>']

/-! ### Character n-grams -/

/-- `s[i:j]` for `0 ≤ i ≤ j`. -/
def slice {α : Type} (s : List α) (i j : Nat) : List α := (s.take j).drop i

/-- `compute_ngrams(word, min_n, max_n)` (fasttext_inner.pyx:639-662): outer loop over lengths
    `range(min_n, min(len(ext), max_n) + 1)`, inner loop over start positions. -/
def computeNgrams (word : List Char) (minN maxN : Nat) : List (List Char) :=
  let ext := extended word
  (List.range' minN (min ext.length maxN + 1 - minN)).flatMap fun len =>
    (List.range (ext.length - len + 1)).map fun i => slice ext i (i + len)

/-! ### Byte n-grams -/

/-- `while j < num_bytes and is_continuation(bytez[j]): j += 1`
    (fasttext_inner.pyx:704-707). -/
def skipCont (B : List Nat) (j : Nat) : Nat := j + ((B.drop j).takeWhile isCont).length

/-- The inner `while j < num_bytes and n <= max_n` loop (fasttext_inner.pyx:700-712) for the start
    position `i`.  `fuel` bounds the number of iterations; `B.length` is always enough because
    every iteration advances `j`. -/
def growNgrams (B : List Nat) (minN maxN i : Nat) : Nat → Nat → Nat → List (List Nat)
  | 0, _, _ => []
  | fuel + 1, j, n =>
    if j < B.length ∧ n ≤ maxN then
      let j' := skipCont B (j + 1)
      let rest := growNgrams B minN maxN i fuel j' (n + 1)
      if minN ≤ n ∧ ¬ (n = 1 ∧ (i = 0 ∨ j' = B.length)) then slice B i j' :: rest else rest
    else []

/-- `compute_ngrams_bytes(word, min_n, max_n)` (fasttext_inner.pyx:672-715). -/
def computeNgramsBytes (word : List Char) (minN maxN : Nat) : List (List Nat) :=
  let B := encode (extended word)
  (List.range B.length).flatMap fun i =>
    if isCont (B.getD i 0) then [] else growNgrams B minN maxN i B.length i 1

/-! ### Hashing -/

/-- `<uint32_t>(<int8_t>b)`: a byte reinterpreted as a signed 8-bit integer and widened to 32 bits
    (fasttext_inner.pyx:633). -/
def signExtend (b : Nat) : Nat := if b < 128 then b else b + (2 ^ 32 - 256)

/-- One iteration of `ft_hash_bytes` (fasttext_inner.pyx:632-634), on unsigned 32-bit arithmetic. -/
def hashStep (h b : Nat) : Nat := (h ^^^ signExtend b) * 16777619 % 2 ^ 32

/-- `ft_hash_bytes(bytez)` (fasttext_inner.pyx:614-636). -/
def ftHash (bs : List Nat) : Nat := bs.foldl hashStep 2166136261

/-- `ft_ngram_hashes(word, minn, maxn, num_buckets)` (fasttext.py:1296-1319), for
    `num_buckets > 0`. -/
def ngramHashes (word : List Char) (minN maxN buckets : Nat) : List Nat :=
  (computeNgramsBytes word minN maxN).map fun n => ftHash n % buckets

end Verif.FastText
