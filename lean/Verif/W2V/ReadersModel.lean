import Verif.Py.Text

/-!
# Model of the sentence readers: `Text8Corpus`, `LineSentence` (`gensim/models/word2vec.py`),
`FastLineSentence` (`fast_line_sentence.h`), `CythonLineSentence` (`word2vec_corpusfile.pyx`), and the file
offsets of `Doc2Vec` (`gensim/models/doc2vec.py`)

Files are character sequences (the byte/UTF-8 step is left out: the block boundaries of `Text8Corpus` are
handled at the byte `' '`, which is never part of a longer UTF-8 sequence).
-/

namespace Verif.W2V

open Verif.Text

/-! ## Text8Corpus -/

/-- models word2vec.py:2016-2018: yield full sentences while there are any.  The fuel bounds the number of
iterations. -/
def emit {α : Type} (maxLen : Nat) : Nat → List α → List (List α) × List α
  | 0, s => ([], s)
  | fuel + 1, s =>
    if maxLen ≤ s.length then
      let r := emit maxLen fuel (s.drop maxLen)
      (s.take maxLen :: r.1, r.2)
    else ([], s)

/-- what follows the last `' '` of a text -/
def afterLast (text : Str) : Str := (text.reverse.takeWhile (· ≠ ' ')).reverse

/-- models word2vec.py:2012-2014: the words before the last space and the rest; `text[:last_token]` and
`text[last_token:]` with `last_token = text.rfind(b' ')` -/
def cutLast (text : Str) : List Str × Str :=
  if ' ' ∈ text then
    let last := text.length - (afterLast text).length - 1
    (splitWs uws (text.take last), strip bws (text.drop last))
  else ([], text)

/-- models word2vec.py:2000-2018, `Text8Corpus.__iter__`; `blocks` are the results of the successive
`fin.read(8192)` before the empty one at the end of the file -/
def text8Loop (maxLen : Nat) : List Str → Str → List Str → List (List Str)
  | sentence, rest, [] =>
    let s := sentence ++ splitWs uws rest
    if s = [] then [] else [s]
  | sentence, rest, b :: bs =>
    let c := cutLast (rest ++ b)
    let s := sentence ++ c.1
    let e := emit maxLen s.length s
    e.1 ++ text8Loop maxLen e.2 c.2 bs

def text8 (maxLen : Nat) (blocks : List Str) : List (List Str) := text8Loop maxLen [] [] blocks

/-! ## LineSentence -/

/-- models word2vec.py:2052-2055: `line[i: i + max]` for `i = 0, max, 2 max, ...`; fuel bounds the iterations -/
def pieces {α : Type} (maxLen : Nat) (line : List α) : Nat → Nat → List (List α)
  | 0, _ => []
  | fuel + 1, i =>
    if i < line.length then (line.drop i).take maxLen :: pieces maxLen line fuel (i + maxLen) else []

/-- models word2vec.py:2044-2067 `LineSentence.__iter__`: `islice(lines, limit)`, each line split and cut -/
def lineSentences (maxLen : Nat) (limit : Option Nat) (text : Str) : List (List Str) :=
  let lines := pyLines text
  let lines := match limit with
    | none => lines
    | some n => lines.take n
  lines.flatMap (fun line => let ws := splitWs uws line; pieces maxLen ws ws.length 0)

/-! ## CythonLineSentence -/

/-- models fast_line_sentence.h:20-38: `getline` cuts at newlines; the part after the last newline (possibly
empty) is a line, too, and only reading it sets the end of file.  The file is read from some offset on; its
lines, split into words. -/
def fastLines (text : Str) : List (List Str) := (splitOn '\n' text).map (splitWs bws)

/-- models word2vec_corpusfile.pyx:104-120 `_chunk_sentence` -/
def chunkSentence {α : Type} (maxLen : Nat) (sent : List α) : List (List α) :=
  if maxLen < sent.length then pieces maxLen sent sent.length 0 else [sent]

/-- the reader: unread lines (end of file is `rest = []`) and `buf_data` -/
structure Reader (α : Type) where
  rest : List (List α)
  buf : List (List α)
deriving DecidableEq

/-- the number of words -/
def nwords {α : Type} (l : List (List α)) : Nat := (l.map List.length).sum

/-- models word2vec_corpusfile.pyx:155-161: read lines while the batch is not over the limit -/
def readMore {α : Type} (maxLen : Nat) : List (List α) → List (List α) → List (List α) × List (List α)
  | batch, [] => (batch, [])
  | batch, line :: rest =>
    if nwords batch ≤ maxLen then readMore maxLen (batch ++ chunkSentence maxLen line) rest else (batch, line :: rest)

/-- models word2vec_corpusfile.pyx:163-176: `last_idx`.  Searches from the end (`n` sentences are left, the
words of which are `tmp`) for the first sentence before which at most `maxLen` words stand. -/
def lastIdx {α : Type} (maxLen : Nat) (batch : List (List α)) : Nat → Nat → Nat
  | 0, _ => 0
  | n + 1, tmp =>
    let l := (batch.getD n []).length
    if tmp - l ≤ maxLen then n + 1 else lastIdx maxLen batch n (tmp - l)

/-- models word2vec_corpusfile.pyx:137-182 `next_batch` -/
def nextBatch {α : Type} (maxLen : Nat) (r : Reader α) : List (List α) × Reader α :=
  let p := readMore maxLen r.buf r.rest
  if maxLen < nwords p.1 then
    let k := lastIdx maxLen p.1 p.1.length (nwords p.1)
    (p.1.take k, ⟨p.2, p.1.drop k⟩)
  else (p.1, ⟨p.2, []⟩)

/-- models word2vec_corpusfile.pyx:303-313, the loop of `train_epoch_sg` (and of the other train functions):
the batches trained on, and the reader when the loop stops.  `quota`: `expected_words / workers`.
The fuel bounds the iterations.  Simplification: the words of a batch are counted in full, while the code
does not count a last sentence before which the batch was already truncated. -/
def trainLoop {α : Type} (maxLen quota : Nat) : Nat → Nat → Reader α → List (List (List α)) × Reader α
  | 0, _, r => ([], r)
  | fuel + 1, total, r =>
    if r.rest = [] ∨ quota < total then ([], r)
    else
      let b := nextBatch maxLen r
      let t := trainLoop maxLen quota fuel (total + nwords b.1) b.2
      (b.1 :: t.1, t.2)

/-- models word2vec.py:1335-1339 with fast_line_sentence.h:11-17: in corpus_file mode thread `i` of `Word2Vec` reads
the file from position `corpus_file_size / workers * i` on (a float truncated to `size_t`), until it has more than
`total_words / workers` words; result: the words each thread trains on -/
def epochWords (maxLen workers totalWords fuel : Nat) (text : Str) : List (List Str) :=
  (List.range workers).map (fun i =>
    (trainLoop maxLen (totalWords / workers) fuel 0
      ⟨fastLines (text.drop (text.length * i / workers)), []⟩).1.flatten.flatten)

/-! ## File offsets for the workers -/

/-- models doc2vec.py:536: `int(corpus_file_size // workers * i)` -/
def approxOffsets (size workers : Nat) : List Nat := (List.range workers).map (fun i => size / workers * i)

/-- models doc2vec.py:547-551: the inner loop; the approximate offsets not yet served, the offsets and
document numbers found for this line -/
def serve (curr prev lineNo : Nat) : List Nat → List Nat × List (Nat × Nat)
  | [] => ([], [])
  | a :: as =>
    if a < curr then
      let r := serve curr prev lineNo as
      (r.1, (prev, lineNo) :: r.2)
    else (a :: as, [])

/-- models doc2vec.py:544-555 over the lines of the file -/
def offsetLoop : Nat → Nat → List Nat → List Str → List (Nat × Nat)
  | _, _, _, [] => []
  | lineNo, prev, approx, line :: lines =>
    if approx = [] then []
    else
      let curr := prev + line.length
      let r := serve curr prev lineNo approx
      r.2 ++ offsetLoop (lineNo + 1) curr r.1 lines

/-- models doc2vec.py:515-556: pairs (offset, start doctag) -/
def fileOffsets (text : Str) (workers : Nat) : List (Nat × Nat) :=
  offsetLoop 0 0 (approxOffsets text.length workers) (pyLines text)

end Verif.W2V
