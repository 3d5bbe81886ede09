import Verif.Py.Text
import Verif.Py.Sort
import Verif.W2V.ReadersModel

/-!
# Model of the readers of directories and of tagged documents: `PathLineSentences`, `BrownCorpus`
(`gensim/models/word2vec.py`), `TaggedLineDocument`, `TaggedBrownCorpus` (`gensim/models/doc2vec.py`), and of
`LineSentence` over an open file

Files are character sequences, as in `ReadersModel`.  Paths are joined with `/`.
-/

namespace Verif.Readers

open Verif Verif.Text Verif.W2V

/-! ## `LineSentence` over an open file, step by step -/

/-- The state of one iterator over a `LineSentence`: not started, or between two sentences, with the sentences of
the current line that are still to be yielded and the number of lines that `islice` may still take. -/
inductive Gen
  | fresh
  | running (pending : List (List Str)) (left : Option Nat)

/-- One line fewer for `itertools.islice` (`none`: no limit) -/
def dec : Option Nat → Option Nat
  | none => none
  | some n => some (n - 1)

/-- models word2vec.py:2053-2058: the next sentence from the lines `rest` that the file has still to give; the
result is the sentence, if there is one, the state of the iterator and the lines left in the file -/
def pull (k : Nat) : List (List Str) → Option Nat → List Str → Option (List Str) × Gen × List Str
  | s :: pending, left, rest => (some s, .running pending left, rest)
  | [], some 0, rest => (none, .running [] (some 0), rest)
  | [], left, [] => (none, .running [] left, [])
  | [], left, line :: rest =>
    let ws := splitWs uws line
    pull k (pieces k ws ws.length 0) (dec left) rest
termination_by pending _ rest => (rest.length, pending.length)

/-- models word2vec.py:2047-2058, one `next()` of an iterator over a file object: the first one goes back to the
start of the file (line 2052); `all` are the lines of the file -/
def next (k : Nat) (limit : Option Nat) (all : List Str) (rest : List Str) : Gen →
    Option (List Str) × Gen × List Str
  | .fresh => pull k [] limit all
  | .running pending left => pull k pending left rest

/-- `n` calls of `next()` on one iterator, with nothing else using the file -/
def nexts (k : Nat) (limit : Option Nat) (all : List Str) : Nat → List Str → Gen → List (List Str)
  | 0, _, _ => []
  | n + 1, rest, g =>
    match next k limit all rest g with
    | (none, _, _) => []
    | (some s, g', rest') => s :: nexts k limit all n rest' g'

/-- two iterators over the same file object, called in the order given (`true`: the first one); the result is what
each call gave -/
def interleave (k : Nat) (limit : Option Nat) (all : List Str) : List Bool → List Str → Gen → Gen →
    List (Option (List Str))
  | [], _, _, _ => []
  | true :: bs, rest, g, g' =>
    let r := next k limit all rest g
    r.1 :: interleave k limit all bs r.2.2 r.2.1 g'
  | false :: bs, rest, g, g' =>
    let r := next k limit all rest g'
    r.1 :: interleave k limit all bs r.2.2 g r.2.1

/-! ## Directories -/

/-- What a path can be. -/
inductive Node
  | file (text : Str)
  | dir (names : List Str)
  | missing

/-- The exceptions of these readers. -/
inductive Err
  | value
  | isDir
  | notFound
  deriving DecidableEq, Repr

/-- `a < b or a == b` for strings: code points, lexicographically -/
def strLe : Str → Str → Bool
  | [], _ => true
  | _ :: _, [] => false
  | a :: as, b :: bs => a.toNat < b.toNat || (a.toNat == b.toNat && strLe as bs)

/-- `os.path.join(dirname, name)` for a relative `name`: one slash between them -/
def pathJoin (dirname name : Str) : Str :=
  if dirname = [] ∨ dirname.getLast? = some '/' then dirname ++ name else dirname ++ '/' :: name

/-- models word2vec.py:2097-2108, the files of a `PathLineSentences`; `source` may be a file, or a directory whose
names are those of `os.listdir` -/
def inputFiles (fs : Str → Node) (source : Str) : Except Err (List Str) :=
  match fs source with
  | .file _ => .ok [source]
  | .dir names => .ok (pySort strLe (names.map (fun n => pathJoin source [] ++ n)))
  | .missing => .error .value

/-- models word2vec.py:2111-2121, `PathLineSentences.__iter__`: the sentences yielded, and the exception that ends
the iteration if there is one -/
def pathIter (fs : Str → Node) (k : Nat) (limit : Option Nat) : List Str → List (List Str) × Option Err
  | [] => ([], none)
  | f :: fns =>
    match fs f with
    | .file text =>
      let r := pathIter fs k limit fns
      (lineSentences k limit text ++ r.1, r.2)
    | .dir _ => ([], some .isDir)
    | .missing => ([], some .notFound)

/-! ## The Brown corpus -/

/-- `s.isalpha()`, for a given class of letters -/
def isAlpha (letter : Char → Bool) (s : Str) : Bool := decide (s ≠ []) && s.all letter

/-- models word2vec.py:1985-1987 and doc2vec.py:1118-1120: the words of a line -/
def brownWords (letter : Char → Bool) (lower : Str → Str) (line : Str) : List Str :=
  let tokenTags := ((splitWs uws line).filter (fun t => (splitOn '/' t).length = 2)).map (splitOn '/')
  (tokenTags.filter (fun p => isAlpha letter ((p.getD 1 []).take 2))).map
    (fun p => lower (p.getD 0 []) ++ '/' :: (p.getD 1 []).take 2)

/-- models word2vec.py:1980-1990: the sentences of a file -/
def brownFile (letter : Char → Bool) (lower : Str → Str) (text : Str) : List (List Str) :=
  ((pyLines text).map (brownWords letter lower)).filter (fun ws => ws ≠ [])

/-- models word2vec.py:1975-1990, `BrownCorpus.__iter__`; `names` is the result of `os.listdir` -/
def brown (letter : Char → Bool) (lower : Str → Str) (fs : Str → Node) (dirname : Str) (names : List Str) :
    List (List Str) :=
  names.flatMap (fun n => match fs (pathJoin dirname n) with
    | .file text => brownFile letter lower text
    | _ => [])

/-- models doc2vec.py:1123: the tag of a document -/
def sentTag (fname : Str) (item : Nat) : Str := fname ++ "_SENT_".toList ++ showNat item

/-- models doc2vec.py:1113-1123: the documents of a file, words and tags -/
def taggedBrownFile (letter : Char → Bool) (lower : Str → Str) (fname text : Str) : List (List Str × List Str) :=
  ((pyLines text).zipIdx.map (fun p => (brownWords letter lower p.1, [sentTag fname p.2]))).filter
    (fun d => d.1 ≠ [])

/-- models doc2vec.py:1100-1123, `TaggedBrownCorpus.__iter__` -/
def taggedBrown (letter : Char → Bool) (lower : Str → Str) (fs : Str → Node) (dirname : Str) (names : List Str) :
    List (List Str × List Str) :=
  names.flatMap (fun n => match fs (pathJoin dirname n) with
    | .file text => taggedBrownFile letter lower (pathJoin dirname n) text
    | _ => [])

/-- models doc2vec.py:1151-1170, `TaggedLineDocument.__iter__`, words and tags -/
def taggedLines (text : Str) : List (List Str × List Nat) :=
  (pyLines text).zipIdx.map (fun p => (splitWs uws p.1, [p.2]))

end Verif.Readers
