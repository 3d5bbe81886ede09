import Mathlib.Data.List.Basic

/-!
# Model of indexed corpora on disk

Models `/repo/gensim/corpora/indexedcorpus.py`, the fancy indexing of `utils.SlicedCorpus`, `utils.smart_extension`, and the
constructor of `/repo/gensim/corpora/csvcorpus.py`. A file format is a parameter: how documents are written, with offsets, how a
file is read, and what is found at an offset.
-/

namespace Verif.Indexed

/-- What can be raised. -/
inductive Err | value | runtime | index | io | attribute | type | csv
  deriving DecidableEq, Repr

/-! ### The name of the index file -/

/-- The last component of a path, from its characters in reverse. -/
def nonDotBefore : List Char → Bool
  | [] => false
  | c :: r => if c = '/' then false else if c = '.' then nonDotBefore r else true

/-- `os.path.splitext` on the reversed path: the position of the last dot, counted from the end, if it belongs to the last
component and something other than dots stands before it there. `acc` collects the extension. -/
def splitRev : List Char → List Char → Option (List Char × List Char)
  | [], _ => none
  | c :: r, acc => if c = '/' then none else if c = '.' then (if nonDotBefore r then some (r, '.' :: acc) else none)
    else splitRev r (c :: acc)

/-- `os.path.splitext`. -/
def splitext (p : List Char) : List Char × List Char :=
  match splitRev p.reverse [] with
  | some (r, e) => (r.reverse, e)
  | none => (p, [])

/-- `smart_extension(fname, ext)` (`utils.py` 1339-1347). An extension has only one dot, its first character, so that it ends in
`.bz2` or `.gz` only if it is that. -/
def smartExtension (ext p : List Char) : List Char :=
  let s := splitext p
  if s.2 = ".bz2".toList then s.1 ++ ext ++ ".bz2".toList
  else if s.2 = ".gz".toList then s.1 ++ ext ++ ".gz".toList
  else p ++ ext

/-! ### Formats and files -/

/-- A file format. -/
structure Format (D C : Type) where
  empty : C
  write : List D → C × List Int
  read : C → List D
  docAt : C → Int → Except Err D

/-- What a file holds. -/
inductive File (C : Type)
  | data (c : C)
  | index (offsets : List Int)
  | other

/-- A file system: names are resolved to paths; `indexName` is the name of the index file. -/
structure World (N P : Type) where
  resolve : N → P
  indexName : N → N

variable {D C N P : Type} [DecidableEq N] [DecidableEq P]

abbrev FS (P C : Type) := P → Option (File C)

/-- Writing a file. -/
def put (fs : FS P C) (p : P) (f : File C) : FS P C := fun q => if q = p then some f else fs q

/-- What is serialised: documents in memory, a corpus object with the attribute `fname`, or a view of one (a transformed or
clipped corpus, say), which does not have it. -/
inductive Source (N D : Type)
  | mem (docs : List D)
  | file (name : N)
  | view (name : N) (f : List D → List D)

/-- The documents of a data file; another kind of file has none that make sense, reading it is an error. -/
def readFile (fmt : Format D C) (w : World N P) (fs : FS P C) (name : N) : Except Err (List D) :=
  match fs (w.resolve name) with
  | some (.data c) => .ok (fmt.read c)
  | _ => .error .io

/-- Iterating over a source, at a time when the files are `fs`. -/
def readSource (fmt : Format D C) (w : World N P) (fs : FS P C) : Source N D → Except Err (List D)
  | .mem docs => .ok docs
  | .file n => readFile fmt w fs n
  | .view n f => (readFile fmt w fs n).map f

/-- How far a call gets. -/
inductive Stop | never | afterOpening | afterData
  deriving DecidableEq

/-- `save_corpus(fname, corpus)`: the file is opened for writing, which empties it, before the corpus is iterated. -/
def saveCorpus (fmt : Format D C) (w : World N P) (fs : FS P C) (fname : N) (src : Source N D) :
    FS P C × Except Err (List Int) :=
  let fs1 := put fs (w.resolve fname) (.data fmt.empty)
  match readSource fmt w fs1 src with
  | .error e => (fs1, .error e)
  | .ok docs => (put fs1 (w.resolve fname) (.data (fmt.write docs).1), .ok (fmt.write docs).2)

/-- `getattr(corpus, 'fname', None) == fname` (`indexedcorpus.py` 109). -/
def sameName (fname : N) : Source N D → Bool
  | .file n => decide (n = fname)
  | _ => false

/-- `serialize(fname, corpus)` (`indexedcorpus.py` 109-135), with the point where the process may stop. -/
def serialize (fmt : Format D C) (w : World N P) (fs : FS P C) (fname : N) (src : Source N D) (stop : Stop) :
    FS P C × Except Err Unit :=
  if sameName fname src then (fs, .error .value)
  else if stop = .afterOpening then (put fs (w.resolve fname) (.data fmt.empty), .ok ())
  else
    match saveCorpus fmt w fs fname src with
    | (fs, .error e) => (fs, .error e)
    | (fs, .ok offsets) =>
      if stop = .afterData then (fs, .ok ())
      else (put fs (w.resolve (w.indexName fname)) (.index offsets), .ok ())

/-! ### Corpus objects -/

/-- An opened corpus. -/
structure Corpus (N : Type) where
  fname : N
  index : Option (List Int)
  length : Option Nat

/-- The constructor (`indexedcorpus.py` 60-69): whatever is wrong with the index file, there is just no index. -/
def openCorpus (w : World N P) (fs : FS P C) (fname : N) : Corpus N :=
  { fname := fname
    index := match fs (w.resolve (w.indexName fname)) with
      | some (.index o) => some o
      | _ => none
    length := none }

/-- `__iter__` of the formats. -/
def iterate (fmt : Format D C) (w : World N P) (fs : FS P C) (c : Corpus N) : Except Err (List D) := readFile fmt w fs c.fname

/-- `__len__` (`indexedcorpus.py` 150-155). -/
def len (fmt : Format D C) (w : World N P) (fs : FS P C) (c : Corpus N) : Corpus N × Except Err Nat :=
  match c.index with
  | some o => (c, .ok o.length)
  | none =>
    match c.length with
    | some l => (c, .ok l)
    | none =>
      match iterate fmt w fs c with
      | .error e => (c, .error e)
      | .ok docs => ({ c with length := some docs.length }, .ok docs.length)

/-- Indexing an array by an integer, negative ones from the end. -/
def pyIndex {α : Type} (l : List α) (i : Int) : Except Err α :=
  let j := if i < 0 then i + l.length else i
  if j < 0 then .error .index
  else match l[j.toNat]? with
    | some x => .ok x
    | none => .error .index

/-- `docbyoffset`. -/
def docByOffset (fmt : Format D C) (w : World N P) (fs : FS P C) (c : Corpus N) (o : Int) : Except Err D :=
  match fs (w.resolve c.fname) with
  | some (.data d) => fmt.docAt d o
  | _ => .error .io

/-- The argument of `corpus[…]`. -/
inductive Key | int (i : Int) | list (is : List Int) | other

/-- What `corpus[…]` gives: a document, or a view. -/
inductive Got (D : Type) | doc (d : D) | view (is : List Int)
  deriving DecidableEq

/-- `__getitem__` (`indexedcorpus.py` 180-188); slices are treated in the model of corpus views. -/
def getItem (fmt : Format D C) (w : World N P) (fs : FS P C) (c : Corpus N) (k : Key) : Except Err (Got D) :=
  match c.index with
  | none => .error .runtime
  | some o =>
    match k with
    | .list is => .ok (.view is)
    | .int i =>
      match pyIndex o i with
      | .error e => .error e
      | .ok off => (docByOffset fmt w fs c off).map .doc
    | .other => .error .value

/-- The first failure, or all results. -/
def collect {α β : Type} (f : α → Except Err β) : List α → Except Err (List β)
  | [] => .ok []
  | x :: xs =>
    match f x with
    | .error e => .error e
    | .ok y =>
      match collect f xs with
      | .error e => .error e
      | .ok ys => .ok (y :: ys)

/-- Iterating over the view for a list of numbers (`utils.py` 1037-1040): `index[list]` first; an empty index takes the path for
slices, which a list does not have the attributes for. -/
def iterView (fmt : Format D C) (w : World N P) (fs : FS P C) (c : Corpus N) (is : List Int) : Except Err (List D) :=
  match c.index with
  | none => .error .type
  | some o =>
    if 0 < o.length then
      match collect (pyIndex o) is with
      | .error e => .error e
      | .ok offs => collect (docByOffset fmt w fs c) offs
    else .error .attribute

/-! ### The constructor of `CsvCorpus` -/

/-- `CsvCorpus.__init__` (`csvcorpus.py` 48-52) on the first lines of the file, which is opened in binary mode: joining bytes with a
text is a TypeError, and there is nothing to guess from an empty text. -/
def csvInit (lines : List (List UInt8)) : Except Err Unit :=
  match lines.take 5 with
  | _ :: _ => .error .type
  | [] => .error .csv

end Verif.Indexed
