import Verif.Dictionary.Model
import Verif.Py.Text

/-!
# Model of `TextCorpus` (gensim/corpora/textcorpus.py 243-345, 378-393, 450-470) and of the vocabulary and the dictionary of
`UciCorpus` (gensim/corpora/ucicorpus.py 182-293)

The preprocessing of a line is a function that may raise (`none`).
-/

namespace Verif.TextCorpus.Text

open Verif PyDict Verif.Text Verif.Dictionary

variable {τ : Type} [LinearOrder τ] {L : Type}

/-! ## TextCorpus -/

/-- The attributes of a `TextCorpus` that change, textcorpus.py:244-261. -/
structure TC (τ : Type) where
  dict : Dct τ
  metadata : Bool
  length : Option Nat

/-- models textcorpus.py:378-393, `get_texts`: the texts until the stream ends or the preprocessing of a line raises -/
def readTexts (pre : L → Option (List τ)) : List L → List (List τ) × Bool
  | [] => ([], false)
  | l :: ls =>
    match pre l with
    | none => ([], true)
    | some t =>
      let r := readTexts pre ls
      (t :: r.1, r.2)

/-- models textcorpus.py:263-288, `init_dictionary(dictionary)`: the corpus afterwards, and whether an exception came
out.  The texts are added while they are read, so those before the exception are in the dictionary; the metadata
setting is restored only at the end (line 284), and the length is known when the stream has ended (line 325).
`add_documents` never fails on a dictionary of this kind (C01), which is why `getD` is used. -/
def initDictionary (pre : L → Option (List τ)) (pruneAt : Option Nat) (input : Option (List L))
    (given : Option (Dct τ)) (c : TC τ) : TC τ × Bool :=
  match given with
  | some d => ({ c with dict := d }, false)
  | none =>
    match input with
    | none => ({ c with dict := empty }, false)
    | some lines =>
      let r := readTexts pre lines
      let d := (addDocuments empty r.1 pruneAt).getD empty
      if r.2 then ({ c with dict := d, metadata := false }, true)
      else ({ c with dict := d, length := some lines.length }, false)

/-- models textcorpus.py:244-261, `TextCorpus(input, dictionary, metadata, ...)`; `none`: an exception -/
def construct (pre : L → Option (List τ)) (pruneAt : Option Nat) (input : Option (List L)) (given : Option (Dct τ))
    (metadata : Bool) : Option (TC τ) :=
  let r := initDictionary pre pruneAt input given ⟨empty, metadata, none⟩
  if r.2 then none else some r.1

/-- models textcorpus.py:290-304, iterating to the end: vectors, with the number of the line if metadata are wanted;
whether an exception came out; and the corpus afterwards -/
def iterate (pre : L → Option (List τ)) (lines : List L) (c : TC τ) :
    List (List (Nat × Nat) × Option Nat) × Bool × TC τ :=
  let r := readTexts pre lines
  (r.1.zipIdx.map (fun p => ((doc2bow c.dict p.1 false).2.1, if c.metadata then some p.2 else none)), r.2,
    if r.2 then c else { c with length := some lines.length })

/-- models textcorpus.py:454-470, `len(corpus)` -/
def len (lines : List L) (c : TC τ) : Nat × TC τ :=
  match c.length with
  | some n => (n, c)
  | none => (lines.length, { c with length := some lines.length })

/-- What a user does with a corpus over an unchanged file. -/
inductive Op
  | iterate
  | abandon
  | length

/-- one operation; an iteration that is given up leaves the corpus as it was -/
def apply (pre : L → Option (List τ)) (lines : List L) (c : TC τ) : Op → TC τ
  | .iterate => (iterate pre lines c).2.2
  | .abandon => c
  | .length => (len lines c).2

/-! ## The vocabulary and the dictionary of `UciCorpus` -/

/-- A word as Python has it: `str` or `bytes` (given by what it decodes to). -/
inductive Tok
  | str (s : Str)
  | bytes (s : Str)
  deriving DecidableEq

/-- models gensim/utils.py `get_max_id` plus one, for the documents of one pass over the corpus -/
def numTerms {V : Type} (docs : List (List (Nat × V))) : Nat :=
  docs.foldl (fun n doc => doc.foldl (fun n p => max n (p.1 + 1)) n) 0

/-- models ucicorpus.py:275-289: the lines of the vocabulary file; without a mapping a pass over the corpus finds the
highest id and the words are the ids (`FakeDict`, utils.py:736-797) -/
def uciVocab {V : Type} (id2word : Option (PyDict Nat Str)) (docs : List (List (Nat × V))) : Str :=
  match id2word with
  | none => ((List.range (numTerms docs)).map (fun i => showNat i ++ ['\n'])).flatten
  | some m =>
    let n := match keys m with
      | [] => 0
      | k :: ks => 1 + ks.foldl max k
    ((List.range n).map (fun i => getD m i ['-', '-', '-'] ++ ['\n'])).flatten

/-- A corpus as the writer sees it: each pass over it gives the documents, or, for a generator, only the first pass does. -/
def pass {D : Type} (oneShot : Bool) (docs : List D) (before : Nat) : List D :=
  if oneShot && decide (0 < before) then [] else docs

/-- models ucicorpus.py:275-293, `save_corpus`: the vocabulary file, and the documents that `UciWriter.write_corpus` gets -/
def uciSave {V : Type} (oneShot : Bool) (id2word : Option (PyDict Nat Str)) (docs : List (List (Nat × V))) :
    Str × List (List (Nat × V)) :=
  (uciVocab id2word (pass oneShot docs 0), pass oneShot docs (if id2word = none then 1 else 0))

/-- models ucicorpus.py:189-191, the mapping of a `UciCorpus`: the file is opened in binary mode, so the words are
bytes, stripped of white space -/
def uciId2word (file : Str) : PyDict Nat Tok :=
  ((pyLines file).map (fun l => Tok.bytes (strip bws l))).zipIdx.map (fun p => (p.2, p.1))

/-- The dictionary made by `create_dictionary`. -/
structure UciDict where
  token2id : PyDict Tok Nat
  id2token : PyDict Nat Tok
  dfs : PyDict Nat Nat
  numDocs : Int
  numNnz : Int
  numPos : Nat

/-- models ucicorpus.py:238-244: one pass over the documents -/
def uciCount (docs : List (List (Nat × Nat))) (s : PyDict Nat Nat × Nat) : PyDict Nat Nat × Nat :=
  docs.foldl (fun s doc => doc.foldl (fun s p => (set s.1 p.1 (getD s.1 p.1 0 + 1), s.2 + p.2)) s) s

/-- models ucicorpus.py:207-246, `create_dictionary`; the numbers of documents and entries are those of the header -/
def createDictionary (id2word : PyDict Nat Tok) (numDocs numNnz : Int) (docs : List (List (Nat × Nat))) : UciDict :=
  let s := uciCount docs ([], 0)
  { token2id := ofPairs (id2word.map (fun p => (p.2, p.1)))
    id2token := id2word
    dfs := s.1
    numDocs := numDocs
    numNnz := numNnz
    numPos := s.2 }

/-- models dictionary.py:242-244: the words are counted as `str`, bytes are decoded -/
def asStr : Tok → Tok
  | .str s => .str s
  | .bytes s => .str s

/-- models dictionary.py:242-268, `doc2bow(document)` without updating: ids and counts -/
def uciBow (d : UciDict) (document : List Tok) : PyDict Nat Nat :=
  let counter := (document.map asStr).foldl (fun (c : PyDict Tok Nat) w => set c w (getD c w 0 + 1)) []
  ofPairs (counter.filterMap (fun p => (get? d.token2id p.1).map (fun i => (i, p.2))))

end Verif.TextCorpus.Text
