import Mathlib.Order.Defs.LinearOrder
import Mathlib.Data.Nat.Basic
import Verif.Py.Text
import Verif.Py.Sort

/-!
# Model of the Matrix Market corpus format

`gensim/matutils.py` class `MmWriter`, `gensim/corpora/_mmreader.pyx` class `MmReader`, and the UCI
variant in `gensim/corpora/ucicorpus.py`.

A file is a list of characters (the format is ASCII, so positions are byte positions).  Weights are of
an arbitrary type written and read by a `Codec`; `big` is the test `abs(w) > 1e-12`.  The corpus
metadata option of `write_corpus` is not modelled.
-/

namespace Verif.Formats
open Verif Text

variable {V : Type} [LinearOrder V]

/-- the order of the tuples `(id, weight)` -/
def pairLe (a b : Nat × V) : Bool := decide (a.1 < b.1 ∨ (a.1 = b.1 ∧ a.2 ≤ b.2))

/-- models matutils.py:1234: near-zero entries dropped, sorted -/
def mmVector (big : V → Bool) (vec : List (Nat × V)) : List (Nat × V) :=
  pySort pairLe (vec.filter (fun p => big p.2))

/-- models matutils.py:1237, without the newline -/
def mmEntry (C : Codec V) (docno : Nat) (p : Nat × V) : Str :=
  showNat (docno + 1) ++ ' ' :: (showNat (p.1 + 1) ++ ' ' :: C.enc p.2)

/-- models matutils.py:1216-1239 `write_vector`: what is written, and the result `(max_id, veclen)` -/
def writeVector (C : Codec V) (big : V → Bool) (docno : Nat) (vec : List (Nat × V)) : Str × Int × Nat :=
  let v := mmVector big vec
  ((v.map (fun p => mmEntry C docno p ++ ['\n'])).flatten,
    match v.getLast? with
    | some p => (p.1, v.length)
    | none => (-1, 0))

/-- state of the loop of `write_corpus` -/
structure MmW where
  fout : Str
  docno : Nat
  poslast : Int
  offsets : List Int
  numTerms : Int
  numNnz : Nat
deriving DecidableEq

/-- `offsets[-1] = -1` (the list is not empty when this runs) -/
def setLast (l : List Int) : List Int := l.dropLast ++ [-1]

/-- models matutils.py:1291-1307, with `vec` the vector handed to `write_vector`; `docno` of the model is
the number of documents written so far -/
def mmStep (C : Codec V) (big : V → Bool) (s : MmW) (vec : List (Nat × V)) : MmW :=
  let posnow : Int := s.fout.length
  let offs := if posnow = s.poslast then setLast s.offsets else s.offsets
  let r := writeVector C big s.docno vec
  ⟨s.fout ++ r.1, s.docno + 1, posnow, offs ++ [posnow], max s.numTerms (1 + r.2.1), s.numNnz + r.2.2⟩

/-- `HEADER_LINE` without the newline, matutils.py:1152 -/
def mmHeader : Str := "%%MatrixMarket matrix coordinate real general".toList

/-- `seek(pos); write(t)` inside a file -/
def overwrite (s : Str) (pos : Nat) (t : Str) : Str := s.take pos ++ t ++ s.drop (pos + t.length)

/-- models matutils.py:1309, `num_terms = num_terms or _num_terms` -/
def headerTerms (numTerms : Option Nat) (counted : Int) : Int :=
  match numTerms with
  | some n => if n = 0 then counted else n
  | none => counted

/-- models matutils.py:1242-1326 `write_corpus`: the file and the offsets; `none`: the ValueError of
`fake_headers` (lines 1210-1214) -/
def mmWrite (C : Codec V) (big : V → Bool) (numTerms : Option Nat) (corpus : List (List (Nat × V))) :
    Option (Str × List Int) :=
  let start : Str := mmHeader ++ '\n' :: (List.replicate 50 ' ' ++ ['\n'])
  let r := corpus.foldl (mmStep C big) ⟨start, 0, -1, [], 0, 0⟩
  let nt := headerTerms numTerms r.numTerms
  let stats := showNat r.docno ++ ' ' :: (showInt nt ++ ' ' :: showNat r.numNnz)
  if 50 < stats.length then none
  else some (overwrite r.fout (mmHeader.length + 1) stats, r.offsets)

/-! ## Reading -/

/-- ASCII lower case -/
def lowerC (c : Char) : Char := if 65 ≤ c.toNat ∧ c.toNat ≤ 90 then Char.ofNat (c.toNat + 32) else c

/-- models _mmreader.pyx:64-74: the first line that is not a comment -/
def readStats (transposed : Bool) : List Str → Option (Int × Int × Int)
  | [] => some (0, 0, 0)
  | l :: ls =>
    if l.head? = some '%' then readStats transposed ls
    else match splitWs uws l with
      | [a, b, c] => match readInt a, readInt b, readInt c with
        | some a, some b, some c => some (if transposed then (a, b, c) else (b, a, c))
        | _, _, _ => none
      | _ => none

/-- models _mmreader.pyx:41-79, `__init__`: (num_docs, num_terms, num_nnz); `none`: ValueError -/
def mmInit (transposed : Bool) (file : Str) : Option (Int × Int × Int) :=
  match pyLines file with
  | [] => readStats transposed []
  | l :: ls =>
    if (mmHeader.map lowerC).isPrefixOf ((strip uws l).map lowerC) then readStats transposed ls else none

/-- models _mmreader.pyx:89-101 `skip_headers` -/
def skipHeaders : List Str → List Str
  | [] => []
  | l :: ls => if l.head? = some '%' then skipHeaders ls else ls

/-- models `sscanf(line, "%lld %lld %lg")` and lines 133-139: document number and entry, both 0-based.
Simplified: the three fields must be separated by whitespace and be complete numbers. -/
def scanEntry (C : Codec V) (transposed : Bool) (line : Str) : Option (Int × Int × V) :=
  match splitWs bws line with
  | a :: b :: w :: _ => match readInt a, readInt b, C.dec w with
    | some a, some b, some w => some (if transposed then (a - 1, b - 1, w) else (b - 1, a - 1, w))
    | _, _, _ => none
  | _ => none

/-- state of `__iter__`: the documents yielded so far, the current document and its number -/
structure MmR (V : Type) where
  out : List (Int × List (Int × V))
  previd : Int
  document : List (Int × V)

/-- `for previd in range(a, b): yield previd, []` -/
def emptyDocs (a b : Int) : List (Int × List (Int × V)) :=
  (List.range (b - a).toNat).map (fun (k : Nat) => (a + (k : Int), []))

/-- what is yielded when the current document ends and the next explicit one is `n`,
_mmreader.pyx:143-150 and 156-161 -/
def closeDoc (s : MmR V) (n : Int) : List (Int × List (Int × V)) :=
  s.out ++ (if 0 ≤ s.previd then [(s.previd, s.document)] else []) ++ emptyDocs (s.previd + 1) n

/-- models _mmreader.pyx:129-154, one line; `none`: an exception (line 154 appends to `document`, which is not
assigned before the first document: `UnboundLocalError` for the document number 0) -/
def mmReadLine (C : Codec V) (transposed : Bool) (s : MmR V) (line : Str) : Option (MmR V) :=
  match scanEntry C transposed line with
  | none => none
  | some (docid, termid, val) =>
    if docid < s.previd then none
    else if docid ≠ s.previd then some ⟨closeDoc s docid, docid, [(termid, val)]⟩
    else if s.previd < 0 then none
    else some { s with document := s.document ++ [(termid, val)] }

/-- fold with exceptions -/
def foldOpt {σ α : Type} (f : σ → α → Option σ) : σ → List α → Option σ
  | s, [] => some s
  | s, a :: as => match f s a with
    | none => none
    | some s => foldOpt f s as

/-- models _mmreader.pyx:103-161 `__iter__` on the lines after the headers -/
def mmIterBody (C : Codec V) (transposed : Bool) (numDocs : Int) (lines : List Str) :
    Option (List (Int × List (Int × V))) :=
  (foldOpt (mmReadLine C transposed) ⟨[], -1, []⟩ lines).map (fun s => closeDoc s numDocs)

/-- opening a file and iterating over it -/
def mmRead (C : Codec V) (transposed : Bool) (file : Str) : Option (List (Int × List (Int × V))) :=
  (mmInit transposed file).bind (fun h => mmIterBody C transposed h.1 (skipHeaders (pyLines file)))

/-- models _mmreader.pyx:190-208, the loop of `docbyoffset` -/
def docLoop (C : Codec V) (transposed : Bool) : Int → List (Int × V) → List Str → Option (List (Int × V))
  | _, doc, [] => some doc
  | previd, doc, line :: lines =>
    match scanEntry C transposed line with
    | none => none
    | some (docid, termid, val) =>
      if docid < previd then none
      else if docid ≠ previd then
        if 0 ≤ previd then some doc else docLoop C transposed docid (doc ++ [(termid, val)]) lines
      else docLoop C transposed previd (doc ++ [(termid, val)]) lines

/-- models _mmreader.pyx:163-212 `docbyoffset` -/
def docByOffset (C : Codec V) (transposed : Bool) (file : Str) (offset : Int) : Option (List (Int × V)) :=
  if offset = -1 then some [] else docLoop C transposed (-1) [] (pyLines (file.drop offset.toNat))

/-! ## The UCI variant -/

/-- models ucicorpus.py:81-98 and 100-156 `UciWriter.write_corpus`; `vecs` are the vectors after line 139
(integer counts, zeros dropped); `none`: the ValueError of `update_headers` -/
def uciWrite (C : Codec V) (big : V → Bool) (vecs : List (List (Nat × V))) : Option (Str × List Int) :=
  let fake : Str := List.replicate 20 ' ' ++ ['\n']
  let r := vecs.foldl (mmStep C big) ⟨fake ++ (fake ++ fake), 0, -1, [], 0, 0⟩
  let a := showNat r.docno
  let b := showInt r.numTerms
  let c := showNat r.numNnz
  if 21 < a.length ∨ 21 < b.length ∨ 21 < c.length then none
  else some (overwrite (overwrite (overwrite r.fout 0 a) 21 b) 42 c, r.offsets)

/-- models ucicorpus.py:42-54 `UciReader.__init__`; `none`: ValueError of `int` -/
def uciInit (file : Str) : Option (Int × Int × Int) :=
  match pyLines file with
  | [] => some (0, 0, 0)
  | [a] => (readInt (strip bws a)).map (fun a => (a, 0, 0))
  | [a, b] => (readInt (strip bws a)).bind (fun a => (readInt (strip bws b)).map (fun b => (a, b, 0)))
  | a :: b :: c :: _ => (readInt (strip bws a)).bind (fun a => (readInt (strip bws b)).bind (fun b =>
      (readInt (strip bws c)).map (fun c => (a, b, c))))

/-- opening a UCI file and iterating over it (`skip_headers`, ucicorpus.py:61-72: three lines) -/
def uciRead (C : Codec V) (file : Str) : Option (List (Int × List (Int × V))) :=
  (uciInit file).bind (fun h => mmIterBody C true h.1 ((pyLines file).drop 3))

end Verif.Formats
