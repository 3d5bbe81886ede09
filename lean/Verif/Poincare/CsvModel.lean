import Verif.Py.Text

/-!
# Relations of a Poincaré model from a file, and `CsvCorpus`

Models `PoincareRelations.__iter__` (gensim/models/poincare.py:1335-1354) and `CsvCorpus.__init__`
(gensim/corpora/csvcorpus.py:31-56).  `csv.reader` of the standard library is modelled as the state machine of
CPython's `Modules/_csv.c` (3.6-3.8) for the dialect used here: quote character `"`, doubled quotes, no escape
character, not strict.  The lines are decoded one by one; the encoding is taken to be one, like UTF-8, in which the byte
10 stands for the line feed only, so that the lines of the decoded file are the decoded lines.
-/

namespace Verif.Csv

open Verif Verif.Text

/-- The states of `csv.reader`. -/
inductive S | startRecord | startField | inField | inQuoted | quoteInQuoted | eatCrnl
deriving DecidableEq, Repr

/-- The state, the field being read and the fields of the row so far. -/
structure P where
  state : S
  field : Str
  fields : List Str
deriving DecidableEq, Repr

/-- `parse_reset`: the start of a row. -/
def fresh : P := ⟨.startRecord, [], []⟩

/-- `parse_save_field`, then the state `s`. -/
def P.save (p : P) (s : S) : P := ⟨s, [], p.fields ++ [p.field]⟩

/-- `parse_add_char`, then the state `s`; fields longer than `csv.field_size_limit()` raise. -/
def P.add (limit : Nat) (p : P) (c : Char) (s : S) : Option P :=
  if limit ≤ p.field.length then none else some ⟨s, p.field ++ [c], p.fields⟩

/-- A character ending a line. -/
def isEol (c : Char) : Bool := c == '\n' || c == '\r'

/-- The case START_FIELD of `parse_process_char`. -/
def startField (delim : Char) (limit : Nat) (p : P) (c : Char) : Option P :=
  if isEol c then some (p.save .eatCrnl)
  else if c = '"' then some ⟨.inQuoted, p.field, p.fields⟩
  else if c = delim then some (p.save .startField)
  else p.add limit c .inField

/-- `parse_process_char` for a character of a line; `none`: `csv.Error`. -/
def step (delim : Char) (limit : Nat) (p : P) (c : Char) : Option P :=
  if c = '\x00' then none
  else match p.state with
    | .startRecord =>
      if isEol c then some ⟨.eatCrnl, p.field, p.fields⟩ else startField delim limit p c
    | .startField => startField delim limit p c
    | .inField =>
      if isEol c then some (p.save .eatCrnl)
      else if c = delim then some (p.save .startField)
      else p.add limit c .inField
    | .inQuoted =>
      if c = '"' then some ⟨.quoteInQuoted, p.field, p.fields⟩ else p.add limit c .inQuoted
    | .quoteInQuoted =>
      if c = '"' then p.add limit c .inQuoted
      else if c = delim then some (p.save .startField)
      else if isEol c then some (p.save .eatCrnl)
      else p.add limit c .inField
    | .eatCrnl => if isEol c then some p else none

/-- `parse_process_char` for the end of a line. -/
def endLine (p : P) : P :=
  match p.state with
  | .startRecord => p
  | .startField => p.save .startRecord
  | .inField => p.save .startRecord
  | .inQuoted => p
  | .quoteInQuoted => p.save .startRecord
  | .eatCrnl => ⟨.startRecord, p.field, p.fields⟩

/-- The characters of a line. -/
def feed (delim : Char) (limit : Nat) : P → Str → Option P
  | p, [] => some p
  | p, c :: cs => (step delim limit p c).bind fun p' => feed delim limit p' cs

/-- `Reader_iternext`, row after row: the rows produced, and whether `csv.Error` was raised after them. -/
def iterate (delim : Char) (limit : Nat) : P → List Str → List (List Str) × Bool
  | p, [] => if p.field ≠ [] ∨ p.state = .inQuoted then ([p.fields ++ [p.field]], false) else ([], false)
  | p, l :: ls =>
    match feed delim limit p l with
    | none => ([], true)
    | some p' =>
      if (endLine p').state = .startRecord then
        ((endLine p').fields :: (iterate delim limit fresh ls).1, (iterate delim limit fresh ls).2)
      else iterate delim limit (endLine p') ls

/-- `PoincareRelations.__iter__` (gensim/models/poincare.py:1335-1354): what is yielded from the contents of
    the file, and whether `csv.Error` follows. Blocks for Python 2 are left out. -/
def relations (delim : Char) (limit : Nat) (file : Str) : List (List Str) × Bool :=
  iterate delim limit fresh (pyLines file)

/-! ## CsvCorpus -/

/-- The exceptions of the constructor. -/
inductive Err | type | csv
deriving DecidableEq, Repr

/-- A Python value of one of the types `str` and `bytes`. -/
inductive Item | str (s : Str) | bytes (b : List UInt8)

/-- `''.join(items)`. -/
def joinStr : List Item → Except Err Str
  | [] => .ok []
  | .str s :: xs => (joinStr xs).map fun t => s ++ t
  | .bytes _ :: _ => .error .type

/-- `CsvCorpus.__init__` (gensim/corpora/csvcorpus.py:47-54). The file is opened with `'rb'`, so its lines are
    `bytes`. `sniff` stands for the guesses of `csv.Sniffer`, which raise `csv.Error` on an empty sample. -/
def csvInit {D : Type} (sniff : Str → Except Err D) (lines : List (List UInt8)) : Except Err D :=
  (joinStr ((lines.take 5).map Item.bytes)).bind sniff

end Verif.Csv
