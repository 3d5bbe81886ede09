import Mathlib.Data.Char
import Mathlib.Data.List.Lex
import Verif.Py.Text
import Verif.Dictionary.Model

/-! # Model of the Dictionary text format: `save_as_text`, `load_from_text`

UTF-8 encoding and decoding of the file (`to_utf8`, `to_unicode`) is taken as the identity, which C173
(`Verif/Utils/Utf8Props.lean`) justifies. -/

namespace Verif.Dictionary
open Verif PyDict Text

/-- Tokens are strings: `chars` and `ofChars` are the two directions.  The linear order used by
`sorted` is whatever order `τ` has. -/
structure Tok (τ : Type) where
  chars : τ → Str
  ofChars : Str → τ
  ofChars_chars : ∀ w, ofChars (chars w) = w

/-- strings themselves -/
def strTok : Tok Str := ⟨id, id, fun _ => rfl⟩

variable {τ : Type} [LinearOrder τ]

/-- models dictionary.py:521, `"%i\t%s\t%i"` without the newline -/
def entryLine (T : Tok τ) (e : Nat × τ × Nat) : Str :=
  showNat e.1 ++ '\t' :: (T.chars e.2.1 ++ '\t' :: showNat e.2.2)

/-- models dictionary.py:519-526: the entries in the order they are written.  `none`: `self[tokenid]`
raised `KeyError`.  Words are distinct, so sorting the items is sorting by word. -/
def saveEntries (d : Dct τ) (sortByWord : Bool) : Option (List (Nat × τ × Nat)) :=
  if sortByWord then
    some ((pySort (fun a b => decide (a.1 ≤ b.1)) d.token2id).map
      (fun p => (p.2, p.1, getD d.dfs p.2 0)))
  else
    mapOpt (fun p => (getitem d p.1).2.map (fun w => (p.1, w, p.2)))
      (pySort (fun a b => decide (b.2 ≤ a.2)) d.dfs)

/-- models dictionary.py:515-526, `save_as_text`: the file contents -/
def saveText (T : Tok τ) (d : Dct τ) (sortByWord : Bool) : Option Str :=
  (saveEntries d sortByWord).map (fun es =>
    ((showNat d.numDocs :: es.map (entryLine T)).map (fun l => l ++ ['\n'])).flatten)

/-- `int(s)` for a value the model keeps as a natural number (a negative number is legal Python but
not representable here: `none`) -/
def readNat (s : Str) : Option Nat := (readInt s).bind (fun i => if 0 ≤ i then some i.toNat else none)

/-- models dictionary.py:676-688, one entry line (including its last character, cut by `[:-1]`) -/
def loadLine (T : Tok τ) (d : Dct τ) (line : Str) : Option (Dct τ) :=
  match splitOn '\t' line.dropLast with
  | [a, w, c] =>
    match readNat a with
    | none => none
    | some i =>
      if contains d.token2id (T.ofChars w) then none else
      match readNat c with
      | none => none
      | some f => some { d with token2id := set d.token2id (T.ofChars w) i, dfs := set d.dfs i f }
  | _ => none

/-- models dictionary.py:668-688, the loop over the remaining lines -/
def loadLines (T : Tok τ) : List Str → Dct τ → Option (Dct τ)
  | [], d => some d
  | l :: ls, d => match loadLine T d l with
    | none => none
    | some d => loadLines T ls d

/-- models dictionary.py:635-689, `load_from_text`; `none` is any of its exceptions -/
def loadText (T : Tok τ) (s : Str) : Option (Dct τ) :=
  match pyLines s with
  | [] => some empty
  | l :: ls =>
    if isDigits (strip uws l) then
      match readNat (strip uws l) with
      | none => none
      | some n => loadLines T ls { empty with numDocs := n }
    else loadLines T (l :: ls) empty

end Verif.Dictionary
