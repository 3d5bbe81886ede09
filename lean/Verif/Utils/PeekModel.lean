import Mathlib.Data.Rat.Defs

/-!
# Model of `gensim/utils.py` 826-877: `is_corpus`

Python values are numbers, strings, lists or tuples (anything with a length that can be iterated again and again) and
other objects (no length, no iteration).  An object to be examined is a collection, with a class name that contains
`Corpus` or not, an iterator (whatever it yields is gone from it), or not iterable.  `int(s)` and `float(s)` of
strings are parameters; of numbers they succeed (simplified: not for infinities and NaN).
-/

namespace Verif.Peek

/-- the Python values a document may be made of -/
inductive PyV
  | num (x : ℚ)
  | str (s : List Char)
  | list (l : List PyV)
  | other

/-- an object that may be a corpus -/
inductive Src
  | notIterable
  | seq (corpusClass : Bool) (items : List PyV)
  | iter (corpusClass : Bool) (rest : List PyV)

/-- iterating over an object to the end; `none`: it cannot be iterated -/
def Src.items : Src → Option (List PyV)
  | .notIterable => none
  | .seq _ l => some l
  | .iter _ l => some l

/-- `list(x)` of a value, for `len(x)`, `next(iter(x))` and unpacking: `none` raises TypeError -/
def elems : PyV → Option (List PyV)
  | .num _ => none
  | .other => none
  | .str s => some (s.map fun c => .str [c])
  | .list l => some l

/-- `int(x)` and `float(x)` of strings: do they succeed? -/
structure Parse where
  int : List Char → Bool
  float : List Char → Bool

/-- does `int(x)` succeed? -/
def intOk (ps : Parse) : PyV → Bool
  | .num _ => true
  | .str s => ps.int s
  | _ => false

/-- does `float(x)` succeed? -/
def floatOk (ps : Parse) : PyV → Bool
  | .num _ => true
  | .str s => ps.float s
  | _ => false

/-- models utils.py:869-877, what is decided from the first document -/
def firstDoc (ps : Parse) (doc1 : PyV) : Bool :=
  match elems doc1 with
  | none => false
  | some [] => true
  | some (x :: _) => match elems x with
    | some [id1, val1] => intOk ps id1 && floatOk ps val1
    | _ => false

/-- what a call leaves: the answer, the object returned, and the object passed as it is now -/
structure Result where
  answer : Bool
  returned : Src
  passed : Src

/-- models utils.py:855-877, `is_corpus`; the object returned for an iterator is `itertools.chain([doc1], obj)`, an
iterator of the class `chain` -/
def isCorpus (ps : Parse) : Src → Result
  | .seq true l => ⟨true, .seq true l, .seq true l⟩
  | .iter true l => ⟨true, .iter true l, .iter true l⟩
  | .notIterable => ⟨false, .notIterable, .notIterable⟩
  | .seq false [] => ⟨false, .seq false [], .seq false []⟩
  | .seq false (d :: l) => ⟨firstDoc ps d, .seq false (d :: l), .seq false (d :: l)⟩
  | .iter false [] => ⟨false, .iter false [], .iter false []⟩
  | .iter false (d :: l) => ⟨firstDoc ps d, .iter false (d :: l), .iter false l⟩

end Verif.Peek
