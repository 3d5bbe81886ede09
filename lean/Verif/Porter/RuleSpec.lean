import Verif.Py.Text

/-!
# The published Porter rules, as rewriting of words (specification for C57)

A word is a list of letters.  A rule reads `(condition) suffix → replacement`: if the word ends with
the suffix and the condition holds of what precedes it, the suffix is replaced.
-/

namespace Verif.Porter.Spec
open Verif Text

/-- The letters "aeiou". -/
def vowels : List Char := ['a', 'e', 'i', 'o', 'u']

/-- Is a letter a consonant?  A "y" is one exactly at the beginning of the word or after a vowel. -/
def letterKind (prev : Option Bool) (ch : Char) : Bool :=
  if ch ∈ vowels then false
  else if ch = 'y' then (match prev with | none => true | some c => !c)
  else true

/-- For each letter of a word, whether it is a consonant. -/
def kindsFrom : Option Bool → Str → List Bool
  | _, [] => []
  | prev, ch :: w => letterKind prev ch :: kindsFrom (some (letterKind prev ch)) w

def kinds (w : Str) : List Bool := kindsFrom none w

/-- The number of places where a vowel is followed by a consonant. -/
def vcPairs (fs : List Bool) : Nat := (fs.zip fs.tail).countP fun p => !p.1 && p.2

/-- The measure of a word: the `m` of `[C](VC){m}[V]`. -/
def measure (w : Str) : Nat := vcPairs (kinds w)

def hasVowel (w : Str) : Bool := (kinds w).any fun c => !c

/-- The word ends with two equal consonants. -/
def endsDouble (w : Str) : Bool :=
  match w.reverse, (kinds w).reverse with
  | x :: y :: _, c :: _ => decide (x = y) && c
  | _, _ => false

/-- The word ends consonant, vowel, consonant, and the last letter is none of "w", "x", "y". -/
def endsCvc (w : Str) : Bool :=
  match w.reverse, (kinds w).reverse with
  | x :: _, c1 :: c2 :: c3 :: _ => c1 && !c2 && c3 && !(x ∈ ['w', 'x', 'y'] : Bool)
  | _, _ => false

/-- The word without a suffix, if it ends with it. -/
def strip (s w : Str) : Option Str :=
  if s <:+ w then some (w.take (w.length - s.length)) else none

/-- The first rule whose suffix fits decides: the suffix is replaced if the condition holds. -/
def rewrite (cond : Str → Bool) : List (Str × Str) → Str → Str
  | [], w => w
  | (s, t) :: rules, w =>
    match strip s w with
    | some stem => if cond stem then stem ++ t else w
    | none => rewrite cond rules w

/-- Plurals: SSES → SS, IES → I, S → (nothing, but not after another S). -/
def step1a (w : Str) : Str :=
  match strip "sses".toList w with
  | some stem => stem ++ "ss".toList
  | none =>
    match strip "ies".toList w with
    | some stem => stem ++ "i".toList
    | none =>
      match strip "s".toList w with
      | some stem => if stem.getLast? = some 's' then w else stem
      | none => w

/-- After a removed ED or ING: AT → ATE, BL → BLE, IZ → IZE, a double consonant other than L, S, Z
becomes single, and an E is added to a short stem. -/
def repair (w : Str) : Str :=
  match strip "at".toList w with
  | some stem => stem ++ "ate".toList
  | none =>
    match strip "bl".toList w with
    | some stem => stem ++ "ble".toList
    | none =>
      match strip "iz".toList w with
      | some stem => stem ++ "ize".toList
      | none =>
        if endsDouble w then
          (if w.getLast? = some 'l' ∨ w.getLast? = some 's' ∨ w.getLast? = some 'z' then w
           else w.dropLast)
        else if measure w = 1 ∧ endsCvc w then w ++ "e".toList
        else w

/-- (m>0) EED → EE, (vowel in the stem) ED →, (vowel in the stem) ING →. -/
def step1b (w : Str) : Str :=
  match strip "eed".toList w with
  | some stem => if 0 < measure stem then stem ++ "ee".toList else w
  | none =>
    match strip "ed".toList w with
    | some stem => if hasVowel stem then repair stem else w
    | none =>
      match strip "ing".toList w with
      | some stem => if hasVowel stem then repair stem else w
      | none => w

/-- (vowel in the stem) Y → I. -/
def step1c (w : Str) : Str := rewrite hasVowel [("y".toList, "i".toList)] w

/-- The rules of step 2, all with the condition m > 0. -/
def table2 : List (Str × Str) :=
  [("ational".toList, "ate".toList), ("tional".toList, "tion".toList), ("enci".toList, "ence".toList),
   ("anci".toList, "ance".toList), ("izer".toList, "ize".toList), ("bli".toList, "ble".toList),
   ("alli".toList, "al".toList), ("entli".toList, "ent".toList), ("eli".toList, "e".toList),
   ("ousli".toList, "ous".toList), ("ization".toList, "ize".toList), ("ation".toList, "ate".toList),
   ("ator".toList, "ate".toList), ("alism".toList, "al".toList), ("iveness".toList, "ive".toList),
   ("fulness".toList, "ful".toList), ("ousness".toList, "ous".toList), ("aliti".toList, "al".toList),
   ("iviti".toList, "ive".toList), ("biliti".toList, "ble".toList), ("logi".toList, "log".toList)]

def step2 (w : Str) : Str := rewrite (fun stem => 0 < measure stem) table2 w

/-- The rules of step 3, all with the condition m > 0. -/
def table3 : List (Str × Str) :=
  [("icate".toList, "ic".toList), ("ative".toList, "".toList), ("alize".toList, "al".toList),
   ("iciti".toList, "ic".toList), ("ical".toList, "ic".toList), ("ful".toList, "".toList),
   ("ness".toList, "".toList)]

def step3 (w : Str) : Str := rewrite (fun stem => 0 < measure stem) table3 w

/-- The suffixes removed by step 4 if m > 1, besides ION. -/
def table4 : List Str :=
  ["al".toList, "ance".toList, "ence".toList, "er".toList, "ic".toList, "able".toList,
   "ible".toList, "ant".toList, "ement".toList, "ment".toList, "ent".toList, "ou".toList,
   "ism".toList, "ate".toList, "iti".toList, "ous".toList, "ive".toList, "ize".toList]

/-- (m>1) suffix →, where ION must follow an S or a T. -/
def step4 (w : Str) : Str :=
  match strip "ion".toList w with
  | some stem =>
    if (stem.getLast? = some 's' ∨ stem.getLast? = some 't') ∧ 1 < measure stem then stem else w
  | none => rewrite (fun stem => 1 < measure stem) (table4.map fun s => (s, [])) w

/-- (m>1) E →, (m=1 and the stem does not end consonant-vowel-consonant) E →. -/
def step5a (w : Str) : Str :=
  rewrite (fun stem => decide (1 < measure stem) || (decide (measure stem = 1) && !endsCvc stem))
    [("e".toList, "".toList)] w

/-- LL → L if m > 1. -/
def step5b (w : Str) : Str := if "ll".toList <:+ w ∧ 1 < measure w then w.dropLast else w

/-- Words of one or two letters are left alone. -/
def stem (w : Str) : Str :=
  if w.length ≤ 2 then w
  else step5b (step5a (step4 (step3 (step2 (step1c (step1b (step1a w)))))))

example : stem "generalizations".toList = "gener".toList := by decide +kernel
example : measure "oaten".toList = 2 := by decide +kernel
example : kinds "toy".toList = [true, false, true] := by decide +kernel

end Verif.Porter.Spec
