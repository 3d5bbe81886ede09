import Verif.Py.Text
import Mathlib.Data.Int.Order.Basic

/-!
# The Porter stemmer (`gensim/parsing/porter.py`)

Words are lists of characters, already lower-cased (`w.lower()` is a parameter of `stemWord`).  An
`IndexError` is `none`.  The fields `b`, `k`, `j` of the stemmer object are a state; `j` keeps its
value from one word to the next.
-/

namespace Verif.Porter
open Verif Text

/-- The fields of the stemmer, gensim/parsing/porter.py 46-49. -/
structure St where
  b : Str
  k : Int
  j : Int
  deriving DecidableEq

/-- Python's `b[i]`, with negative positions counted from the end. -/
def at' (b : Str) (i : Int) : Option Char :=
  if 0 ≤ i then b[i.toNat]? else if -(b.length : Int) ≤ i then b[(b.length + i).toNat]? else none

/-- Models `ch in "aeiou"`. -/
def isVowelLetter (ch : Char) : Bool := ch ∈ ['a', 'e', 'i', 'o', 'u']

/-- Models `_cons`, gensim/parsing/porter.py 51-82, for positions that are not negative. -/
def cons (b : Str) : Nat → Option Bool
  | 0 => b[0]?.map fun ch => !isVowelLetter ch
  | i + 1 =>
    match b[i + 1]? with
    | none => none
    | some ch =>
      if isVowelLetter ch then some false
      else if ch = 'y' then (cons b i).map fun c => !c
      else some true

/-- The answers of `_cons` for the positions `0 … j`. -/
def flags (b : Str) (j : Int) : Option (List Bool) := (List.range (j + 1).toNat).mapM (cons b)

/-- Where the loop of `_m` is: before the first vowel, looking for a consonant, looking for a vowel. -/
inductive Phase
  | start
  | vowels
  | consonants

/-- Models the loops of `_m`, gensim/parsing/porter.py 112-136, over the answers of `_cons`. -/
def mLoop : Phase → Nat → List Bool → Nat
  | _, n, [] => n
  | .start, n, c :: fs => if c then mLoop .start n fs else mLoop .vowels n fs
  | .vowels, n, c :: fs => if c then mLoop .consonants (n + 1) fs else mLoop .vowels n fs
  | .consonants, n, c :: fs => if c then mLoop .consonants n fs else mLoop .vowels n fs

/-- Models `_m`, gensim/parsing/porter.py 84-136. -/
def m (st : St) : Option Nat := (flags st.b st.j).map (mLoop .start 0)

/-- Models `_vowelinstem`, gensim/parsing/porter.py 138-161 (all positions are looked at, also after a
vowel was found). -/
def vowelInStem (st : St) : Option Bool := (flags st.b st.j).map fun fs => !fs.all id

/-- Models `_doublec`, gensim/parsing/porter.py 163-191. -/
def doublec (st : St) (j : Int) : Option Bool :=
  if 0 < j then
    match at' st.b j, at' st.b (j - 1) with
    | some x, some y => if x = y then cons st.b j.toNat else some false
    | _, _ => none
  else some false

/-- Models `_cvc`, gensim/parsing/porter.py 193-229. -/
def cvc (st : St) (i : Int) : Option Bool :=
  if i < 2 then some false
  else
    match cons st.b i.toNat, cons st.b (i.toNat - 1), cons st.b (i.toNat - 2), at' st.b i with
    | some c1, some c2, some c3, some ch =>
      some (c1 && !c2 && c3 && !(ch ∈ ['w', 'x', 'y'] : Bool))
    | _, _, _, _ => none

/-- Models `_ends`, gensim/parsing/porter.py 231-263, for a non-empty suffix. -/
def ends (st : St) (s : Str) : Option (Bool × St) :=
  match at' st.b st.k with
  | none => none
  | some ch =>
    if s.getLast? ≠ some ch then some (false, st)
    else if st.k + 1 < s.length then some (false, st)
    else if ((st.b.take (st.k + 1).toNat).drop (st.k - s.length + 1).toNat) ≠ s then some (false, st)
    else some (true, { st with j := st.k - s.length })

/-- Models `_setto`, gensim/parsing/porter.py 265-274 (`j` is at least -1). -/
def setto (st : St) (s : Str) : St :=
  { b := st.b.take (st.j + 1).toNat ++ s
    k := ((st.b.take (st.j + 1).toNat ++ s).length : Int) - 1
    j := st.j }

/-- Models `_r`, gensim/parsing/porter.py 276-278. -/
def r (st : St) (s : Str) : Option St :=
  (m st).map fun n => if 0 < n then setto st s else st

/-- Models the first part of `_step1ab`, gensim/parsing/porter.py 302-308. -/
def step1a (st : St) : Option St := do
  let ch ← at' st.b st.k
  if ch = 's' then
    let (e1, st) ← ends st "sses".toList
    if e1 then return { st with k := st.k - 2 }
    let (e2, st) ← ends st "ies".toList
    if e2 then return setto st "i".toList
    let prev ← at' st.b (st.k - 1)
    if prev ≠ 's' then return { st with k := st.k - 1 }
    return st
  else return st

/-- Models what follows the removal of "-ed" or "-ing", gensim/parsing/porter.py 313-324. -/
def afterEdIng (st : St) : Option St := do
  let st := { st with k := st.j }
  let (e1, st) ← ends st "at".toList
  if e1 then return setto st "ate".toList
  let (e2, st) ← ends st "bl".toList
  if e2 then return setto st "ble".toList
  let (e3, st) ← ends st "iz".toList
  if e3 then return setto st "ize".toList
  let d ← doublec st st.k
  if d then
    let prev ← at' st.b (st.k - 1)
    if prev ∈ ['l', 's', 'z'] then return st else return { st with k := st.k - 1 }
  let n ← m st
  let c ← cvc st st.k
  if n = 1 ∧ c = true then return setto st "e".toList
  return st

/-- Models `self._ends("ed") or self._ends("ing")`. -/
def endsEdIng (st : St) : Option (Bool × St) := do
  let (e1, st1) ← ends st "ed".toList
  if e1 then return (true, st1)
  ends st1 "ing".toList

/-- Models the second part of `_step1ab`, gensim/parsing/porter.py 309-324. -/
def step1b (st : St) : Option St := do
  let (e1, st1) ← ends st "eed".toList
  if e1 then
    let n ← m st1
    return if 0 < n then { st1 with k := st1.k - 1 } else st1
  else
    let (e2, st2) ← endsEdIng st1
    if e2 then
      let v ← vowelInStem st2
      if v then afterEdIng st2 else return st2
    else return st2

/-- Models `_step1c`, gensim/parsing/porter.py 326-329. -/
def step1c (st : St) : Option St := do
  let (e, st1) ← ends st "y".toList
  if e then
    let v ← vowelInStem st1
    return if v then { st1 with b := st1.b.take st1.k.toNat ++ "i".toList } else st1
  else return st1

/-- An `if … elif …` chain: the first suffix that fits is replaced if the measure of the rest is
positive. -/
def applyRules (st : St) : List (Str × Str) → Option St
  | [] => some st
  | (suffix, repl) :: rules =>
    match ends st suffix with
    | none => none
    | some (true, st') => r st' repl
    | some (false, st') => applyRules st' rules

/-- The cases of `_step2`, gensim/parsing/porter.py 339-391, by the last letter but one. -/
def rules2 : List (Char × List (Str × Str)) :=
  [('a', [("ational".toList, "ate".toList), ("tional".toList, "tion".toList)]),
   ('c', [("enci".toList, "ence".toList), ("anci".toList, "ance".toList)]),
   ('e', [("izer".toList, "ize".toList)]),
   ('l', [("bli".toList, "ble".toList), ("alli".toList, "al".toList), ("entli".toList, "ent".toList),
          ("eli".toList, "e".toList), ("ousli".toList, "ous".toList)]),
   ('o', [("ization".toList, "ize".toList), ("ation".toList, "ate".toList),
          ("ator".toList, "ate".toList)]),
   ('s', [("alism".toList, "al".toList), ("iveness".toList, "ive".toList),
          ("fulness".toList, "ful".toList), ("ousness".toList, "ous".toList)]),
   ('t', [("aliti".toList, "al".toList), ("iviti".toList, "ive".toList),
          ("biliti".toList, "ble".toList)]),
   ('g', [("logi".toList, "log".toList)])]

/-- Models `_step2`, gensim/parsing/porter.py 331-391. -/
def step2 (st : St) : Option St :=
  match at' st.b (st.k - 1) with
  | none => none
  | some ch => applyRules st ((rules2.lookup ch).getD [])

/-- The cases of `_step3`, gensim/parsing/porter.py 396-413, by the last letter. -/
def rules3 : List (Char × List (Str × Str)) :=
  [('e', [("icate".toList, "ic".toList), ("ative".toList, "".toList), ("alize".toList, "al".toList)]),
   ('i', [("iciti".toList, "ic".toList)]),
   ('l', [("ical".toList, "ic".toList), ("ful".toList, "".toList)]),
   ('s', [("ness".toList, "".toList)])]

/-- Models `_step3`, gensim/parsing/porter.py 393-413. -/
def step3 (st : St) : Option St :=
  match at' st.b st.k with
  | none => none
  | some ch => applyRules st ((rules3.lookup ch).getD [])

/-- A chain of `_ends` calls: the first suffix that fits. -/
def firstEnd (st : St) : List Str → Option (Bool × St)
  | [] => some (false, st)
  | s :: ss =>
    match ends st s with
    | none => none
    | some (true, st') => some (true, st')
    | some (false, st') => firstEnd st' ss

/-- The cases of `_step4`, gensim/parsing/porter.py 418-468, except "-ion", by the last letter but
one. -/
def rules4 : List (Char × List Str) :=
  [('a', ["al".toList]), ('c', ["ance".toList, "ence".toList]), ('e', ["er".toList]),
   ('i', ["ic".toList]), ('l', ["able".toList, "ible".toList]),
   ('n', ["ant".toList, "ement".toList, "ment".toList, "ent".toList]), ('o', ["ou".toList]),
   ('s', ["ism".toList]), ('t', ["ate".toList, "iti".toList]), ('u', ["ous".toList]),
   ('v', ["ive".toList]), ('z', ["ize".toList])]

/-- Models the test for "-ion", gensim/parsing/porter.py 445. -/
def ionCase (st : St) : Option (Bool × St) := do
  let (e, st1) ← ends st "ion".toList
  if e then
    let c ← at' st1.b st1.j
    return (decide (c ∈ ['s', 't']), st1)
  else return (false, st1)

/-- Models the choice of the suffix in `_step4`, gensim/parsing/porter.py 417-468. -/
def suffix4 (st : St) : Option (Bool × St) := do
  let ch ← at' st.b (st.k - 1)
  if ch = 'o' then
    let (e, st1) ← ionCase st
    if e then return (true, st1) else firstEnd st1 ((rules4.lookup ch).getD [])
  else firstEnd st ((rules4.lookup ch).getD [])

/-- Models `_step4`, gensim/parsing/porter.py 415-470. -/
def step4 (st : St) : Option St := do
  let (e, st1) ← suffix4 st
  if e then
    let n ← m st1
    return if 1 < n then { st1 with k := st1.j } else st1
  else return st1

/-- Models the removal of a final "e", gensim/parsing/porter.py 474-478. -/
def step5a (st : St) : Option St := do
  let st := { st with j := st.k }
  let ch ← at' st.b st.k
  if ch = 'e' then
    let a ← m st
    if 1 < a then return { st with k := st.k - 1 }
    else if a = 1 then
      let c ← cvc st (st.k - 1)
      return if c then st else { st with k := st.k - 1 }
    else return st
  else return st

/-- Models the removal of one of a final "ll", gensim/parsing/porter.py 479-480. -/
def step5b (st : St) : Option St := do
  let ch ← at' st.b st.k
  if ch = 'l' then
    let d ← doublec st st.k
    if d then
      let n ← m st
      return if 1 < n then { st with k := st.k - 1 } else st
    else return st
  else return st

/-- Models `stem`, gensim/parsing/porter.py 505-524, on the lower-cased word; `j0` is the value `j`
has from the words stemmed before. -/
def stem (j0 : Int) (w : Str) : Option Str :=
  if w.length ≤ 2 then some w
  else do
    let st ← step1a { b := w, k := w.length - 1, j := j0 }
    let st ← step1b st
    let st ← step1c st
    let st ← step2 st
    let st ← step3 st
    let st ← step4 st
    let st ← step5a st
    let st ← step5b st
    return st.b.take (st.k + 1).toNat

/-- Models `stem` with the lower-casing of `str.lower` as a parameter. -/
def stemWord (lower : Str → Str) (j0 : Int) (w : Str) : Option Str := stem j0 (lower w)

end Verif.Porter
