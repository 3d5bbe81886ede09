import Verif.Py.Text

/-!
# Removing wiki templates (`remove_template`, gensim/corpora/wikicorpus.py 268-311)
-/

namespace Verif.Wiki
open Verif Text

/-- The variables of the loop, gensim/corpora/wikicorpus.py 288-291. -/
structure Scan where
  nOpen : Nat
  nClose : Nat
  starts : List Int
  ends : List Int
  inTemplate : Bool
  prev : Option Char
  deriving DecidableEq

/-- Models gensim/corpora/wikicorpus.py 288-291. -/
def scan0 : Scan :=
  { nOpen := 0, nClose := 0, starts := [], ends := [-1], inTemplate := false, prev := none }

/-- Models gensim/corpora/wikicorpus.py 293-297: the beginning of a template. -/
def openStep (st : Scan) (i : Nat) (c : Char) : Scan :=
  if st.inTemplate = false then
    if c = '{' ∧ some c = st.prev then
      { st with starts := st.starts ++ [(i : Int) - 1], inTemplate := true, nOpen := 1 }
    else st
  else st

/-- Models gensim/corpora/wikicorpus.py 299-302: the braces inside a template. -/
def countStep (st : Scan) (c : Char) : Scan :=
  if c = '{' then { st with nOpen := st.nOpen + 1 }
  else if c = '}' then { st with nClose := st.nClose + 1 }
  else st

/-- Models gensim/corpora/wikicorpus.py 303-306: the end of a template. -/
def closeStep (st : Scan) (i : Nat) : Scan :=
  if st.nOpen = st.nClose then
    { st with ends := st.ends ++ [(i : Int)], inTemplate := false, nOpen := 0, nClose := 0 }
  else st

/-- Models the body of the loop, gensim/corpora/wikicorpus.py 292-307. -/
def scanStep (st : Scan) (ic : Nat × Char) : Scan :=
  let st := openStep st ic.1 ic.2
  let st := if st.inTemplate then closeStep (countStep st ic.2) ic.1 else st
  { st with prev := some ic.2 }

/-- `enumerate(s)` from position `i` on. -/
def enumFrom : Nat → Str → List (Nat × Char)
  | _, [] => []
  | i, c :: s => (i, c) :: enumFrom (i + 1) s

/-- Python's `s[a:b]` for non-negative positions, with `None` for the end. -/
def slice (s : Str) (a : Int) (b : Option Int) : Str :=
  match b with
  | none => s.drop a.toNat
  | some b => (s.take b.toNat).drop a.toNat

/-- Models gensim/corpora/wikicorpus.py 310-311. -/
def cutOut (s : Str) (st : Scan) : Str :=
  ((st.ends.zip (st.starts.map some ++ [none])).map fun p => slice s (p.1 + 1) p.2).flatten

/-- Models `remove_template`, gensim/corpora/wikicorpus.py 268-311. -/
def removeTemplate (s : Str) : Str := cutOut s ((enumFrom 0 s).foldl scanStep scan0)

end Verif.Wiki
