import Mathlib.Order.Defs.LinearOrder
import Verif.Py.Count

/-!
# Model of `gensim/corpora/hashdictionary.py`: class `HashDictionary`

Tokens are an arbitrary linearly ordered type, the hash function is an arbitrary function to the
integers (`myhash(utf8(token))`).  `id_range = 0` (ZeroDivisionError) is excluded by the hypothesis
`0 < range` of the theorems.
-/

namespace Verif.HashDict
open Verif PyDict

/-- models hashdictionary.py:80-82, the configuration -/
structure Cfg (τ : Type) where
  hash : τ → Int
  range : Nat
  debug : Bool

/-- models hashdictionary.py:85-93, the statistics.  A Python `set` of words is a list in which
`add` never inserts a word twice; nothing depends on its order. -/
structure St (τ : Type) where
  token2id : PyDict τ Nat
  id2token : PyDict Nat (List τ)
  dfs : PyDict Nat Nat
  dfsDebug : PyDict τ Nat
  numDocs : Nat
  numPos : Nat
  numNnz : Nat
deriving DecidableEq

variable {τ : Type} [LinearOrder τ]

/-- models hashdictionary.py:85-93, `HashDictionary()` -/
def init : St τ := ⟨[], [], [], [], 0, 0, 0⟩

/-- models hashdictionary.py:134, `myhash(utf8(token)) % id_range` (Python `%` with a positive
divisor is the Euclidean remainder) -/
def Cfg.id (c : Cfg τ) (w : τ) : Nat := (c.hash w % (c.range : Int)).toNat

/-- `s.add(w)` -/
def setAdd (s : List τ) (w : τ) : List τ := if w ∈ s then s else s ++ [w]

/-- models hashdictionary.py:135-137, the debug bookkeeping of `restricted_hash` -/
def note (c : Cfg τ) (s : St τ) (w : τ) : St τ :=
  if c.debug then
    { s with token2id := set s.token2id w (c.id w)
             id2token := set s.id2token (c.id w) (setAdd (getD s.id2token (c.id w) []) w) }
  else s

/-- models hashdictionary.py:237-243, one group of the loop -/
def oneGroup (c : Cfg τ) (s : St τ × PyDict Nat Nat) (g : τ × Nat) : St τ × PyDict Nat Nat :=
  let s1 := note c s.1 g.1
  let r := set s.2 (c.id g.1) (getD s.2 (c.id g.1) 0 + g.2)
  if c.debug then ({ s1 with dfsDebug := set s1.dfsDebug g.1 (getD s1.dfsDebug g.1 0 + 1) }, r)
  else (s1, r)

/-- models hashdictionary.py:196-260, `doc2bow`: new state and returned vector.  `self.allow_update`
is always `True` (line 93), so the argument `allow_update` has no effect. -/
def doc2bow (c : Cfg τ) (s : St τ) (doc : List τ) : St τ × List (Nat × Nat) :=
  let doc := pySort (fun a b => decide (a ≤ b)) doc
  let (s, r) := (groupRuns doc).foldl (oneGroup c) (s, [])
  let s := { s with numDocs := s.numDocs + 1, numPos := s.numPos + doc.length,
                    numNnz := s.numNnz + r.length }
  let s := if c.debug then { s with dfs := (keys r).foldl (fun t i => set t i (getD t i 0 + 1)) s.dfs }
    else s
  (s, pySort (fun a b => decide (a.1 ≤ b.1)) r)

/-- models hashdictionary.py:187-190, `add_documents` -/
def addDocuments (c : Cfg τ) (s : St τ) (docs : List (List τ)) : St τ :=
  docs.foldl (fun s doc => (doc2bow c s doc).1) s

/-- models hashdictionary.py:292-302, `filter_extremes`; `noAboveAbs` is `int(no_above * num_docs)`,
`keepN = none` is `None` (`[:None]` keeps all) -/
def filterExtremes (s : St τ) (noBelow noAboveAbs : Int) (keepN : Option Nat) : St τ :=
  let ok : List (τ × Nat) := s.dfsDebug.filter (fun p => decide (noBelow ≤ (p.2 : Int)) && decide ((p.2 : Int) ≤ noAboveAbs))
  let ok := pySort (fun a b => decide (b.2 ≤ a.2)) ok
  let ok := match keepN with
    | none => ok
    | some n => ok.take n
  let words : List τ := ok.map Prod.fst
  let dfsDebug := s.dfsDebug.filter (fun p => decide (p.1 ∈ words))
  let id2token := s.id2token.map (fun p => (p.1, p.2.filter (fun w => contains dfsDebug w)))
  { s with dfsDebug := dfsDebug
           token2id := s.token2id.filter (fun p => contains dfsDebug p.1)
           id2token := id2token
           dfs := s.dfs.filter (fun p => !(getD id2token p.1 []).isEmpty) }

/-- models hashdictionary.py:98-117, `self[tokenid]` -/
def getitem (s : St τ) (i : Nat) : List τ := getD s.id2token i []

/-- Every state some sequence of calls leads to. -/
inductive Reachable (c : Cfg τ) : St τ → Prop
  | init : Reachable c init
  | doc {s} (doc : List τ) : Reachable c s → Reachable c (doc2bow c s doc).1
  | filter {s} (nb na : Int) (k : Option Nat) : Reachable c s → Reachable c (filterExtremes s nb na k)

end Verif.HashDict
