/-!
Model of how the topic models find out the number of terms, and of how often they read the corpus they are constructed
with. A document is the list of the ids in it, a word mapping the list of its ids.
-/

namespace Verif.Topic

/-- A corpus: its documents, whether it can be read only once (a generator), whether `len` works. -/
structure Src where
  docs : List (List Nat)
  oneShot : Bool
  sized : Bool
deriving DecidableEq

/-- Iterating over a corpus: the documents, and what is left of it. -/
def Src.read (s : Src) : List (List Nat) × Src := (s.docs, if s.oneShot then { s with docs := [] } else s)

inductive Err where
  | valueError
  | typeError
  | runtimeError
  /-- the attribute is not there: `RpModel` without corpus is not initialised -/
  | attributeError
deriving DecidableEq

/-- models utils.py:729-733 `get_max_id`, plus one (utils.py:821) -/
def maxId (docs : List (List Nat)) : Nat := docs.foldl (fun m d => if d.isEmpty then m else max m (d.foldl max 0 + 1)) 0

/-- `1 + max(id2word.keys())` of a mapping that is not empty, else 0 -/
def maxKey (ids : List Nat) : Nat := if ids.isEmpty then 0 else 1 + ids.foldl max 0

/-- The models. -/
inductive Kind where
  | lda
  | author
  | lsi
  | rp
  | nmf
  | hdp
  | ldaseq
deriving DecidableEq

/-- The number of terms, and what is left of the corpus: models ldamodel.py:427-446 (`LdaModel`, `LdaMulticore`),
atmodel.py:226-242 (`AuthorTopicModel`), lsimodel.py:399-409 (`LsiModel`), rpmodel.py:66-91 (`RpModel`),
nmf.py:196-199 (`Nmf`), hdpmodel.py:352 (`HdpModel`), ldaseqmodel.py:124-137 (`LdaSeqModel`), with
utils.py:743-797 (`FakeDict`) and 800-823 (`dict_from_corpus`). -/
def terms (k : Kind) (id2word : Option (List Nat)) (corpus : Option Src) : Except Err (Nat × Option Src) :=
  match k with
  | .lda | .author =>
    match id2word, corpus with
    | none, none => .error .valueError
    | none, some c =>
      let (ds, c') := c.read
      if maxId ds = 0 then .error .valueError else .ok (maxId ds, some c')
    | some ids, c => if maxKey ids = 0 then .error .valueError else .ok (maxKey ids, c)
  | .lsi =>
    match id2word, corpus with
    | none, none => .error .valueError
    | none, some c => let (ds, c') := c.read; .ok (maxId ds, some c')
    | some ids, c => .ok (maxKey ids, c)
  | .rp =>
    match id2word, corpus with
    | _, none => .error .attributeError
    | none, some c => let (ds, c') := c.read; .ok (maxId ds, some c')
    | some ids, some c => .ok (maxKey ids, some c)
  | .nmf =>
    match id2word, corpus with
    | none, none => .error .typeError
    | none, some c => let (ds, c') := c.read; .ok (maxId ds, some c')
    | some ids, c => .ok (ids.length, c)
  | .hdp =>
    match id2word with
    | none => .error .typeError
    | some ids => .ok (ids.length, corpus)
  | .ldaseq =>
    match id2word, corpus with
    | none, none => .error .valueError
    | none, some c => let (ds, c') := c.read; .ok (maxId ds, some c')
    | some ids, c => .ok (ids.length, c)

/-- The passes of `LdaModel.update` (ldamodel.py:960-1012) with `n` documents expected: the documents read in each. -/
def ldaPasses (n : Nat) : Nat → Src → Except Err (List (List (List Nat)))
  | 0, _ => .ok []
  | p + 1, c =>
    let (ds, c') := c.read
    if ds.length ≠ n then .error .runtimeError
    else (ldaPasses n p c').map (ds :: ·)

/-- `LdaModel.update` (ldamodel.py:902-909), `LdaMulticore.update` (ldamulticore.py:216-223): the documents of each
pass. -/
def ldaUpdate (passes : Nat) (c : Src) : Except Err (List (List (List Nat))) :=
  let (n, c) := if c.sized then (c.docs.length, c) else (c.read.1.length, c.read.2)
  if n = 0 then .ok [] else ldaPasses n passes c

/-- `LsiModel.add_documents` with `onepass=True` (lsimodel.py:487-520) -/
def lsiUpdate (c : Src) : Except Err (List (List (List Nat))) := .ok [c.read.1]

/-- The passes of `Nmf.update` (nmf.py:599-612). -/
def nmfPasses : Nat → Src → List (List (List Nat))
  | 0, _ => []
  | p + 1, c => c.read.1 :: nmfPasses p c.read.2

/-- `Nmf.update` (nmf.py:569-612): `own` is the number of passes of the constructor, `passes` that of the call. -/
def nmfUpdate (own passes : Nat) (c : Src) : Except Err (List (List (List Nat))) :=
  if c.sized ∧ c.docs.length = 0 then .ok []
  else if c.oneShot ∧ 1 < own then .error .valueError
  else .ok (nmfPasses passes c)

/-- The constructors with a corpus: the number of terms, then training (ldamodel.py:519-521, lsimodel.py:442-443,
nmf.py:210-211). The documents of each pass. -/
def construct (k : Kind) (passes : Nat) (id2word : Option (List Nat)) (c : Src) : Except Err (List (List (List Nat))) :=
  match terms k id2word (some c) with
  | .error e => .error e
  | .ok (_, c') =>
    match k with
    | .lda => ldaUpdate passes (c'.getD c)
    | .lsi => lsiUpdate (c'.getD c)
    | .nmf => nmfUpdate passes passes (c'.getD c)
    | _ => .ok []

end Verif.Topic
