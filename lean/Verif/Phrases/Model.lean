import Mathlib.Order.Defs.LinearOrder
import Verif.Py.Text
import Verif.Utils.VocabModel

/-!
# Model of `gensim/models/phrases.py`

Tokens are strings (`Str`, lists of characters).  Scores live in an arbitrary linear order `S`
(floats without NaN).  The scoring function is an arbitrary function of the six numbers it gets.
-/

namespace Verif.Phrases
open Verif PyDict Vocab Text

/-- models phrases.py:524-561, the configuration of a `Phrases` model -/
structure Cfg (S : Type) where
  connectors : List Str
  delim : Str
  scoring : (worda wordb bigram lenVocab minCount corpusWords : Nat) → S
  minCount : Nat
  threshold : S
  maxVocabSize : Nat

/-- models phrases.py:557-561, the learned state (`vocab` is a `defaultdict(int)`) -/
structure Ph where
  vocab : PyDict Str Nat
  minReduce : Nat
  corpusWords : Nat
deriving DecidableEq

/-- models phrases.py:557-561, a model that has seen nothing -/
def Ph.empty : Ph := ⟨[], 1, 0⟩

variable {S : Type} [LinearOrder S]

/-! ## Training -/

/-- the variables of the loop at phrases.py:590-600 -/
structure Learn where
  vocab : PyDict Str Nat
  start : Option Str
  between : List Str
  total : Nat

/-- `vocab[k] += 1` on a defaultdict -/
def bump1 (v : PyDict Str Nat) (k : Str) : PyDict Str Nat := set v k (getD v k 0 + 1)

/-- models phrases.py:592-600, one word -/
def learnWord (c : Cfg S) (s : Learn) (w : Str) : Learn :=
  if w ∉ c.connectors then
    let v := bump1 s.vocab w
    let v := match s.start with
      | some a => bump1 v (joinWith c.delim ([a] ++ s.between ++ [w]))
      | none => v
    ⟨v, some w, [], s.total + 1⟩
  else match s.start with
    | some a => ⟨s.vocab, some a, s.between ++ [w], s.total + 1⟩
    | none => ⟨s.vocab, none, s.between, s.total + 1⟩

/-- models phrases.py:584-604, one sentence of `_learn_vocab` -/
def learnSentence (c : Cfg S) (s : Ph) (sent : List Str) : Ph :=
  let r := sent.foldl (learnWord c) ⟨s.vocab, none, [], s.corpusWords⟩
  if r.vocab.length > c.maxVocabSize then
    ⟨(pruneVocab none s.minReduce r.vocab).1, s.minReduce + 1, r.total⟩
  else ⟨r.vocab, s.minReduce, r.total⟩

/-- models phrases.py:578-610, `_learn_vocab`: `min_reduce`, `vocab`, `total_words` -/
def learnVocab (c : Cfg S) (sents : List (List Str)) : Ph := sents.foldl (learnSentence c) Ph.empty

/-- models phrases.py:612-665, `add_vocab` -/
def addVocab (c : Cfg S) (s : Ph) (sents : List (List Str)) : Ph :=
  let n := learnVocab c sents
  let words := s.corpusWords + n.corpusWords
  if s.vocab = [] then ⟨n.vocab, s.minReduce, words⟩
  else
    let mr := max s.minReduce n.minReduce
    let v := accum s.vocab n.vocab
    if v.length > c.maxVocabSize then ⟨(pruneVocab none mr v).1, mr + 1, words⟩
    else ⟨v, mr, words⟩

/-! ## Applying -/

/-- reading `vocab[k]` of a defaultdict: a missing key is inserted with count 0 -/
def touch (v : PyDict Str Nat) (k : Str) : PyDict Str Nat := if contains v k then v else set v k 0

/-- models phrases.py:667-690, `Phrases.score_candidate`: the dictionary after the lookups and the
phrase found with its score -/
def scoreCandidate (c : Cfg S) (words : Nat) (v : PyDict Str Nat) (a b : Str) (mid : List Str) :
    PyDict Str Nat × Option (Str × S) :=
  let v := touch v a
  if getD v a 0 ≤ 0 then (v, none) else
  let v := touch v b
  if getD v b 0 ≤ 0 then (v, none) else
  let phrase := joinWith c.delim ([a] ++ mid ++ [b])
  let v := touch v phrase
  if getD v phrase 0 ≤ 0 then (v, none) else
  let s := c.scoring (getD v a 0) (getD v b 0) (getD v phrase 0) v.length c.minCount words
  if s ≤ c.threshold then (v, none) else (v, some (phrase, s))

/-- the variables of the loop at phrases.py:242-274; `st` is whatever `score_candidate` reads and
writes, `out` what has been yielded -/
structure AState (σ S : Type) where
  st : σ
  start : Option Str
  between : List Str
  out : List (Str × Option S)

/-- `if start_token:` — `None` and the empty string are false -/
def truthy : Option Str → Option Str
  | some (x :: xs) => some (x :: xs)
  | _ => none

/-- models phrases.py:243-269, one word of `analyze_sentence` -/
def analyzeWord {σ : Type} (connectors : List Str)
    (sc : σ → Str → Str → List Str → σ × Option (Str × S)) (x : AState σ S) (w : Str) : AState σ S :=
  if w ∉ connectors then
    match truthy x.start with
    | some a =>
      match sc x.st a w x.between with
      | (st, some (p, s)) => ⟨st, none, [], x.out ++ [(p, some s)]⟩
      | (st, none) => ⟨st, some w, [], x.out ++ [(a, none)] ++ x.between.map (fun v => (v, none))⟩
    | none => ⟨x.st, some w, [], x.out⟩
  else
    match truthy x.start with
    | some _ => { x with between := x.between ++ [w] }
    | none => { x with out := x.out ++ [(w, none)] }

/-- models phrases.py:270-274, the end of `analyze_sentence` -/
def analyzeEnd {σ : Type} (x : AState σ S) : σ × List (Str × Option S) :=
  match truthy x.start with
  | some a => (x.st, x.out ++ [(a, none)] ++ x.between.map (fun v => (v, none)))
  | none => (x.st, x.out)

/-- models phrases.py:226-274, `analyze_sentence` exhausted by its caller -/
def analyzeSentence {σ : Type} (connectors : List Str)
    (sc : σ → Str → Str → List Str → σ × Option (Str × S)) (st : σ) (sent : List Str) :
    σ × List (Str × Option S) :=
  analyzeEnd (sent.foldl (analyzeWord connectors sc) ⟨st, none, [], []⟩)

/-- models phrases.py:276-321, `Phrases.__getitem__` on one sentence: the state changes, because
`score_candidate` inserts the keys it looks up -/
def transform (c : Cfg S) (s : Ph) (sent : List Str) : Ph × List Str :=
  let r := analyzeSentence c.connectors (scoreCandidate c s.corpusWords) s.vocab sent
  ({ s with vocab := r.1 }, r.2.map Prod.fst)

/-- `token.split(delimiter)` for a one-character delimiter; longer delimiters are not modelled in
`export_phrases` -/
def unigramsOf (d : Char) (k : Str) : List Str := splitOn d k

/-- models phrases.py:717-725, the loop of `export_phrases` over the keys.  The dictionary may not
change size while it is iterated: `none` is the RuntimeError CPython raises when `score_candidate`
has inserted a key. -/
def exportLoop (c : Cfg S) (d : Char) (words : Nat) :
    List Str → PyDict Str Nat → PyDict Str S → Option (PyDict Str S)
  | [], _, r => some r
  | k :: ks, v, r =>
    match unigramsOf d k with
    | a :: rest =>
      match rest.getLast? with
      | none => exportLoop c d words ks v r
      | some b =>
        let q := scoreCandidate c words v a b rest.dropLast
        if q.1.length ≠ v.length then none else
        match q.2 with
        | some (p, s) => exportLoop c d words ks q.1 (set r p s)
        | none => exportLoop c d words ks q.1 r
    | [] => exportLoop c d words ks v r

/-- models phrases.py:708-725, `export_phrases`; `none`: RuntimeError -/
def exportPhrases (c : Cfg S) (d : Char) (s : Ph) : Option (PyDict Str S) :=
  exportLoop c d s.corpusWords (keys s.vocab) s.vocab []

/-- models phrases.py:783-788, `FrozenPhrases.score_candidate` (no state; the default score `-inf` is
never above the threshold) -/
def frozenCandidate (c : Cfg S) (grams : PyDict Str S) (u : Unit) (a b : Str) (mid : List Str) :
    Unit × Option (Str × S) :=
  let phrase := joinWith c.delim ([a] ++ mid ++ [b])
  match get? grams phrase with
  | none => (u, none)
  | some s => if c.threshold < s then (u, some (phrase, s)) else (u, none)

/-- models phrases.py:276-321 for `FrozenPhrases` -/
def frozenTransform (c : Cfg S) (grams : PyDict Str S) (sent : List Str) : List Str :=
  (analyzeSentence c.connectors (frozenCandidate c grams) () sent).2.map Prod.fst

end Verif.Phrases
