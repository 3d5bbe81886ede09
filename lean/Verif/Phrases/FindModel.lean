import Verif.Phrases.Model

/-! Model of `find_phrases` (gensim/models/phrases.py:300-336), for live and for frozen models. -/

namespace Verif.Phrases
open Verif PyDict Vocab Text

variable {S : Type} [LinearOrder S] {σ : Type}

/-- models phrases.py:333-335, the body of the inner loop of `find_phrases` -/
def keepPhrase (d : PyDict Str S) (p : Str × Option S) : PyDict Str S :=
  match p.2 with
  | some s => set d p.1 s
  | none => d

/-- models phrases.py:332-335, one sentence of `find_phrases`; the first component is what
`score_candidate` reads and writes -/
def findSentence (connectors : List Str) (sc : σ → Str → Str → List Str → σ × Option (Str × S))
    (x : σ × PyDict Str S) (sent : List Str) : σ × PyDict Str S :=
  let r := analyzeSentence connectors sc x.1 sent
  (r.1, r.2.foldl keepPhrase x.2)

/-- models phrases.py:331-336, `find_phrases` of a `Phrases` model: the model afterwards
(`score_candidate` inserts the keys it looks up) and the dictionary returned -/
def findPhrases (c : Cfg S) (s : Ph) (sents : List (List Str)) : Ph × PyDict Str S :=
  let r := sents.foldl (findSentence c.connectors (scoreCandidate c s.corpusWords)) (s.vocab, [])
  ({ s with vocab := r.1 }, r.2)

/-- models phrases.py:331-336, `find_phrases` of a `FrozenPhrases` model -/
def frozenFind (c : Cfg S) (grams : PyDict Str S) (sents : List (List Str)) : PyDict Str S :=
  (sents.foldl (findSentence c.connectors (frozenCandidate c grams)) ((), [])).2

end Verif.Phrases
