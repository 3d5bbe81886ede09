import Verif.Coherence.StateModel
import Verif.Dictionary.Model
import Verif.Show.Model

/-!
# Model of comparing topic models by coherence (`gensim/models/coherencemodel.py` `for_models`, `for_topics`,
`compare_models`; `gensim/topic_coherence/text_analysis.py` `_ids_to_words`)

For the coherence `'u_mass'`.  A topic model is the list of its topics (`get_topics`), a topic has one weight per word.
-/

namespace Verif.Coherence
open Verif PyDict Dictionary

variable {K τ : Type} [Field K] [LinearOrder K] [IsStrictOrderedRing K] [LinearOrder τ]

/-- models coherencemodel.py:278-279 and text_analysis.py:56-57: the reverse mapping is filled in if it is empty -/
def fillCache (d : Dct τ) : Dct τ := if d.id2token = [] then { d with id2token := revdict d.token2id } else d

/-- models coherencemodel.py:283 and text_analysis.py:59-65 (for a `Dictionary`, in which the words are no sets): the
words of ids; `none` is `KeyError` -/
def wordsOf (d : Dct τ) (ids : List Nat) : Option (List τ) := ids.mapM (get? (fillCache d).id2token)

/-- models coherencemodel.py:278-286 `top_topics_as_word_lists` -/
def topWordLists (np : Show.Np K) (d : Dct τ) (topics : List (List K)) (topn : Nat) : Option (List (List τ)) :=
  topics.mapM fun t => wordsOf d (Show.argsort np t (some topn) true)

/-- models coherencemodel.py:446-448 `_ensure_elements_are_ids` for words; `none` is `KeyError` -/
def tokenIds (d : Dct τ) (ws : List τ) : Option (List Nat) := ws.mapM (get? d.token2id)

/-- models coherencemodel.py:446-451 `_ensure_elements_are_ids` for ids.  Simplified: no id is itself a word, so that the
first attempt to look it up as a word fails -/
def idIds (d : Dct τ) (ids : List Nat) : Option (List Nat) :=
  ids.mapM fun i => (get? d.id2token i).bind (get? d.token2id)

/-- models coherencemodel.py:304-323 `for_topics`: `none` is a `ValueError` or `KeyError`; `topn` is the argument.  The
new model (with `topn` equal to the number of all words) estimates its probabilities, then `topn` is set. -/
def forTopics {C : Type} (corpus : List (List (Nat × C))) (d : Dct τ) (lists : List (List (List τ))) (topn : Option Nat) :
    Option CM :=
  if lists = [] ∨ lists.any (fun l => l.isEmpty) then none
  else
    let longest := (lists.flatten.map List.length).foldl max 0
    (tokenIds d lists.flatten.flatten).bind fun all =>
      setTopn (estimate corpus ⟨[all], all.length, none⟩ (sOnePre (shown [all] all.length))) (min (topn.getD longest) longest)

/-- models coherencemodel.py:252-255 `for_models`; the dictionary with its reverse mapping filled in, and the new model -/
def forModels {C : Type} (np : Show.Np K) (corpus : List (List (Nat × C))) (d : Dct τ) (models : List (List (List K)))
    (topn : Nat) : Option (Dct τ × CM) :=
  (models.mapM fun m => topWordLists np d m topn).bind fun lists =>
    (forTopics corpus (fillCache d) lists (some topn)).map fun s => (fillCache d, s)

/-- models coherencemodel.py:491-494 `_get_topics_from_model` -/
def modelTopics (np : Show.Np K) (m : List (List K)) (topn : Nat) : List (List Nat) :=
  m.map fun t => Show.argsort np t (some topn) true

/-- models coherencemodel.py:625-626 `compare_models` with 427-432: the topics of the models, and at the end the original
ones, are given to the setter as ids -/
noncomputable def compareModels {C : Type} (eps : ℝ) (np : Show.Np K) (corpus : List (List (Nat × C))) (d : Dct τ) (s : CM)
    (models : List (List (List K))) : Option (List (List (List (Option ℝ))) × CM) :=
  (models.mapM fun m => (modelTopics np m s.topn).mapM (idIds d)).bind fun topics =>
    (compareModelTopics eps corpus s topics).bind fun r => (s.topics.mapM (idIds d)).map fun _ => r

end Verif.Coherence
