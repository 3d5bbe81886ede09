import Verif.Coherence.MeasureModel
import Verif.Py.Dict

/-!
# The state of a `CoherenceModel` (gensim/models/coherencemodel.py)

For the coherence `'u_mass'` and topics given explicitly (no model).  The list of topics is not empty.
-/

namespace Verif.Coherence

/-- Models `_topics`, `_topn` and `_accumulator` (with its relevant ids),
gensim/models/coherencemodel.py 211-215. -/
structure CM where
  topics : List (List Nat)
  topn : Nat
  acc : Option (List Nat × Index)

/-- Models the getter of `topics`, gensim/models/coherencemodel.py 412-415. -/
def shown (topics : List (List Nat)) (topn : Nat) : List (List Nat) :=
  if (topics.headD []).length > topn then topics.map fun t => t.take topn else topics

/-- Models the setter of `topics` for lists of ids, gensim/models/coherencemodel.py 427-444, 453-468. -/
def setTopics (s : CM) (new : List (List Nat)) : CM :=
  let wipe := match s.acc with
    | none => false
    | some a => decide (new ≠ s.topics) &&
        (uniqueIds (sOnePre new)).any fun w => decide (w ∉ a.1)
  { s with topics := new, acc := if wipe then none else s.acc }

/-- Models the setter of `topn` without a model, gensim/models/coherencemodel.py 378-388; `none` is the
`ValueError`. -/
def setTopn (s : CM) (n : Nat) : Option CM :=
  if (s.topics.headD []).length < n then none else some { s with topn := n }

/-- Models `estimate_probabilities`, gensim/models/coherencemodel.py 531-546. -/
def estimate {C : Type} (corpus : List (List (Nat × C))) (s : CM) (segs : List (List (Nat × Nat))) :
    CM :=
  let rel := uniqueIds segs
  { s with acc := (accumulateCorpus rel (Index.init rel) corpus).map fun i => (rel, i) }

/-- Models `get_coherence_per_topic`, gensim/models/coherencemodel.py 568-584; `segs` is the optional
argument. -/
noncomputable def perTopic {C : Type} (eps : ℝ) (corpus : List (List (Nat × C))) (s : CM)
    (segs : Option (List (List (Nat × Nat)))) : List (Option ℝ) × CM :=
  let segs := segs.getD (sOnePre (shown s.topics s.topn))
  let s := if s.acc.isNone then estimate corpus s segs else s
  match s.acc with
  | some a => (logConditionalProbability eps (a.2.counts a.1) segs, s)
  | none => ([], s)

/-- Models `topn_grid`, gensim/models/coherencemodel.py 679-680 (`topn` at least 1). -/
def topnGrid (topn : Nat) : List Nat :=
  let last := min (topn - 1) 4
  (List.range ((topn - last + 4) / 5)).map fun i => topn - 5 * i

/-- Models the loop over the grid for one list of topics, gensim/models/coherencemodel.py 688-697 (the
topic coherences at each `n`; the averages are left out). -/
noncomputable def atGrid {C : Type} (eps : ℝ) (corpus : List (List (Nat × C))) :
    List Nat → CM → Option (List (List (Option ℝ)) × CM)
  | [], s => some ([], s)
  | n :: ns, s => (setTopn s n).bind fun s =>
    let r := perTopic eps corpus s none
    (atGrid eps corpus ns r.2).map fun q => (r.1 :: q.1, q.2)

/-- Models the loop of `_compare_model_topics`, gensim/models/coherencemodel.py 682-703. -/
noncomputable def compareLoop {C : Type} (eps : ℝ) (corpus : List (List (Nat × C))) (grid : List Nat) :
    List (List (List Nat)) → CM → Option (List (List (List (Option ℝ))) × CM)
  | [], s => some ([], s)
  | t :: ts, s => (atGrid eps corpus grid (setTopics s t)).bind fun r =>
    (compareLoop eps corpus grid ts r.2).map fun q => (r.1 :: q.1, q.2)

/-- Models `compare_model_topics`, gensim/models/coherencemodel.py 653-662, when nothing is raised. -/
noncomputable def compareModelTopics {C : Type} (eps : ℝ) (corpus : List (List (Nat × C))) (s : CM)
    (models : List (List (List Nat))) : Option (List (List (List (Option ℝ))) × CM) :=
  (compareLoop eps corpus (topnGrid s.topn) models s).bind fun r =>
    (setTopn (setTopics r.2 s.topics) s.topn).map fun s' => (r.1, s')

/-- Looking a word up: `self.dictionary.token2id[token]`, gensim/models/coherencemodel.py 448. -/
def byToken (token2id : PyDict String Nat) : String ⊕ Nat → Option Nat
  | .inl t => token2id.get? t
  | .inr _ => none

/-- Looking an id up: `token2id[self.dictionary.id2token[id]]`, gensim/models/coherencemodel.py
450-451. -/
def byId (token2id : PyDict String Nat) (id2token : PyDict Nat String) : String ⊕ Nat → Option Nat
  | .inl _ => none
  | .inr i => (id2token.get? i).bind token2id.get?

/-- Models `_ensure_elements_are_ids`, gensim/models/coherencemodel.py 446-451: the elements are words or
ids; `none` is a `KeyError`. -/
def ensureIds (token2id : PyDict String Nat) (id2token : PyDict Nat String)
    (topic : List (String ⊕ Nat)) : Option (List Nat) :=
  match topic.mapM (byToken token2id) with
  | some ids => some ids
  | none => topic.mapM (byId token2id id2token)

end Verif.Coherence
