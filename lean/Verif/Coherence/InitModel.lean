import Mathlib.Tactic.Common

/-!
# Model of constructing a `CoherenceModel`, of what its estimations read and of its topics when it has a topic model

`gensim/models/coherencemodel.py` 46-47, 83-89, 126-217, 350-358, 378-390, 412-415, 427-444, 531-546, 568-584 and
`gensim/utils.py` 855-877.
-/

namespace Verif.Coherence.Init

/-- A stream of documents or texts: an object whose class is named `...Corpus`, any other object that can be iterated
again and again, or an iterator with what is left of it. -/
inductive Src (α : Type) where
  | named (l : List α)
  | seq (l : List α)
  | iter (l : List α)

/-- A `for` loop over a stream: what it sees, and the stream afterwards. -/
def Src.read {α : Type} : Src α → List α × Src α
  | .named l => (l, .named l)
  | .seq l => (l, .seq l)
  | .iter l => (l, .iter [])

/-- models utils.py:855-877 `is_corpus`: whether the first document is empty or begins with an id and a number (`ok`),
and the object that was passed, after the first document has been taken from it.  (The object with that document put
back, which `is_corpus` returns too, is not used by the constructor.) -/
def isCorpus {D : Type} (ok : D → Bool) : Src D → Bool × Src D
  | .named l => (true, .named l)
  | .seq [] => (false, .seq [])
  | .seq (d :: l) => (ok d, .seq (d :: l))
  | .iter [] => (false, .iter [])
  | .iter (d :: l) => (ok d, .iter l)

/-- What maps ids to words: a `Dictionary`, a plain mapping (without `doc2bow`), or a `FakeDict`. -/
inductive Mapping where
  | dictionary | plain | fake
  deriving DecidableEq

/-- A topic model: its `id2word`, and for every topic all word ids by descending weight. -/
structure TopicModel where
  id2word : Mapping
  rank : List (List Nat)

/-- The arguments of the constructor; topics are lists of word ids. -/
structure Args (D T : Type) where
  model : Option TopicModel
  topics : Option (List (List Nat))
  texts : Option (Src T)
  corpus : Option (Src D)
  dictionary : Option Mapping
  windowSize : Option Nat
  keyedVectors : Bool
  coherence : String
  topn : Nat
  processes : Int

/-- Exceptions. -/
inductive Err where
  | value | key | attribute
  deriving DecidableEq

/-- models coherencemodel.py:83-89 `SLIDING_WINDOW_SIZES`: the outer `none` is `KeyError` -/
def slidingWindowSizes (coherence : String) : Option (Option Nat) :=
  if coherence = "c_v" then some (some 110)
  else if coherence = "c_w2v" then some (some 5)
  else if coherence = "c_uci" then some (some 10)
  else if coherence = "c_npmi" then some (some 10)
  else if coherence = "u_mass" then some none
  else none

/-- models coherencemodel.py:46-47 -/
def booleanDocumentBased : List String := ["u_mass"]

/-- models coherencemodel.py:46-47 -/
def slidingWindowBased : List String := ["c_v", "c_uci", "c_npmi", "c_w2v"]

/-- The attributes of a `CoherenceModel`, except the accumulator. -/
structure CModel (D T : Type) where
  coherence : String
  windowSize : Option Nat
  texts : Option (Src T)
  corpus : Option (Src D)
  keyedVectors : Bool
  topn : Nat
  model : Option TopicModel
  topics : Option (List (List Nat))
  processes : Int

/-- models coherencemodel.py:491-494 `_get_topics_from_model`: the `topn` heaviest words of every topic -/
def topicsOf (m : TopicModel) (topn : Nat) : List (List Nat) := m.rank.map fun t => t.take topn

/-- models coherencemodel.py:163-182: the checks before the measure is looked at; gives the dictionary -/
def checkArgs {D T : Type} (a : Args D T) : Except Err Mapping :=
  if a.model.isNone ∧ a.topics.isNone then .error .value
  else if a.topics.isSome ∧ a.dictionary.isNone then .error .value
  else if a.keyedVectors = false ∧ a.texts.isNone ∧ a.corpus.isNone then .error .value
  else match a.dictionary with
    | some d => .ok d
    | none =>
      match a.model with
      | none => .error .attribute
      | some m => if m.id2word = .fake then .error .value else .ok m.id2word

/-- models coherencemodel.py:193: `is_corpus` of the argument, which may be `None` -/
def peek {D : Type} (ok : D → Bool) : Option (Src D) → Bool × Option (Src D)
  | none => (false, none)
  | some c => ((isCorpus ok c).1, some (isCorpus ok c).2)

/-- models coherencemodel.py:192-209: the corpus and the texts that are kept -/
def sources {D T : Type} (ok : D → Bool) (doc2bow : T → D) (a : Args D T) (dict : Mapping) :
    Except Err (Option (Src D) × Option (Src T)) :=
  if a.coherence ∈ booleanDocumentBased then
    if (peek ok a.corpus).1 then .ok ((peek ok a.corpus).2, a.texts)
    else match a.texts with
      | some t =>
        if t.read.1 = [] ∨ dict = .dictionary then .ok (some (.seq (t.read.1.map doc2bow)), some t.read.2)
        else .error .attribute
      | none => .error .value
  else if a.coherence = "c_w2v" ∧ a.keyedVectors = true then .ok (a.corpus, a.texts)
  else if a.coherence ∈ slidingWindowBased then
    if a.texts.isNone then .error .value else .ok (a.corpus, a.texts)
  else .error .value

/-- models coherencemodel.py:163-217 `__init__` with 427-438; `cpus` is `mp.cpu_count()` -/
def construct {D T : Type} (ok : D → Bool) (doc2bow : T → D) (cpus : Int) (a : Args D T) : Except Err (CModel D T) := do
  let dict ← checkArgs a
  let window ← match a.windowSize with
    | some w => .ok (some w)
    | none => match slidingWindowSizes a.coherence with
      | none => .error .key
      | some w => .ok w
  let src ← sources ok doc2bow a dict
  .ok {
    coherence := a.coherence, windowSize := window, corpus := src.1, texts := src.2, keyedVectors := a.keyedVectors
    topn := a.topn, model := a.model
    topics := match a.topics with
      | some t => some t
      | none => a.model.map fun m => topicsOf m a.topn
    processes := if a.processes ≥ 1 then a.processes else max 1 (cpus - 1) }

/-- models coherencemodel.py:531-546 `estimate_probabilities`: the documents or the texts it goes through (the texts are
not looked at if word vectors are given) -/
def estimate {D T : Type} (c : CModel D T) : (List D × List T) × CModel D T :=
  if c.coherence ∈ booleanDocumentBased then
    match c.corpus with
    | none => (([], []), c)
    | some s => ((s.read.1, []), { c with corpus := some s.read.2 })
  else if c.coherence = "c_w2v" ∧ c.keyedVectors = true then (([], []), c)
  else match c.texts with
    | none => (([], []), c)
    | some s => (([], s.read.1), { c with texts := some s.read.2 })

/-- What the first `n` estimations of an object go through. -/
def estimations {D T : Type} : Nat → CModel D T → List (List D × List T)
  | 0, _ => []
  | n + 1, c => (estimate c).1 :: estimations n (estimate c).2

/-- models the getter of `topics`, coherencemodel.py:412-415 -/
def shown {D T : Type} (c : CModel D T) : Option (List (List Nat)) :=
  c.topics.map fun ts => if (ts.headD []).length > c.topn then ts.map fun t => t.take c.topn else ts

/-- models the setter of `topn`, coherencemodel.py:378-390, with the setter of `model`, 350-358; `none` is `ValueError`.
The topics are not `None`, and there is at least one. -/
def setTopn {D T : Type} (c : CModel D T) (topn : Nat) : Option (CModel D T) :=
  let expand := ((c.topics.getD []).headD []).length < topn
  match c.model with
  | some m => some { c with topn := topn, topics := if expand then some (topicsOf m topn) else c.topics }
  | none => if expand then none else some { c with topn := topn }

end Verif.Coherence.Init
