import Mathlib.Tactic.Common

/-!
# Coherence segmentations (`gensim/topic_coherence/segmentation.py`)

Topics are lists of word ids; a segmentation maps every topic, in order, to a list of pairs.
-/

namespace Verif.Coherence

variable {α : Type}

/-- Models `s_one_pre`, gensim/topic_coherence/segmentation.py 45-53: for `w_prime_index, w_prime`
in `enumerate(top_words[1:])` and every `w_star` in `top_words[:w_prime_index + 1]`. -/
def sOnePreTopic (top : List α) : List (α × α) :=
  (top.drop 1).zipIdx.flatMap fun p => (top.take (p.2 + 1)).map fun wStar => (p.1, wStar)

/-- Models the per-topic loop of `s_one_one`, gensim/topic_coherence/segmentation.py 85-95. -/
def sOneOneTopic (top : List α) : List (α × α) :=
  top.zipIdx.flatMap fun p => top.zipIdx.flatMap fun q =>
    if p.2 = q.2 then [] else [(p.1, q.1)]

/-- Models the per-topic loop of `s_one_set`, gensim/topic_coherence/segmentation.py 127-134. -/
def sOneSetTopic (top : List α) : List (α × List α) :=
  top.map fun w => (w, top)

/-- Models the loop over topics of the three functions, gensim/topic_coherence/segmentation.py
45-53, 85-95, 127-134. -/
def sOnePre (topics : List (List α)) : List (List (α × α)) := topics.map sOnePreTopic

/-- Models `s_one_one`, gensim/topic_coherence/segmentation.py 56-95. -/
def sOneOne (topics : List (List α)) : List (List (α × α)) := topics.map sOneOneTopic

/-- Models `s_one_set`, gensim/topic_coherence/segmentation.py 98-134. -/
def sOneSet (topics : List (List α)) : List (List (α × List α)) := topics.map sOneSetTopic

end Verif.Coherence
