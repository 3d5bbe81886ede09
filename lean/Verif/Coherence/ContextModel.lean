import Verif.Coherence.MeasureModel
import Verif.Py.Dict
import Mathlib.Analysis.SpecialFunctions.Sqrt

/-!
# Context vectors (`cosine_similarity`, gensim/topic_coherence/indirect_confirmation_measure.py)

Words are ids.  `sim` is the normalized log ratio of a pair, for words that are all seen (no exceptions,
no infinities).  `gamma` is a natural number (1 in `CoherenceModel`).
-/

namespace Verif.Coherence

/-- A segment: one word, or a list of words. -/
inductive Seg
  | one (w : Nat)
  | many (ws : List Nat)
  deriving DecidableEq

/-- Models lines 289-290 of gensim/topic_coherence/indirect_confirmation_measure.py. -/
def Seg.words : Seg → List Nat
  | .one w => [w]
  | .many ws => ws

/-- Models `_map_to_contiguous`, gensim/topic_coherence/indirect_confirmation_measure.py 330-337. -/
def mapToContiguous (ids : List Nat) : PyDict Nat Nat × Nat :=
  ids.foldl (fun s i => if s.1.contains i then s else (s.1.set i s.2, s.2 + 1)) ([], 0)

/-- The two caches, gensim/topic_coherence/indirect_confirmation_measure.py 244-245. -/
structure Caches where
  sims : PyDict (Nat × Nat) ℝ
  vectors : PyDict (Seg × List Nat) (Nat → ℝ)

/-- `tuple(sorted((a, b)))`. -/
def sortedPair (a b : Nat) : Nat × Nat := if a ≤ b then (a, b) else (b, a)

/-- Models lines 295-298 of gensim/topic_coherence/indirect_confirmation_measure.py for one pair: look the
similarity up, computing it if it is not cached. -/
noncomputable def cachedSim (sim : Nat × Nat → ℝ) (cache : PyDict (Nat × Nat) ℝ) (pair : Nat × Nat) :
    ℝ × PyDict (Nat × Nat) ℝ :=
  match cache.get? pair with
  | some v => (v, cache)
  | none => (sim pair, cache.set pair (sim pair))

/-- Models the inner loop, gensim/topic_coherence/indirect_confirmation_measure.py 294-298. -/
noncomputable def addWord (sim : Nat × Nat → ℝ) (gamma idx wj : Nat) :
    List Nat → (Nat → ℝ) × PyDict (Nat × Nat) ℝ → (Nat → ℝ) × PyDict (Nat × Nat) ℝ
  | [], s => s
  | wi :: rest, s =>
    let r := cachedSim sim s.2 (sortedPair wi wj)
    addWord sim gamma idx wj rest (Function.update s.1 idx (s.1 idx + r.1 ^ gamma), r.2)

/-- Models `_make_seg`, gensim/topic_coherence/indirect_confirmation_measure.py 288-300 (the words of the
topic are in the mapping). -/
noncomputable def makeSeg (sim : Nat × Nat → ℝ) (gamma : Nat) (mapping : PyDict Nat Nat) (seg : Seg) :
    List Nat → (Nat → ℝ) × PyDict (Nat × Nat) ℝ → (Nat → ℝ) × PyDict (Nat × Nat) ℝ
  | [], s => s
  | wj :: rest, s =>
    makeSeg sim gamma mapping seg rest (addWord sim gamma (mapping.getD wj 0) wj seg.words s)

/-- Models `compute_context_vector`, gensim/topic_coherence/indirect_confirmation_measure.py 266-271. -/
noncomputable def contextVector (sim : Nat × Nat → ℝ) (gamma : Nat) (mapping : PyDict Nat Nat)
    (seg : Seg) (topic : List Nat) (c : Caches) : (Nat → ℝ) × Caches :=
  match c.vectors.get? (seg, topic) with
  | some v => (v, c)
  | none =>
    let r := makeSeg sim gamma mapping seg topic (fun _ => 0, c.sims)
    (r.1, { sims := r.2, vectors := c.vectors.set (seg, topic) r.1 })

/-- Models `cv1.T.dot(cv2)[0, 0]`, for vectors with `n` entries. -/
noncomputable def dotN (n : Nat) (u v : Nat → ℝ) : ℝ := ((List.range n).map fun i => u i * v i).sum

/-- Models `_cossim`, gensim/topic_coherence/indirect_confirmation_measure.py 322-327; `none` is the `nan`
of a zero vector. -/
noncomputable def cossim (n : Nat) (u v : Nat → ℝ) : Option ℝ :=
  if √(dotN n u u) * √(dotN n v v) = 0 then none
  else some (dotN n u v / (√(dotN n u u) * √(dotN n v v)))

/-- Models the loop over the segments of one topic,
gensim/topic_coherence/indirect_confirmation_measure.py 175-178. -/
noncomputable def topicSims (sim : Nat × Nat → ℝ) (gamma : Nat) (mapping : PyDict Nat Nat × Nat)
    (topic : List Nat) : List (Nat × List Nat) → Caches → List (Option ℝ) × Caches
  | [], c => ([], c)
  | s :: rest, c =>
    let r1 := contextVector sim gamma mapping.1 (Seg.one s.1) topic c
    let r2 := contextVector sim gamma mapping.1 (Seg.many s.2) topic r1.2
    let r := topicSims sim gamma mapping topic rest r2.2
    (cossim mapping.2 r1.1 r2.1 :: r.1, r.2)

/-- Models the loop over the topics, gensim/topic_coherence/indirect_confirmation_measure.py 172-180; a
topic with a `nan` has coherence `nan`. -/
noncomputable def cosineLoop (sim : Nat × Nat → ℝ) (gamma : Nat) (mapping : PyDict Nat Nat × Nat) :
    List (List Nat × List (Nat × List Nat)) → Caches → List (Option ℝ)
  | [], _ => []
  | t :: rest, c =>
    let r := topicSims sim gamma mapping t.1 t.2 c
    arithmeticMean r.1 :: cosineLoop sim gamma mapping rest r.2

/-- Models `cosine_similarity`, gensim/topic_coherence/indirect_confirmation_measure.py 169-182. -/
noncomputable def cosineSimilarity (sim : Nat × Nat → ℝ) (gamma : Nat) (topics : List (List Nat))
    (segmented : List (List (Nat × List Nat))) : List (Option ℝ) :=
  cosineLoop sim gamma (mapToContiguous topics.flatten) (topics.zip segmented)
    { sims := [], vectors := [] }

end Verif.Coherence
