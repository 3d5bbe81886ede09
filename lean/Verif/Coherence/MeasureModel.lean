import Verif.Coherence.AccumModel
import Verif.Coherence.SegmentModel
import Mathlib.Analysis.SpecialFunctions.Log.Basic

/-!
# Direct confirmation measures and aggregation
(gensim/topic_coherence/direct_confirmation_measure.py, aggregation.py, probability_estimation.py)

Arithmetic is real.  `nan` (the mean of nothing) is `none`.
-/

namespace Verif.Coherence

variable {W : Type} [DecidableEq W]

/-- What the measures see of an accumulator: `accumulator[w]`, `accumulator[a, b]` (`KeyError` = `none`)
and `accumulator.num_docs`, gensim/topic_coherence/text_analysis.py 113-115, 128-143. -/
structure Counts (W : Type) where
  occ : W → Option Nat
  co : W → W → Option Nat
  numDocs : Nat

/-- The counts of a `CorpusAccumulator`. -/
def Index.counts (rel : List W) (s : Index) : Counts W :=
  { occ := s.occurrences rel, co := s.coOccurrences rel, numDocs := s.numDocs }

/-- The counts of a `WordOccurrenceAccumulator`. -/
def Acc.counts (rel : List W) (s : Acc) : Counts W :=
  { occ := s.occurrences rel, co := s.coOccurrences rel, numDocs := s.numDocs }

/-- Models `unique_ids_from_segments` for pairs of ids,
gensim/topic_coherence/probability_estimation.py 255-263 (in the order of first occurrence; a set in the
code). -/
def uniqueIds (segs : List (List (W × W))) : List W :=
  (segs.flatten.flatMap fun p => [p.1, p.2]).dedup

/-- Models `np.mean`: `nan` for the empty list. -/
noncomputable def mean (l : List ℝ) : Option ℝ := if l = [] then none else some (l.sum / l.length)

/-- Models `arithmetic_mean` of the topic coherences, gensim/topic_coherence/aggregation.py 39: `nan` if
one of them is. -/
noncomputable def arithmeticMean (l : List (Option ℝ)) : Option ℝ := (l.mapM id).bind mean

/-- Models the body of the inner loop of `log_conditional_probability`,
gensim/topic_coherence/direct_confirmation_measure.py 70-78; `KeyError` and division by zero give 0.
(The counts of the accumulator used with this measure are Python integers.) -/
noncomputable def logConditional (eps : ℝ) (c : Counts W) (p : W × W) : ℝ :=
  match c.occ p.2, c.co p.1 p.2 with
  | some wStar, some co =>
    if c.numDocs = 0 ∨ wStar = 0 then 0
    else Real.log (((co : ℝ) / c.numDocs + eps) / ((wStar : ℝ) / c.numDocs))
  | _, _ => 0

/-- Models `log_conditional_probability`, gensim/topic_coherence/direct_confirmation_measure.py 65-84
(without the optional statistics). -/
noncomputable def logConditionalProbability (eps : ℝ) (c : Counts W) (segs : List (List (W × W))) :
    List (Option ℝ) :=
  segs.map fun s => mean (s.map (logConditional eps c))

/-- Models lines 191-193 and 202-204 of gensim/topic_coherence/direct_confirmation_measure.py: the log
ratio of one pair.  `none` is a `KeyError` or a division by zero (an exception for Python numbers, an
infinity for numpy numbers). -/
noncomputable def logRatio (eps : ℝ) (c : Counts W) (p : W × W) : Option ℝ :=
  match c.occ p.1, c.occ p.2, c.co p.1 p.2 with
  | some wPrime, some wStar, some co =>
    if c.numDocs = 0 ∨ wPrime = 0 ∨ wStar = 0 then none
    else some (Real.log (((co : ℝ) / c.numDocs + eps)
      / (((wPrime : ℝ) / c.numDocs) * ((wStar : ℝ) / c.numDocs))))
  | _, _, _ => none

/-- Models lines 191-199 of gensim/topic_coherence/direct_confirmation_measure.py: the normalized log
ratio of one pair. -/
noncomputable def logRatioNormalized (eps : ℝ) (c : Counts W) (p : W × W) : Option ℝ :=
  match logRatio eps c p, c.co p.1 p.2 with
  | some numerator, some co =>
    if Real.log ((co : ℝ) / c.numDocs + eps) = 0 then none
    else some (numerator / (-Real.log ((co : ℝ) / c.numDocs + eps)))
  | _, _ => none

/-- Models `log_ratio_measure`, gensim/topic_coherence/direct_confirmation_measure.py 186-210 (without the
optional statistics); `none` if it raises. -/
noncomputable def logRatioMeasure (eps : ℝ) (normalize : Bool) (c : Counts W)
    (segs : List (List (W × W))) : Option (List (Option ℝ)) :=
  segs.mapM fun s =>
    (s.mapM (if normalize then logRatioNormalized eps c else logRatio eps c)).map mean

/-- Models `CoherenceModel(topics=…, corpus=…, coherence='u_mass').get_coherence()`,
gensim/models/coherencemodel.py 51-56, 534-535, 568-584, 601-613.  `rel` is the set of relevant ids. -/
noncomputable def uMass {C : Type} (eps : ℝ) (rel : List W) (topics : List (List W))
    (corpus : List (List (W × C))) : Option (Option ℝ) :=
  (accumulateCorpus rel (Index.init rel) corpus).map fun s =>
    arithmeticMean (logConditionalProbability eps (s.counts rel) (sOnePre topics))

/-- Models `get_coherence()` for the coherences `'c_uci'` and `'c_npmi'` with one process,
gensim/models/coherencemodel.py 69-80, 537-544, 568-584, 601-613. -/
noncomputable def uciNpmi (eps : ℝ) (normalize : Bool) (rel : List W) (window : Nat)
    (topics texts : List (List W)) : Option (Option ℝ) :=
  (logRatioMeasure eps normalize ((accumulate rel window Acc.init texts).counts rel)
    (sOneOne topics)).map arithmeticMean

end Verif.Coherence
