import Mathlib.Analysis.SpecialFunctions.Pow.Real
import Mathlib.Data.List.Lex
import Verif.Py.Sort

/-!
# Model of the Levenshtein similarities

Models `/repo/gensim/similarities/levenshtein.py`. The distance is computed by an external library: it is a parameter,
tied to the number of edits by a contract in the theorems. Terms are lists of code points. Floats are reals.
-/

namespace Verif.Lev

open Verif

/-- A term: its code points. -/
abbrev Term := List Nat

/-- What can be raised. -/
inductive Err | assertion | zeroDivision | value
  deriving DecidableEq, Repr

/-- `levdist(t1, t2, max_distance)` (`levenshtein.py` 46-51). -/
def levdist (lib : Term → Term → Nat) (t1 t2 : Term) (maxDistance : Int) : Nat :=
  let distance := lib t1 t2
  if (distance : Int) > maxDistance then max t1.length t2.length else distance

/-- `levsim(t1, t2, alpha, beta, min_similarity)` (`levenshtein.py` 88-99). -/
noncomputable def levsim (lib : Term → Term → Nat) (t1 t2 : Term) (alpha beta minSimilarity : ℝ) : Except Err ℝ :=
  if ¬ 0 ≤ alpha then .error .assertion
  else if ¬ 0 ≤ beta then .error .assertion
  else
    let maxLengths := max t1.length t2.length
    if maxLengths = 0 then .ok 1
    else
      let minSimilarity := max (min minSimilarity 1) 0
      if alpha = 0 ∨ beta = 0 then .error .zeroDivision
      else
        let maxDistance := ⌊(maxLengths : ℝ) * (1 - (minSimilarity / alpha) ^ (1 / beta))⌋
        let distance := levdist lib t1 t2 maxDistance
        .ok (alpha * (1 - (distance : ℝ) / maxLengths) ^ beta)

/-- The order of `sorted(..., reverse=True)` on pairs of a similarity and a term. -/
noncomputable def before (a b : ℝ × Term) : Bool :=
  open Classical in decide (b.1 < a.1 ∨ (a.1 = b.1 ∧ b.2 ≤ a.2))

/-- `LevenshteinSimilarityIndex` (`levenshtein.py` 132-137); `terms` is `dictionary.values()`. -/
structure Index where
  terms : List Term
  alpha : ℝ := 1.8
  beta : ℝ := 5
  threshold : ℝ := 0

/-- `LevenshteinSimilarityIndex.most_similar` (`levenshtein.py` 139-150), for an integer `topn`. -/
noncomputable def mostSimilar (lib : Term → Term → Nat) (ix : Index) (t1 : Term) (topn : Int) :
    Except Err (List (Term × ℝ)) := do
  let similarities ← (ix.terms.filter fun t2 => t1 ≠ t2).mapM fun t2 => do
    let s ← levsim lib t1 t2 ix.alpha ix.beta ix.threshold
    return (s, t2)
  let ranked := (pySort before similarities).filterMap fun p =>
    open Classical in if p.1 > 0 then some (p.2, p.1) else none
  if topn < 0 then .error .value else return ranked.take topn.toNat

end Verif.Lev
