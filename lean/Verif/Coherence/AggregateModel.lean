import Mathlib.Analysis.SpecialFunctions.Pow.Real
import Mathlib.Algebra.BigOperators.Group.List.Basic

/-!
# Aggregation of the confirmations of a topic

Models `aggregate_segment_sims` (gensim/topic_coherence/direct_confirmation_measure.py:87-125) over exact real numbers.
-/

namespace Verif.Aggregate

/-- `np.mean` of a list; `none` is NaN (direct_confirmation_measure.py:118). -/
noncomputable def mean (sims : List ℝ) : Option ℝ := if sims = [] then none else some (sims.sum / sims.length)

/-- `np.std` of a list (direct_confirmation_measure.py:121): the root of the mean squared distance from the mean. -/
noncomputable def std (sims : List ℝ) : Option ℝ :=
  match mean sims with
  | some m => (mean (sims.map fun x => (x - m) * (x - m))).map Real.sqrt
  | none => none

/-- An entry of the result. -/
inductive Stat where
  | num (x : Option ℝ)
  | count (n : ℕ)

/-- What is returned: one value, or a tuple. -/
inductive Result where
  | value (s : Stat)
  | tuple (l : List Stat)

/-- `aggregate_segment_sims(segment_sims, with_std, with_support)` (direct_confirmation_measure.py:118-125). -/
noncomputable def aggregate (sims : List ℝ) (withStd withSupport : Bool) : Result :=
  let stats := [Stat.num (mean sims)]
  let stats := if withStd then stats ++ [.num (std sims)] else stats
  let stats := if withSupport then stats ++ [.count sims.length] else stats
  match stats with
  | [s] => .value s
  | l => .tuple l

end Verif.Aggregate
