import Verif.Py.Sort
import Mathlib.Algebra.Order.Field.Rat

/-!
# Evaluation of a Poincaré embedding (`ReconstructionEvaluation`, `LinkPredictionEvaluation`,
gensim/models/poincare.py)

Fractions are exact.
-/

namespace Verif.Poincare

variable {R : Type} [LinearOrder R]

/-- Models the rank of one positive relation `p`, gensim/models/poincare.py 1454-1458 (`excluded` is
the list of positive relations) and 1563-1568 (`excluded` is that of the unknown and the known
relations).  `n` is the number of nodes, `d` their distances from the node evaluated.  (numpy: when every
node is excluded the sum is masked; here the rank is then 1.) -/
def rankOf (n : Nat) (d : Nat → R) (excluded : List Nat) (p : Nat) : Nat :=
  (List.range n).countP (fun j => !decide (j ∈ excluded) && decide (d j < d p)) + 1

/-- Models `ranks`, gensim/models/poincare.py 1458 and 1568. -/
def ranks (n : Nat) (d : Nat → R) (positive excluded : List Nat) : List Nat :=
  positive.map (rankOf n d excluded)

/-- Models `map_ranks` and the average precision, gensim/models/poincare.py 1459-1460 and 1569-1570. -/
def avgPrecision (rs : List Nat) : ℚ :=
  let mapRanks := (pySort (fun a b => decide (a ≤ b)) rs).zipIdx.map fun p => p.1 + p.2
  let sorted := pySort (fun a b => decide (a ≤ b)) mapRanks
  (sorted.zipIdx.map fun p => ((p.2 + 1 : Nat) : ℚ) / (p.1 : ℚ)).sum / (rs.length : ℚ)

/-- Models the loop over the items, gensim/models/poincare.py 1496-1507 and 1606-1618: the items that are
evaluated.  `i` is the number given to the next item by `enumerate`. -/
def evaluated (hasRelations : Nat → Bool) (maxN : Option Nat) : Nat → List Nat → List Nat
  | _, [] => []
  | i, item :: rest =>
    if hasRelations item then
      match maxN with
      | none => item :: evaluated hasRelations maxN (i + 1) rest
      | some m => if i > m then [item] else item :: evaluated hasRelations maxN (i + 1) rest
    else evaluated hasRelations maxN (i + 1) rest

end Verif.Poincare
