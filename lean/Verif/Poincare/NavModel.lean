import Mathlib.Order.Defs.LinearOrder

/-!
# The hierarchy of a Poincaré embedding (`closest_child`, `closest_parent`, `descendants`, `ancestors`,
`most_similar`, gensim/models/poincare.py)

Nodes are their numbers below `n`; `norm i` is the norm of the vector of node `i` and `dist i j` the
distance of the vectors of `i` and `j`.
-/

namespace Verif.Poincare

variable {R : Type} [LinearOrder R]

/-- Models `np.ma.argmin` of a masked array (of finite numbers), used in gensim/models/poincare.py
956-957 and 981-982: the first entry that is least among those not masked. -/
def argminMasked (n : Nat) (d : Nat → R) (mask : Nat → Bool) : Option Nat :=
  (List.range n).foldl (fun best i =>
    if mask i then best
    else match best with
      | none => some i
      | some b => if d i < d b then some i else some b) none

/-- Models `closest_child`, gensim/models/poincare.py 950-958. -/
def closestChild (n : Nat) (norm : Nat → R) (dist : Nat → Nat → R) (node : Nat) : Option Nat :=
  let mask := fun i => decide (norm i ≤ norm node)
  if (List.range n).all mask then none else argminMasked n (dist node) mask

/-- Models `closest_parent`, gensim/models/poincare.py 975-983. -/
def closestParent (n : Nat) (norm : Nat → R) (dist : Nat → Nat → R) (node : Nat) : Option Nat :=
  let mask := fun i => decide (norm node ≤ norm i)
  if (List.range n).all mask then none else argminMasked n (dist node) mask

/-- Models the loop of `descendants`, gensim/models/poincare.py 1004-1007, with `depth` rounds left.
`none` is the `TypeError` of `closest_child(None)` (line 950). -/
def descendantsLoop (n : Nat) (norm : Nat → R) (dist : Nat → Nat → R) :
    Nat → Option Nat → List (Option Nat) → Option (List (Option Nat))
  | 0, _, acc => some acc
  | _ + 1, none, _ => none
  | depth + 1, some node, acc =>
    descendantsLoop n norm dist depth (closestChild n norm dist node)
      (acc ++ [closestChild n norm dist node])

/-- Models `descendants`, gensim/models/poincare.py 1001-1008. -/
def descendants (n : Nat) (norm : Nat → R) (dist : Nat → Nat → R) (node maxDepth : Nat) :
    Option (List (Option Nat)) :=
  descendantsLoop n norm dist maxDepth (some node) []

/-- Models the loop of `ancestors`, gensim/models/poincare.py 1026-1029, running at most `fuel` rounds;
`none` means that it still runs. -/
def ancestorsLoop (n : Nat) (norm : Nat → R) (dist : Nat → Nat → R) :
    Nat → Option Nat → List Nat → Option (List Nat)
  | _, none, acc => some acc
  | 0, some _, _ => none
  | fuel + 1, some a, acc => ancestorsLoop n norm dist fuel (closestParent n norm dist a) (acc ++ [a])

/-- Models `ancestors`, gensim/models/poincare.py 1024-1030. -/
def ancestors (n : Nat) (norm : Nat → R) (dist : Nat → Nat → R) (fuel node : Nat) : Option (List Nat) :=
  ancestorsLoop n norm dist fuel (closestParent n norm dist node) []

/-- Models `most_similar`, gensim/models/poincare.py 1148-1171 (the nodes of the result).  `order` is the
answer of `matutils.argsort`, asked for `1 + topn` indexes or for all; `nodeIndex` is `none` for a
vector. -/
def mostSimilar (order : List Nat) (nodeIndex : Option Nat) (topn : Option Nat) : List Nat :=
  if topn = some 0 then []
  else
    let result := order.filter fun index =>
      (nodeIndex.getD 0 == 0) || decide (some index ≠ nodeIndex)
    match topn with
    | none => result
    | some k => result.take k

end Verif.Poincare
