import Verif.Poincare.BallModel
import Mathlib.Analysis.Real.Sqrt
import Mathlib.Analysis.InnerProductSpace.Calculus

/-!
# Model of the queries of Poincaré embeddings by key, number or vector (`gensim/models/poincare.py` 890-933,
1032-1070, 1173-1294) and of the check of gradients (484-504)

Unlike in `BallModel`, the results are the floats of numpy, with `nan` and `inf`, since the arguments may lie
outside the ball.
-/

namespace Verif.Poincare

variable {n : ℕ}

/-- what a query is asked about -/
inductive Arg (n : ℕ) where
  | key (w : List Char)
  | int (k : ℤ)
  | vec (v : Vec n)

/-- a float of numpy -/
inductive Num where
  | real (x : ℝ)
  | nan
  | inf

/-- the keys in the order of their rows, and the rows -/
structure Emb (n : ℕ) where
  keys : List (List Char)
  vectors : List (Vec n)

/-- models keyedvectors.py:390-399 `get_index` (a vector is not hashable): `none` is the exception -/
def getIndex (e : Emb n) : Arg n → Option Nat
  | .key w => e.keys.idxOf? w
  | .int k => if 0 ≤ k ∧ k < e.keys.length then some k.toNat else none
  | .vec _ => none

/-- models keyedvectors.py:401-440 `get_vector` -/
def getVector (e : Emb n) (a : Arg n) : Option (Vec n) := (getIndex e a).bind fun i => e.vectors[i]?

/-- models `np.arccosh(1 + 2 * (num / den))`, poincare.py:929-933: below 1 the result is `nan`, a division by zero
gives `inf` or `nan` -/
noncomputable def arccosh (num den : ℝ) : Num :=
  open Classical in
  if den = 0 then (if num = 0 then .nan else .inf)
  else if 1 + 2 * (num / den) < 1 then .nan
  else .real (Real.arcosh (1 + 2 * (num / den)))

/-- the vector all of whose components are `k` -/
noncomputable def constant (n : ℕ) (k : ℝ) : Vec n := WithLp.toLp 2 fun _ => k

/-- models one entry of `vector_distance_batch`, poincare.py:926-933.  A number is broadcast to a vector in the
subtraction, but its own norm is its absolute value. -/
noncomputable def entry : Arg n → Vec n → Num
  | .vec v, u => arccosh (‖v - u‖ ^ 2) ((1 - ‖v‖ ^ 2) * (1 - ‖u‖ ^ 2))
  | .int k, u => arccosh (‖constant n k - u‖ ^ 2) ((1 - |(k : ℝ)| ^ 2) * (1 - ‖u‖ ^ 2))
  | .key _, _ => .nan

/-- models poincare.py:1215-1218 and 1260-1263: keys are looked up, anything else is taken as it is -/
def resolve (e : Emb n) : Arg n → Option (Arg n)
  | .key w => (getVector e (.key w)).map .vec
  | a => some a

/-- models poincare.py:1068-1070 and 907, `distance` -/
noncomputable def distance (e : Emb n) (a b : Arg n) : Option Num :=
  (getVector e a).bind fun v => (getVector e b).map fun u => entry (.vec v) u

/-- models poincare.py:1219-1223: the vectors of the other nodes, all of them for an empty list -/
def otherVectors (e : Emb n) (others : List (Arg n)) : Option (List (Vec n)) :=
  if others.isEmpty then some e.vectors else others.mapM (getVector e)

/-- models poincare.py:1215-1224 `distances` -/
noncomputable def distances (e : Emb n) (a : Arg n) (others : List (Arg n)) : Option (List Num) :=
  (resolve e a).bind fun x => (otherVectors e others).map fun us => us.map (entry x)

/-- models poincare.py:1264, `np.linalg.norm` of what was resolved -/
noncomputable def normOf : Arg n → ℝ
  | .vec v => ‖v‖
  | .int k => |(k : ℝ)|
  | .key _ => 0

/-- models poincare.py:1260-1264 `norm` -/
noncomputable def norm (e : Emb n) (a : Arg n) : Option ℝ := (resolve e a).map normOf

/-- models poincare.py:1294 `difference_in_hierarchy` -/
noncomputable def differenceInHierarchy (e : Emb n) (a b : Arg n) : Option ℝ :=
  (norm e b).bind fun y => (norm e a).map fun x => y - x

/-! ## The check of gradients -/

/-- models poincare.py:493-501: the largest absolute difference of a component over all relations; every relation
gives the list of the differences of its components -/
noncomputable def maxDiff (diffs : List (List ℝ)) : ℝ :=
  open Classical in
  diffs.foldl (fun mx ds => if mx < (ds.map abs).foldl max 0 then (ds.map abs).foldl max 0 else mx) 0

/-- models poincare.py:502-504: the assertion -/
def checkPasses (diffs : List (List ℝ)) (tol : ℝ) : Prop := maxDiff diffs < tol

/-- the components of a vector -/
def components (v : Vec n) : List ℝ := List.ofFn fun i => v i

end Verif.Poincare
