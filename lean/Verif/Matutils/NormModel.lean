import Verif.Py.Dict
import Mathlib.Analysis.Real.Sqrt
import Mathlib.Algebra.BigOperators.Group.Finset.Basic

/-!
# Model of `gensim/matutils.py`: norms, similarities and distances

Numbers are real numbers (no rounding).  Only the gensim sparse format, one-dimensional dense vectors
and Python sets are modelled; scipy matrices are converted by the code to one of those.
-/

namespace Verif.Matutils
open Verif PyDict

/-- the `norm` argument of `unitvec` -/
inductive Norm
  | l1 | l2 | unique
deriving DecidableEq

/-- the sum of a Python generator -/
noncomputable def pySum (l : List ℝ) : ℝ := l.foldl (· + ·) 0

/-- models matutils.py:771-776, the length of a sparse vector -/
noncomputable def sparseLen (norm : Norm) (vec : List (Nat × ℝ)) : ℝ :=
  match norm with
  | .l1 => pySum (vec.map (fun p => |p.2|))
  | .l2 => √(pySum (vec.map (fun p => p.2 ^ 2)))
  | .unique => vec.length

/-- models matutils.py:640-659 `ret_normalized_vec` -/
noncomputable def retNormalized (vec : List (Nat × ℝ)) (len : ℝ) : List (Nat × ℝ) :=
  if len ≠ 1 then vec.map (fun p => (p.1, p.2 / len)) else vec

/-- models matutils.py:762-781 `unitvec` on the gensim sparse format; `none`: the assertion of line 777 -/
noncomputable def unitvecSparse (norm : Norm) (vec : List (Nat × ℝ)) : Option (List (Nat × ℝ)) :=
  match vec with
  | [] => some []
  | vec =>
    let len := sparseLen norm vec
    if 0 < len then some (retNormalized vec len) else none

/-- models matutils.py:740-748, the length of a dense vector -/
noncomputable def denseLen (norm : Norm) (vec : List ℝ) : ℝ :=
  match norm with
  | .l1 => pySum (vec.map (fun x => |x|))
  | .l2 => if vec.length = 0 then 0 else √(pySum (vec.map (fun x => x ^ 2)))
  | .unique => (vec.filter (fun x => x ≠ 0)).length

/-- models matutils.py:739-760 `unitvec` on a dense vector -/
noncomputable def unitvecDense (norm : Norm) (vec : List ℝ) : List ℝ :=
  let len := denseLen norm vec
  if 0 < len then vec.map (fun x => (1 / len) * x) else vec

/-- models matutils.py:786-814 `cossim`; `none`: the assertion of line 809 -/
noncomputable def cossim (vec1 vec2 : List (Nat × ℝ)) : Option ℝ :=
  let v1 : PyDict Nat ℝ := ofPairs vec1
  let v2 : PyDict Nat ℝ := ofPairs vec2
  if v1 = [] ∨ v2 = [] then some 0
  else
    let l1 := √(pySum ((values v1).map (fun x => x * x)))
    let l2 := √(pySum ((values v2).map (fun x => x * x)))
    if 0 < l1 ∧ 0 < l2 then
      let (a, b) := if v2.length < v1.length then (v2, v1) else (v1, v2)
      some (pySum (a.map (fun p => p.2 * getD b p.1 0)) / (l1 * l2))
    else none

/-- models matutils.py:939-946 `hellinger` on bags of words; `indices` is a set, summed in an
unspecified order, which does not matter here -/
noncomputable def hellingerBow (vec1 vec2 : List (Nat × ℝ)) : ℝ :=
  let v1 : PyDict Nat ℝ := ofPairs vec1
  let v2 : PyDict Nat ℝ := ofPairs vec2
  √(0.5 * ∑ i ∈ (keys v1 ++ keys v2).toFinset, (√(getD v1 i 0) - √(getD v2 i 0)) ^ 2)

/-- models matutils.py:975-984 `jaccard` on bags of words; `none`: ZeroDivisionError -/
noncomputable def jaccardBow (vec1 vec2 : List (Nat × ℝ)) : Option ℝ :=
  let union := pySum (vec1.map (·.2)) + pySum (vec2.map (·.2))
  let v1 : PyDict Nat ℝ := ofPairs vec1
  let v2 : PyDict Nat ℝ := ofPairs vec2
  let inter := pySum (v1.map (fun p => min p.2 (getD v2 p.1 0)))
  if union = 0 then none else some (1 - inter / union)

/-- models matutils.py:985-995 `jaccard` on two collections of items; `none`: ZeroDivisionError -/
noncomputable def jaccardSets {α : Type} [DecidableEq α] (s t : Finset α) : Option ℝ :=
  if (s ∪ t).card = 0 then none else some (1 - ((s ∩ t).card : ℝ) / ((s ∪ t).card : ℝ))

/-- models matutils.py:998-1019 `jaccard_distance` -/
noncomputable def jaccardDistance {α : Type} [DecidableEq α] (s t : Finset α) : ℝ :=
  if (s ∪ t).card = 0 then 1 else 1 - ((s ∩ t).card : ℝ) / ((s ∪ t).card : ℝ)

end Verif.Matutils
