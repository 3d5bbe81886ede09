import Verif.Py.Dict
import Verif.Matutils.NormModel
import Mathlib.Analysis.SpecialFunctions.Log.Basic

/-! # Model of `gensim/models/logentropy_model.py` -/

namespace Verif.LogEntropy
open Verif PyDict Matutils

/-- `d[k] = d.get(k, 0) + v` -/
noncomputable def bump (d : PyDict Nat ℝ) (k : Nat) (v : ℝ) : PyDict Nat ℝ := set d k (getD d k 0 + v)

/-- models logentropy_model.py:92-99, the first pass: `glob_freq` -/
noncomputable def globFreq (corpus : List (List (Nat × ℝ))) : PyDict Nat ℝ :=
  corpus.foldl (fun d doc => doc.foldl (fun d p => bump d p.1 p.2) d) []

/-- models logentropy_model.py:116: `p * log(p)` for the share `p` of an entry -/
noncomputable def share (g : PyDict Nat ℝ) (p : Nat × ℝ) : ℝ :=
  (p.2 / getD g p.1 0) * Real.log (p.2 / getD g p.1 0)

/-- models logentropy_model.py:114-117, the second pass: `self.entr` before its last step -/
noncomputable def sumShares (g : PyDict Nat ℝ) (corpus : List (List (Nat × ℝ))) : PyDict Nat ℝ :=
  corpus.foldl (fun d doc => doc.foldl (fun d p => bump d p.1 (share g p)) d) []

/-- models logentropy_model.py:81-123 `initialize`; `none` is the `ValueError` of line 119.  `second` is
what the second iteration over the corpus yields: the same documents, or nothing for a generator.
`doc_no` starts at -1, `doc_no2` at 0. -/
noncomputable def train (corpus second : List (List (Nat × ℝ))) : Option (PyDict Nat ℝ) :=
  let docNo : Int := (corpus.length : Int) - 1
  let docNo2 : Int := if second.length = 0 then 0 else (second.length : Int) - 1
  if docNo2 ≠ docNo then none
  else some ((sumShares (globFreq corpus) second).map
    fun p => (p.1, 1 + p.2 / Real.log ((corpus.length : ℝ) + 1)))

/-- models logentropy_model.py:125-152 `__getitem__` on one vector -/
noncomputable def transform (entr : PyDict Nat ℝ) (normalize : Bool) (bow : List (Nat × ℝ)) :
    Option (List (Nat × ℝ)) :=
  let v := (bow.filter fun p => contains entr p.1).map
    fun p => (p.1, Real.log (p.2 + 1) * getD entr p.1 0)
  if normalize then unitvecSparse .l2 v else some v

end Verif.LogEntropy
