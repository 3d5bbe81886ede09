import Verif.Dictionary.Model
import Verif.Matutils.NormModel
import Mathlib.Analysis.SpecialFunctions.Log.Base

/-!
# Model of `gensim/models/tfidfmodel.py` and `gensim/models/logentropy_model.py`

Numbers are real numbers (no rounding); term ids are natural numbers; `none` is a Python exception.
Weighting functions given by the user are arbitrary functions.
-/

namespace Verif.Tfidf
open Verif PyDict Matutils

/-! ### SMART codes -/

/-- models tfidfmodel.py:29-105 `resolve_weights` on a string; `none` is `ValueError`.  A code of the
form `ddd.qqq` (lines 73-82) does not have length 3, so it is rejected either way. -/
def resolveWeights (s : List Char) : Option (List Char) :=
  match s with
  | [tf, df, n] =>
    if ['b', 't', 'n', 'a', 'l', 'd', 'L'].contains tf then
      if ['x', 'n', 'f', 't', 'p'].contains df then
        if ['x', 'n', 'c', 'u', 'b'].contains n then
          some [if tf = 't' then 'n' else tf, if df = 'x' then 'n' else df, if n = 'x' then 'n' else n]
        else none
      else none
    else none
  | _ => none

/-- models tfidfmodel.py:156-183 `smartirs_wlocal` on the array of term frequencies; `none`: the maximum
of an empty array raises `ValueError` (line 179) -/
noncomputable def smartLocal (scheme : Char) (tfs : List ℝ) : Option (List ℝ) :=
  match scheme with
  | 'n' => some tfs
  | 'l' => some (tfs.map fun tf => 1 + Real.logb 2 tf)
  | 'd' => some (tfs.map fun tf => 1 + Real.logb 2 (1 + Real.logb 2 tf))
  | 'a' => match tfs with
    | [] => none
    | t :: ts => some ((t :: ts).map fun tf => 0.5 + 0.5 * tf / ts.foldl max t)
  | 'b' => some (tfs.map fun tf => if tf = 0 then 0 else 1)
  | 'L' => some (tfs.map fun tf =>
      (1 + Real.logb 2 tf) / (1 + Real.logb 2 (pySum tfs / (tfs.length : ℝ))))
  | _ => none

/-- models tfidfmodel.py:108-129 `df2idf` with its default arguments -/
noncomputable def df2idf (df total : Nat) : ℝ := Real.log ((total : ℝ) / (df : ℝ)) / Real.log 2

/-- models tfidfmodel.py:186-211 `smartirs_wglobal`, for `0 < df ≤ total` -/
noncomputable def smartGlobal (scheme : Char) (df total : Nat) : ℝ :=
  match scheme with
  | 'n' => 1
  | 'f' => Real.logb 2 (1 * (total : ℝ) / (df : ℝ))
  | 't' => Real.logb 2 (((total : ℝ) + 1) / (df : ℝ))
  | 'p' => max 0 (Real.logb 2 ((1 * (total : ℝ) - (df : ℝ)) / (df : ℝ)))
  | _ => 0

/-! ### Training -/

/-- the statistics a `TfidfModel` keeps (tfidfmodel.py:384-388, 460-470) -/
structure Stats where
  numDocs : Nat
  numNnz : Nat
  dfs : PyDict Nat Nat
  idfs : PyDict Nat ℝ

/-- models tfidfmodel.py:132-153 `precompute_idfs` -/
noncomputable def precomputeIdfs (wglobal : Nat → Nat → ℝ) (dfs : PyDict Nat Nat) (total : Nat) :
    PyDict Nat ℝ := dfs.map fun p => (p.1, wglobal p.2 total)

/-- models tfidfmodel.py:457-458, one document -/
def countDoc {V : Type} (dfs : PyDict Nat Nat) (doc : List (Nat × V)) : PyDict Nat Nat :=
  doc.foldl (fun dfs p => set dfs p.1 (getD dfs p.1 0 + 1)) dfs

/-- models tfidfmodel.py:440-470 `initialize(corpus)` -/
noncomputable def train {V : Type} (wglobal : Nat → Nat → ℝ) (corpus : List (List (Nat × V))) :
    Stats :=
  let dfs := corpus.foldl countDoc []
  ⟨corpus.length, (corpus.map List.length).sum, dfs, precomputeIdfs wglobal dfs corpus.length⟩

/-- models tfidfmodel.py:376-390, the model of a `Dictionary` -/
noncomputable def fromDictionary {τ : Type} (wglobal : Nat → Nat → ℝ) (d : Dictionary.Dct τ) : Stats :=
  ⟨d.numDocs, d.numNnz, d.dfs, precomputeIdfs wglobal d.dfs d.numDocs⟩

/-! ### Transformation -/

/-- how the weighted vector is normalised (tfidfmodel.py:513-537).  `plain`: `normalize=False`
(`utils.identity`); `unit`: `normalize=True`; `smart c`: the third letter of the SMART code. -/
inductive Normalizer
  | plain
  | unit
  | smart (c : Char)

/-- the fields used by `__getitem__` -/
structure Model where
  stats : Stats
  wlocal : List ℝ → Option (List ℝ)
  normalizer : Normalizer
  pivot : Option ℝ
  slope : ℝ
  /-- `self.term_lens`, set only when the model was built from a dictionary -/
  termLens : Option (PyDict Nat Nat)

/-- `self.idfs.get(termid, 0.0)` -/
noncomputable def Stats.idf (s : Stats) (i : Nat) : ℝ := getD s.idfs i 0

/-- models tfidfmodel.py:506-509, the weighted vector -/
noncomputable def weigh (s : Stats) (eps : ℝ) (ids : List Nat) (tfs : List ℝ) : List (Nat × ℝ) :=
  ((ids.zip tfs).filter fun p => decide (eps < |s.idf p.1|)).map fun p => (p.1, p.2 * s.idf p.1)

/-- `unitvec(vector, return_norm=True)[1]` (matutils.py:762-781): 1 for an empty vector -/
noncomputable def normOrOne (norm : Norm) (v : List (Nat × ℝ)) : Option ℝ :=
  match v with
  | [] => some 1
  | v => if 0 < sparseLen norm v then some (sparseLen norm v) else none

/-- models tfidfmodel.py:513-537 without a pivot: `norm_vector` -/
noncomputable def normalized (n : Normalizer) (v : List (Nat × ℝ)) : Option (List (Nat × ℝ)) :=
  match n with
  | .plain => some v
  | .unit => unitvecSparse .l2 v
  | .smart c => if c = 'c' then unitvecSparse .l2 v else some v

/-- models tfidfmodel.py:513-537 with a pivot: `old_norm` -/
noncomputable def oldNorm (m : Model) (bow v : List (Nat × ℝ)) : Option ℝ :=
  match m.normalizer with
  | .plain => none        -- `utils.identity` takes no `return_norm`: TypeError
  | .unit => normOrOne .l2 v
  | .smart c =>
    if c = 'u' then normOrOne .unique v
    else if c = 'b' then
      m.termLens.bind fun lens =>
        (Dictionary.mapOpt (fun p : Nat × ℝ => (get? lens p.1).map fun l => p.2 * ((l : ℝ) + 1)) bow).map
          pySum
    else normOrOne .l2 v

/-- models tfidfmodel.py:472-548 `__getitem__` on one vector.  Divisions by a zero pivoted norm are not
modelled. -/
noncomputable def transform (m : Model) (eps : ℝ) (bow : List (Nat × ℝ)) : Option (List (Nat × ℝ)) :=
  (m.wlocal (bow.map Prod.snd)).bind fun tfs =>
    let v := weigh m.stats eps (bow.map Prod.fst) tfs
    match m.pivot with
    | none => (normalized m.normalizer v).map fun r => r.filter fun p => decide (eps < |p.2|)
    | some pivot => (oldNorm m bow v).map fun old =>
        (v.map fun p => (p.1, p.2 / ((1 - m.slope) * pivot + m.slope * old))).filter
          fun p => decide (eps < |p.2|)

/-- models tfidfmodel.py:409-414, the pivot a SMART code gives when the user gave none; `none`: the
constructor raises (for the code `b`: `dictionary` is `None`, or a term has no entry in `cfs` or
`term_lens`) -/
noncomputable def smartPivot {τ : Type} (c : Char) (s : Stats) (d : Option (Dictionary.Dct τ))
    (lens : PyDict Nat Nat) : Option (Option ℝ) :=
  if c = 'u' then some (some (1 * (s.numNnz : ℝ) / (s.numDocs : ℝ)))
  else if c = 'b' then
    d.bind fun d => (Dictionary.mapOpt (fun i => (get? d.cfs i).bind fun f => (get? lens i).map fun l =>
      (f : ℝ) * ((l : ℝ) + 1)) (values d.token2id)).map fun l => some (1 * pySum l / (s.numDocs : ℝ))
  else some none

end Verif.Tfidf
