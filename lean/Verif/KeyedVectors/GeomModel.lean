import Mathlib.Analysis.SpecialFunctions.Exp
import Mathlib.Analysis.SpecialFunctions.Sqrt
import Mathlib.Data.Real.Sqrt
import Verif.Py.Dict
import Verif.Py.Sort
import Verif.Matutils.SparseModel

/-!
# Similarity values of `KeyedVectors`

`gensim/models/keyedvectors.py`: `most_similar_to_given` (565-567), the scores of `most_similar` (759-775) and
of `most_similar_cosmul` (997-1013), `rank_by_centrality` and `doesnt_match` (1022-1065),
`cosine_similarities`, `distances`, `distance`, `similarity`, `n_similarity` (1067-1181),
`relative_cosine_similarity` (1473-1501); `gensim/models/word2vec.py`: `predict_output_word` (1792-1817).

Simplifications: exact real numbers; the model's keys and rows are one dictionary in row order (C38 proves
that the tables agree with such a dictionary); `nan`/`inf` entries are `none`; a normed vector is the row
divided by its norm, and division by a zero norm is only modelled in `cosineSimilarities`.
-/

namespace Verif.KvGeom

open Verif

variable {κ : Type} [DecidableEq κ] {n : ℕ}

/-- A vector. -/
abbrev Vec (n : ℕ) := Fin n → ℝ

/-- `np.dot` of two vectors. -/
noncomputable def dot (a b : Vec n) : ℝ := ∑ i, a i * b i

/-- `np.linalg.norm`. -/
noncomputable def norm (a : Vec n) : ℝ := Real.sqrt (dot a a)

/-- `matutils.unitvec` of a dense vector with the `l2` norm (`matutils.py` 739-760). -/
noncomputable def unitvec (a : Vec n) : Vec n := if 0 < norm a then (1 / norm a) • a else a

/-- `array(vs).mean(axis=0)`. -/
noncomputable def mean (vs : List (Vec n)) : Vec n := (1 / (vs.length : ℝ)) • vs.sum

/-- What can go wrong. -/
inductive Err
  /-- `KeyError` -/
  | key
  /-- `ValueError` -/
  | value
  /-- `ZeroDivisionError` -/
  | zeroDiv
  /-- `AssertionError` -/
  | assertion
deriving DecidableEq, Repr

/-- `self[key]` (`keyedvectors.py` 367-384, 401-434). -/
def row (kv : PyDict κ (Vec n)) (k : κ) : Except Err (Vec n) :=
  match PyDict.get? kv k with
  | some v => .ok v
  | none => .error .key

/-- `[self[key] for key in ks]`. -/
def rows (kv : PyDict κ (Vec n)) : List κ → Except Err (List (Vec n))
  | [] => .ok []
  | k :: ks =>
    match row kv k with
    | .error e => .error e
    | .ok v =>
      match rows kv ks with
      | .error e => .error e
      | .ok vs => .ok (v :: vs)

/-- The value of `similarity` on two rows (`keyedvectors.py` 1159). -/
noncomputable def sim (a b : Vec n) : ℝ := dot (unitvec a) (unitvec b)

/-- `similarity(w1, w2)` (`keyedvectors.py` 1143-1159). -/
noncomputable def similarity (kv : PyDict κ (Vec n)) (w1 w2 : κ) : Except Err ℝ :=
  match row kv w1, row kv w2 with
  | .ok a, .ok b => .ok (sim a b)
  | .error e, _ => .error e
  | _, .error e => .error e

/-- `distance(w1, w2)` (`keyedvectors.py` 1141). -/
noncomputable def distance (kv : PyDict κ (Vec n)) (w1 w2 : κ) : Except Err ℝ :=
  match similarity kv w1 w2 with
  | .ok x => .ok (1 - x)
  | .error e => .error e

open Classical in
/-- `cosine_similarities(vector_1, vectors_all)` (`keyedvectors.py` 1084-1088); `none` is a division by
zero (`nan` or `inf`). -/
noncomputable def cosineSimilarities (v : Vec n) (all : List (Vec n)) : List (Option ℝ) :=
  all.map fun w => if norm v * norm w = 0 then none else some (dot w v / (norm v * norm w))

/-- `distances(word, other_words)` (`keyedvectors.py` 1113-1122), with a word as the first argument. -/
noncomputable def distances (kv : PyDict κ (Vec n)) (word : κ) (others : List κ) :
    Except Err (List (Option ℝ)) :=
  match row kv word with
  | .error e => .error e
  | .ok v =>
    if others = [] then .ok ((cosineSimilarities v (PyDict.values kv)).map fun x => x.map (1 - ·))
    else
      match rows kv others with
      | .error e => .error e
      | .ok ws => .ok ((cosineSimilarities v ws).map fun x => x.map (1 - ·))

/-- `n_similarity(ws1, ws2)` (`keyedvectors.py` 1177-1181). -/
noncomputable def nSimilarity (kv : PyDict κ (Vec n)) (ws1 ws2 : List κ) : Except Err ℝ :=
  if ws1 = [] ∨ ws2 = [] then .error .zeroDiv
  else
    match rows kv ws1 with
    | .error e => .error e
    | .ok v1 =>
      match rows kv ws2 with
      | .error e => .error e
      | .ok v2 => .ok (dot (unitvec (mean v1)) (unitvec (mean v2)))

/-- `np.argmax`: the first position of the largest value. -/
noncomputable def argmax : List ℝ → ℕ
  | [] => 0
  | [_] => 0
  | x :: y :: l => if (y :: l).getD (argmax (y :: l)) 0 ≤ x then 0 else argmax (y :: l) + 1

/-- `[self.similarity(key1, key) for key in keys_list]`. -/
noncomputable def similarities (kv : PyDict κ (Vec n)) (k : κ) : List κ → Except Err (List ℝ)
  | [] => .ok []
  | x :: xs =>
    match similarity kv k x with
    | .error e => .error e
    | .ok s =>
      match similarities kv k xs with
      | .error e => .error e
      | .ok ss => .ok (s :: ss)

/-- `most_similar_to_given(key1, keys_list)` (`keyedvectors.py` 565-567). -/
noncomputable def mostSimilarToGiven (kv : PyDict κ (Vec n)) (k : κ) (ks : List κ) : Except Err κ :=
  match similarities kv k ks with
  | .error e => .error e
  | .ok ss =>
    match ks[argmax ss]? with
    | some x => .ok x
    | none => .error .value

/-- The vector all rows are compared with by `most_similar`: the normalised mean of the weighted vectors
(`keyedvectors.py` 761-770).  The vectors of words are normed before. -/
noncomputable def target (terms : List (ℝ × Vec n)) : Vec n :=
  unitvec (mean (terms.map fun t => t.1 • t.2))

/-- `self.get_vector(key, norm=True)` (`keyedvectors.py` 425-428). -/
noncomputable def normed (v : Vec n) : Vec n := (1 / norm v) • v

/-- The score of a row in `most_similar` (`keyedvectors.py` 775). -/
noncomputable def score (terms : List (ℝ × Vec n)) (v : Vec n) : ℝ := dot v (target terms) / norm v

/-- One factor of equation (4) (`keyedvectors.py` 1011-1012). -/
noncomputable def factor (v term : Vec n) : ℝ := (1 + dot v term / norm v) / 2

/-- The score of a row in `most_similar_cosmul` (`keyedvectors.py` 1011-1013). -/
noncomputable def cosmulScore (pos neg : List (Vec n)) (v : Vec n) : ℝ :=
  (pos.map (factor v)).prod / ((neg.map (factor v)).prod + 1 / 1000000)

open Classical in
/-- The order of `sorted(zip(dists, words), reverse=True)`: by value, then by word, descending. -/
noncomputable def before [LinearOrder κ] (a b : ℝ × κ) : Bool :=
  decide (b.1 < a.1 ∨ (b.1 = a.1 ∧ b.2 ≤ a.2))

/-- The vector of a word in `rank_by_centrality`: normed or as it is. -/
noncomputable def vectorFor (useNorm : Bool) (v : Vec n) : Vec n := if useNorm then normed v else v

/-- `rank_by_centrality(words, use_norm)` (`keyedvectors.py` 1038-1049). -/
noncomputable def rankByCentrality [LinearOrder κ] (kv : PyDict κ (Vec n)) (words : List κ)
    (useNorm : Bool) : Except Err (List (ℝ × κ)) :=
  let used := words.filter fun w => kv.contains w
  if used = [] then .error .value
  else
    match rows kv used with
    | .error e => .error e
    | .ok vs =>
      let vectors := vs.map (vectorFor useNorm)
      let m := unitvec (mean vectors)
      .ok (pySort before ((vectors.map fun v => dot v m).zip used))

/-- `doesnt_match(words)` (`keyedvectors.py` 1065). -/
noncomputable def doesntMatch [LinearOrder κ] (kv : PyDict κ (Vec n)) (words : List κ) : Except Err κ :=
  match rankByCentrality kv words true with
  | .error e => .error e
  | .ok l =>
    match l.getLast? with
    | some p => .ok p.2
    | none => .error .value

open Classical in
/-- `relative_cosine_similarity(wa, wb, topn)` (`keyedvectors.py` 1497-1501); `sims` is the answer of
`similar_by_word(wa, topn)`. -/
noncomputable def relativeCosine (kv : PyDict κ (Vec n)) (wa wb : κ) (sims : List (κ × ℝ)) :
    Except Err ℝ :=
  if sims = [] then .error .assertion
  else
    match similarity kv wa wb with
    | .error e => .error e
    | .ok s =>
      if (sims.map Prod.snd).sum = 0 then .error .zeroDiv
      else .ok (s / (sims.map Prod.snd).sum)

/-! ### `predict_output_word` -/

/-- The hidden layer (`word2vec.py` 1803-1810): the sum or the mean of the vectors of the known words;
`none` if there is none. -/
noncomputable def hidden (kv : PyDict κ (Vec n)) (cbowMean : Bool) (context : List κ) : Option (Vec n) :=
  let vs := context.filterMap fun w => PyDict.get? kv w
  if vs = [] then none
  else some (if cbowMean then (1 / (vs.length : ℝ)) • vs.sum else vs.sum)

/-- The softmax over the output rows (`word2vec.py` 1812-1814). -/
noncomputable def probabilities (l1 : Vec n) (outs : List (Vec n)) : List ℝ :=
  let es := outs.map fun o => Real.exp (dot l1 o)
  es.map fun x => x / es.sum

/-- `predict_output_word(context_words_list, topn)` (`word2vec.py` 1792-1817) of a model trained with
negative sampling; `srt` and `part` are `np.argsort` and `np.argpartition`. -/
noncomputable def predictOutputWord (srt : List ℝ → List ℕ) (part : List ℝ → ℕ → List ℕ)
    (kv : PyDict κ (Vec n)) (outs : List (Vec n)) (cbowMean : Bool) (context : List κ) (topn : ℕ) :
    Option (List (Option κ × ℝ)) :=
  match hidden kv cbowMean context with
  | none => none
  | some l1 =>
    let p := probabilities l1 outs
    some ((Matutils.argsort srt part p topn true).map fun i => ((PyDict.keys kv)[i]?, p.getD i 0))

end Verif.KvGeom
