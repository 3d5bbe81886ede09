import Verif.Poincare.EvalModel
import Verif.Py.Dict
import Verif.Py.Text
import Mathlib.Algebra.Order.Field.Basic

/-!
# Evaluation data of a Poincaré embedding (gensim/models/poincare.py)

`ReconstructionEvaluation` and `LinkPredictionEvaluation`: reading of the relations (1422-1434, 1527-1541) and the
evaluation over all nodes (1494-1508, 1604-1619); `LexicalEntailmentEvaluation` (1622-1758).

Files are given as the rows `csv.reader` yields. Python sets are lists without duplicates; the order in which
Python runs through a set is a parameter (any rearrangement). Exact arithmetic; `nan` is `none`.
-/

namespace Verif.PoincareEval

open Verif Verif.Poincare Verif.Text

/-- What can go wrong. -/
inductive Err | assertion | key | value
deriving DecidableEq

/-- `set.add`. -/
def setAdd (s : List Nat) (x : Nat) : List Nat := if x ∈ s then s else s ++ [x]

/-- The relations of a `defaultdict(set)`. -/
abbrev Rel := PyDict Nat (List Nat)

/-- Models the loop over the rows of a file, gensim/models/poincare.py 1426-1431 and 1533-1538; the state is the set
of items and the relations. -/
def readRows (getIndex : Str → Option Nat) : List Nat × Rel → List (List Str) → Except Err (List Nat × Rel)
  | st, [] => .ok st
  | st, row :: rows =>
    match row with
    | [a, b] =>
      match getIndex a with
      | none => .error .key
      | some i =>
        match getIndex b with
        | none => .error .key
        | some j =>
          readRows getIndex
            (setAdd (setAdd st.1 i) j, PyDict.set st.2 i (setAdd (PyDict.getD st.2 i []) j)) rows
    | _ => .error .assertion

/-- Models `ReconstructionEvaluation.__init__`, gensim/models/poincare.py 1422-1434. -/
def reconstruction (getIndex : Str → Option Nat) (rows : List (List Str)) : Except Err (List Nat × Rel) :=
  readRows getIndex ([], []) rows

/-- Models `LinkPredictionEvaluation.__init__`, gensim/models/poincare.py 1527-1541: items, known and unknown
relations. -/
def linkPrediction (getIndex : Str → Option Nat) (train test : List (List Str)) :
    Except Err (List Nat × Rel × Rel) :=
  match readRows getIndex ([], []) train with
  | .error e => .error e
  | .ok (items, known) =>
    match readRows getIndex (items, []) test with
    | .error e => .error e
    | .ok (items, unknown) => .ok (items, known, unknown)

/-- `np.mean`: `nan` for the empty list. -/
def npMean (l : List ℚ) : Option ℚ := if l = [] then none else some (l.sum / l.length)

variable {R : Type} [LinearOrder R]

/-- Models `evaluate_mean_rank_and_map`, gensim/models/poincare.py 1494-1508 and 1604-1619: mean rank and mean average
precision. `n` is the number of vectors, `dist i` the distances from node `i`; `items` are the items in the order of
the set; `pos i` and `known i` are the relations of an item in the order of the sets (`known` is empty for the
reconstruction). -/
def evaluate (n : Nat) (dist : Nat → Nat → R) (items : List Nat) (has : Nat → Bool) (pos known : Nat → List Nat)
    (maxN : Option Nat) : Option ℚ × Option ℚ :=
  let its := evaluated has maxN 1 items
  (npMean ((its.flatMap fun i => ranks n (dist i) (pos i) (pos i ++ known i)).map fun r : Nat => (r : ℚ)),
   npMean (its.map fun i => avgPrecision (ranks n (dist i) (pos i) (pos i ++ known i))))

/-! ### Lexical entailment -/

section Lexical

variable {K : Type} [Field K] [LinearOrder K]

/-- Models `LexicalEntailmentEvaluation.__init__`, gensim/models/poincare.py 1634-1641: the rows give two words and the
score. -/
def lexScores (rows : List (Str × Str × K)) : PyDict (Str × Str) K :=
  rows.foldl (fun d r => PyDict.set d (r.1, r.2.1) r.2.2) []

/-- Models `find_matching_terms` on the trie of `create_vocab_trie`, gensim/models/poincare.py 1698-1700, 1723-1726: the
keys that begin with the word and a dot, in the order `trav` in which the trie runs through them; `none` is the
`KeyError` of `pygtrie` when there is none. -/
def findMatching (trav : List Str → List Str) (keys : List Str) (word : Str) : Option (List Str) :=
  match trav (keys.filter fun k => (word ++ ['.']).isPrefixOf k) with
  | [] => none
  | l => some l

/-- Models the double loop of `score_function`, gensim/models/poincare.py 1668-1675: the first pair at the least
distance, with it. -/
def closest (dist : Str → Str → K) (ts1 ts2 : List Str) : Option (Str × Str × K) :=
  (ts1.flatMap fun a => ts2.map fun b => (a, b)).foldl
    (fun best p =>
      match best with
      | none => some (p.1, p.2, dist p.1 p.2)
      | some q => if dist p.1 p.2 < q.2.2 then some (p.1, p.2, dist p.1 p.2) else some q) none

/-- Models `score_function`, gensim/models/poincare.py 1663-1679. -/
def scoreFunction (trav : List Str → List Str) (keys : List Str) (dist : Str → Str → K) (norm : Str → K) (alpha : K)
    (w1 w2 : Str) : Except Err K :=
  match findMatching trav keys w1, findMatching trav keys w2 with
  | some ts1, some ts2 =>
    match closest dist ts1 ts2 with
    | none => .error .assertion
    | some (t1, t2, d) => .ok (-1 * (1 + alpha * (norm t2 - norm t1)) * d)
  | _, _ => .error .value

/-- Models the loop of `evaluate_spearman`, gensim/models/poincare.py 1742-1756: predicted scores, expected scores and the
number of pairs skipped. -/
def lexLoop (score : Str → Str → Except Err K) : PyDict (Str × Str) K → Except Err (List K × List K × Nat)
  | [] => .ok ([], [], 0)
  | ((w1, w2), expected) :: rest =>
    match score w1 w2 with
    | .ok p =>
      match lexLoop score rest with
      | .ok (ps, es, sk) => .ok (p :: ps, expected :: es, sk)
      | .error e => .error e
    | .error .value =>
      match lexLoop score rest with
      | .ok (ps, es, sk) => .ok (ps, es, sk + 1)
      | .error e => .error e
    | .error e => .error e

/-- Models `evaluate_spearman`, gensim/models/poincare.py 1742-1758; `spearman` is `scipy.stats.spearmanr`, `alpha` is
1000 (1641). -/
def evaluateSpearman {S : Type} (spearman : List K → List K → S) (trav : List Str → List Str) (keys : List Str)
    (dist : Str → Str → K) (norm : Str → K) (rows : List (Str × Str × K)) : Except Err S :=
  match lexLoop (scoreFunction trav keys dist norm 1000) (lexScores rows) with
  | .error e => .error e
  | .ok (ps, es, _) => .ok (spearman es ps)

end Lexical

end Verif.PoincareEval
