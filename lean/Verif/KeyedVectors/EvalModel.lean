import Mathlib.Data.Rat.Defs
import Mathlib.Algebra.Order.Ring.Rat
import Verif.Py.Dict

/-!
# Evaluation on analogies and on word pairs

`KeyedVectors.evaluate_word_analogies` and `evaluate_word_pairs`
(`gensim/models/keyedvectors.py` 1183-1319, 1336-1434).

Simplifications: words are an arbitrary type with a function for `str.upper`; the lines of the evaluation
files are given already split (a header or the words of the line; a comment or the fields of the line);
`most_similar` (C39), `similarity` and the parsing of a number are inputs, the first two depending on the
table `key_to_index` in force at the call; logging is left out.
-/

namespace Verif.KvEval

open Verif

/-- What can go wrong. -/
inductive Err
  /-- `ValueError` -/
  | value
  /-- `ZeroDivisionError` -/
  | zeroDiv
  /-- the file cannot be opened or read -/
  | io
  /-- an exception of a similarity query -/
  | query
deriving DecidableEq, Repr

variable {W : Type} [DecidableEq W]

/-- The two tables of the model: `self.index_to_key` and `self.key_to_index`. -/
structure Kv (W : Type) where
  /-- `self.index_to_key` -/
  keys : List W
  /-- `self.key_to_index` -/
  index : PyDict W ℕ

/-- `{fold(k): self.get_index(k) for k in reversed(ok_keys)}` (`keyedvectors.py` 1242-1246, 1378-1382);
`fold` is `str.upper` or the identity. -/
def okVocab (kv : Kv W) (fold : W → W) (restrict : ℕ) : PyDict W ℕ :=
  (kv.keys.take restrict).reverse.foldl
    (fun d k => PyDict.set d (fold k) (PyDict.getD kv.index k 0)) []

/-- A line of an analogy file (`keyedvectors.py` 1254-1267). -/
inductive Line (W : Type)
  /-- `: name` -/
  | header (name : W)
  /-- the words of any other line -/
  | row (ws : List W)

/-- A quadruplet. -/
abbrev Quad (W : Type) := W × W × W × W

/-- A section of the result. -/
structure Section (W : Type) where
  /-- `section['section']`; `none` for `'Total accuracy'` -/
  name : Option W
  /-- `section['correct']` -/
  correct : List (Quad W)
  /-- `section['incorrect']` -/
  incorrect : List (Quad W)
deriving DecidableEq

/-- The loop over the suggestions (`keyedvectors.py` 1283, 1288-1293): the last value of `predicted`. -/
def predict (fold : W → W) (ok : PyDict W ℕ) (ignore : List W) (predicted : Option W) :
    List W → Option W
  | [] => predicted
  | e :: es =>
    if ok.contains (fold e) && !(ignore.contains (fold e)) then some (fold e)
    else predict fold ok ignore (some (fold e)) es

/-- `evaluate_word_analogies`: the variables of the loop over the lines. -/
structure Loop (W : Type) where
  /-- `sections` -/
  done : List (Section W)
  /-- `section` -/
  cur : Option (Section W)
  /-- `quadruplets_no` -/
  quads : ℕ
  /-- `oov` -/
  oov : ℕ

/-- The settings of `evaluate_word_analogies`. -/
structure Opt (W : Type) where
  /-- the words' case folding: `str.upper` if `case_insensitive`, else nothing -/
  fold : W → W
  /-- `restrict_vocab` -/
  restrict : ℕ
  /-- `dummy4unknown` -/
  dummy : Bool

/-- One line (`keyedvectors.py` 1252-1297).  The result carries the `key_to_index` left behind. -/
def evalLine (kv : Kv W) (o : Opt W) (ok : PyDict W ℕ)
    (mostSimilar : PyDict W ℕ → W → W → W → Except Err (List W)) (s : Loop W) (l : Line W) :
    Except (Err × PyDict W ℕ) (Loop W) :=
  match l with
  | .header name =>
    match s.cur with
    | some c => .ok { s with done := s.done ++ [c], cur := some ⟨some name, [], []⟩ }
    | none => .ok { s with cur := some ⟨some name, [], []⟩ }
  | .row ws =>
    match s.cur with
    | none => .error (.value, kv.index)
    | some c =>
      match ws.map o.fold with
      | [a, b, x, e] =>
        if !(ok.contains a && ok.contains b && ok.contains x && ok.contains e) then
          if o.dummy then
            .ok { s with quads := s.quads + 1, oov := s.oov + 1,
                          cur := some { c with incorrect := c.incorrect ++ [(a, b, x, e)] } }
          else .ok { s with quads := s.quads + 1, oov := s.oov + 1 }
        else
          match mostSimilar ok b x a with
          | .error er => .error (er, ok)
          | .ok sims =>
            if predict o.fold ok [a, b, x] none sims = some e then
              .ok { s with quads := s.quads + 1,
                            cur := some { c with correct := c.correct ++ [(a, b, x, e)] } }
            else
              .ok { s with quads := s.quads + 1,
                            cur := some { c with incorrect := c.incorrect ++ [(a, b, x, e)] } }
      | _ => .ok s

/-- The loop over the lines. -/
def evalLines (kv : Kv W) (o : Opt W) (ok : PyDict W ℕ)
    (mostSimilar : PyDict W ℕ → W → W → W → Except Err (List W)) :
    Loop W → List (Line W) → Except (Err × PyDict W ℕ) (Loop W)
  | s, [] => .ok s
  | s, l :: ls =>
    match evalLine kv o ok mostSimilar s l with
    | .error e => .error e
    | .ok s' => evalLines kv o ok mostSimilar s' ls

/-- `_log_evaluate_word_analogies` (`keyedvectors.py` 1183-1203): the accuracy, `None` without
analogies. -/
def accuracy (s : Section W) : Option ℚ :=
  if 0 < s.correct.length + s.incorrect.length then
    some ((s.correct.length : ℚ) / (s.correct.length + s.incorrect.length))
  else none

/-- The section `Total accuracy` (`keyedvectors.py` 1303-1307). -/
def totalOf (sections : List (Section W)) : Section W :=
  ⟨none, sections.flatMap Section.correct, sections.flatMap Section.incorrect⟩

/-- `evaluate_word_analogies` (`keyedvectors.py` 1242-1319): the answer or exception, and
`self.key_to_index` afterwards.  `lines` is `none` when the file cannot be opened. -/
def evaluateAnalogies (kv : Kv W) (o : Opt W)
    (mostSimilar : PyDict W ℕ → W → W → W → Except Err (List W)) (lines : Option (List (Line W))) :
    Except Err (Option ℚ × List (Section W)) × PyDict W ℕ :=
  match lines with
  | none => (.error .io, kv.index)
  | some ls =>
    match evalLines kv o (okVocab kv o.fold o.restrict) mostSimilar ⟨[], none, 0, 0⟩ ls with
    | .error (e, t) => (.error e, t)
    | .ok s =>
      let sections := match s.cur with
        | some c => s.done ++ [c]
        | none => s.done
      if s.quads = 0 then (.error .zeroDiv, kv.index)
      else (.ok (accuracy (totalOf sections), sections ++ [totalOf sections]), kv.index)

/-- The lists `similarity_gold`, `similarity_model` and the counter `oov` of `evaluate_word_pairs`. -/
structure PairLoop where
  /-- `similarity_gold` -/
  gold : List ℚ
  /-- `similarity_model` -/
  model : List ℚ
  /-- `oov` -/
  oov : ℕ
deriving DecidableEq

/-- A line of a word-pair file (`keyedvectors.py` 1394-1406): a comment or the fields of the line. -/
inductive PairLine (W : Type)
  /-- `# …` -/
  | comment
  /-- `line.split(delimiter)` -/
  | fields (fs : List W)

/-- One line of `evaluate_word_pairs` (`keyedvectors.py` 1392-1418). -/
def pairLine (o : Opt W) (ok : PyDict W ℕ) (parse : W → Option ℚ)
    (similarity : PyDict W ℕ → W → W → Except Err ℚ) (s : PairLoop) (l : PairLine W) :
    Except Err PairLoop :=
  match l with
  | .comment => .ok s
  | .fields fs =>
    match fs.map o.fold with
    | [a, b, x] =>
      match parse x with
      | none => .ok s
      | some sim =>
        if !(ok.contains a && ok.contains b) then
          if o.dummy then .ok ⟨s.gold ++ [sim], s.model ++ [0], s.oov + 1⟩
          else .ok { s with oov := s.oov + 1 }
        else
          match similarity ok a b with
          | .error e => .error e
          | .ok v => .ok ⟨s.gold ++ [sim], s.model ++ [v], s.oov⟩
    | _ => .ok s

/-- The loop over the lines of a word-pair file. -/
def pairLines (o : Opt W) (ok : PyDict W ℕ) (parse : W → Option ℚ)
    (similarity : PyDict W ℕ → W → W → Except Err ℚ) : PairLoop → List (PairLine W) → Except Err PairLoop
  | s, [] => .ok s
  | s, l :: ls =>
    match pairLine o ok parse similarity s l with
    | .error e => .error e
    | .ok s' => pairLines o ok parse similarity s' ls

/-- `oov_ratio` (`keyedvectors.py` 1422-1425). -/
def oovRatio (dummy : Bool) (s : PairLoop) : Except Err ℚ :=
  if dummy then
    if s.gold.length = 0 then .error .zeroDiv else .ok ((s.oov : ℚ) / s.gold.length * 100)
  else
    if s.gold.length + s.oov = 0 then .error .zeroDiv
    else .ok ((s.oov : ℚ) / ((s.gold.length : ℚ) + s.oov) * 100)

/-- `evaluate_word_pairs` (`keyedvectors.py` 1378-1434): the two lists handed to the correlation
functions and the ratio of unknown pairs, or the exception; and `self.key_to_index` afterwards.  The table
is replaced before the file is opened (line 1389) and put back after the loop (line 1419).  `corr` says
whether the correlation functions accept the lists. -/
def evaluatePairs (kv : Kv W) (o : Opt W) (parse : W → Option ℚ)
    (similarity : PyDict W ℕ → W → W → Except Err ℚ) (corr : List ℚ → List ℚ → Bool)
    (lines : Option (List (PairLine W))) :
    Except Err (List ℚ × List ℚ × ℚ) × PyDict W ℕ :=
  let ok := okVocab kv o.fold o.restrict
  match lines with
  | none => (.error .io, ok)
  | some ls =>
    match pairLines o ok parse similarity ⟨[], [], 0⟩ ls with
    | .error e => (.error e, ok)
    | .ok s =>
      if !(corr s.gold s.model) then (.error .value, kv.index)
      else match oovRatio o.dummy s with
        | .error e => (.error e, kv.index)
        | .ok r => (.ok (s.gold, s.model, r), kv.index)

end Verif.KvEval
