import Verif.Py.Count

/-!
# Model of vocabulary pruning: `gensim/utils.py` `keep_vocab_item`, `prune_vocab`,
`trim_vocab_by_freq`, `merge_counts`, and the counting loops that prune
(`word2vec.py:_scan_vocab`)
-/

namespace Verif.Vocab
open Verif PyDict

variable {τ : Type} [DecidableEq τ]

/-- models utils.py:1744-1746 -/
inductive Rule | default | discard | keep
deriving DecidableEq

/-- a `trim_rule`; `none` is `None` -/
abbrev TrimRule (τ : Type) := Option (τ → Nat → Nat → Rule)

/-- models utils.py:1749-1781, `keep_vocab_item` -/
def keepItem (rule : TrimRule τ) (w : τ) (count minCount : Nat) : Bool :=
  match rule with
  | none => decide (count ≥ minCount)
  | some r => match r w count minCount with
    | .keep => true
    | .discard => false
    | .default => decide (count ≥ minCount)

/-- models utils.py:1668-1671, the loop over a copy of the keys: the vocabulary and the number of
tokens pruned so far.  `vocab[w]` cannot fail in the code (each key of the copy is met once);
the model does nothing for a missing key. -/
def pruneLoop (rule : TrimRule τ) (minReduce : Nat) (ws : List τ) (s : PyDict τ Nat × Nat) :
    PyDict τ Nat × Nat :=
  ws.foldl (fun s w => match get? s.1 w with
    | none => s
    | some c => if keepItem rule w c minReduce then s else (erase s.1 w, s.2 + c)) s

/-- models utils.py:1646-1676, `prune_vocab`: the pruned vocabulary and the returned number -/
def pruneVocab (rule : TrimRule τ) (minReduce : Nat) (v : PyDict τ Nat) : PyDict τ Nat × Nat :=
  pruneLoop rule minReduce (keys v) (v, 0)

/-- models utils.py:1679-1698, `trim_vocab_by_freq`; `none`: IndexError for `topk = 0` with a
non-empty vocabulary -/
def trimByFreq (rule : TrimRule τ) (topk : Nat) (v : PyDict τ Nat) : Option (PyDict τ Nat) :=
  if topk ≥ v.length then some v else
  match ((pySort (fun a b => decide (b ≤ a)) (values v)).take topk).getLast? with
  | none => none
  | some m => some (pruneVocab rule m v).1

/-- models utils.py:1701-1720, `merge_counts` -/
def mergeCounts (d1 d2 : PyDict τ Nat) : PyDict τ Nat :=
  d2.foldl (fun d p => if contains d p.1 then set d p.1 (getD d p.1 0 + p.2) else set d p.1 p.2) d1

/-- the state of a counting loop with pruning -/
structure Scan (τ : Type) where
  vocab : PyDict τ Nat
  minReduce : Nat
  total : Nat

/-- `for word in sentence: vocab[word] += 1` (defaultdict) -/
def countWords (v : PyDict τ Nat) (s : List τ) : PyDict τ Nat := accum v (s.map (fun w => (w, 1)))

/-- models gensim/models/word2vec.py:538-560, one sentence of `_scan_vocab`; `maxSize = none` is
`max_vocab_size=None` (0 behaves the same); pruning uses the word's true rule -/
def scanSentence (rule : TrimRule τ) (maxSize : Option Nat) (s : Scan τ) (sent : List τ) : Scan τ :=
  let v := countWords s.vocab sent
  let t := s.total + sent.length
  if maxSize.elim false (fun m => decide (m ≠ 0) && decide (v.length > m)) then
    ⟨(pruneVocab rule s.minReduce v).1, s.minReduce + 1, t⟩
  else ⟨v, s.minReduce, t⟩

/-- models word2vec.py:534-564, `_scan_vocab`: the raw vocabulary, `total_words`, corpus count -/
def scanVocab (rule : TrimRule τ) (maxSize : Option Nat) (sents : List (List τ)) : Scan τ × Nat :=
  (sents.foldl (scanSentence rule maxSize) ⟨[], 1, 0⟩, sents.length)

end Verif.Vocab
