import Verif.W2V.SubsampleModel
import Verif.W2V.OnlineModel
import Verif.W2V.NullModel

/-!
# Preparing the vocabulary with reports and dry runs, and memory estimates
(gensim/models/word2vec.py, doc2vec.py, fasttext.py)
-/

namespace Verif.W2V.Dry
open Verif PyDict Vocab Verif.W2V

variable {τ : Type} [DecidableEq τ] {V : Type}

/-- a model: the vocabulary with its rows, `sample_int` of the words, raw_vocab, and the settings.
`nul` is the null word, if there is one. -/
structure VM (τ V : Type) where
  m : Weights τ V
  ints : τ → ℕ
  raw : PyDict τ Nat
  minCount : Nat
  sample : ℝ
  eff : Nat
  maxFinal : Option Nat
  sorted : Bool
  nul : Option τ

/-- the arguments of `prepare_vocab` -/
structure Args (τ : Type) where
  update : Bool
  keepRaw : Bool
  rule : TrimRule τ
  minCount : Option Nat
  sample : Option ℝ
  dry : Bool

/-- the report, word2vec.py:728-731 -/
structure Report where
  dropUnique : Nat
  retainTotal : Nat
  downUnique : Nat
  downTotal : Nat
  numRetained : Nat
deriving DecidableEq

/-- `argument or default` for numbers: zero counts as no argument; models word2vec.py:596-597 -/
noncomputable def orElse {X : Type} [Zero X] [DecidableEq X] (arg : Option X) (dflt : X) : X :=
  match arg with
  | none => dflt
  | some x => if x = 0 then dflt else x

/-- the settings a call applies -/
noncomputable def cfgOf (s : VM τ V) (a : Args τ) : Cfg τ := ⟨a.rule, orElse a.minCount s.minCount, s.maxFinal, s.sorted⟩

/-- models word2vec.py:629-638 and 660-675: the raw words that are kept, in the order of `retain_words`: an update puts
the new ones first (line 690) -/
def retained (cfg : Cfg τ) (update : Bool) (raw : PyDict τ Nat) (wv : WV τ) : List (τ × Nat) :=
  let kept := raw.filter fun p => keepItem cfg.rule p.1 p.2 (effective cfg raw)
  if update then kept.filter (fun p => !contains wv.k2i p.1) ++ kept.filter (fun p => contains wv.k2i p.1) else kept

/-- models the loop word2vec.py:704-713: the number of downsampled words and the expected number of words left -/
noncomputable def downsample (threshold : ℝ) (words : List (τ × Nat)) : ℕ × ℝ :=
  words.foldl (fun acc p =>
    if wordProbability threshold p.2 < 1 then (acc.1 + 1, acc.2 + wordProbability threshold p.2 * p.2)
    else (acc.1, acc.2 + p.2)) (0, 0)

/-- models word2vec.py:693-731: the report -/
noncomputable def report (cfg : Cfg τ) (sample : ℝ) (update : Bool) (raw : PyDict τ Nat) (wv : WV τ) : Report :=
  let words := retained cfg update raw wv
  let total := (words.map (·.2)).sum
  let d := downsample (thresholdCount sample total) words
  { dropUnique := (raw.filter fun p => !keepItem cfg.rule p.1 p.2 (effective cfg raw)).length
    retainTotal := total
    downUnique := d.1
    downTotal := ⌊d.2⌋₊
    numRetained := words.length }

/-- models word2vec.py:733-739, which do not look at `dry_run`: the null word is added, the words are sorted.  `none`:
the IndexError of sorting when there are fewer vectors than words.  The Huffman tree and the table of negative samples
that are made afterwards are functions of the vocabulary. -/
def finish (argsort : List Nat → List Nat) (nul : Option τ) (sorted update : Bool) (m : Weights τ V) :
    Option (Weights τ V) :=
  let wv := match nul with
    | none => m.wv
    | some n => addNull n m.wv
  if sorted && !update then
    if wv.i2k.length = 0 then some { m with wv := wv }
    else (reorderVectors (argsort wv.counts).reverse m.vectors).map fun vs =>
      { wv := sortDesc argsort wv, vectors := vs, out := m.out }
  else some { m with wv := wv }

/-- models word2vec.py:618-642 and 655-680: the vocabulary before sorting -/
noncomputable def loops (argsort : List Nat → List Nat) (s : VM τ V) (a : Args τ) : WV τ :=
  if a.dry then s.m.wv
  else if a.update then prepareUpdate (cfgOf s a) s.raw s.m.wv
  else prepareFresh argsort { cfgOf s a with sorted := false } s.raw s.m.wv

/-- models word2vec.py:580-748 `prepare_vocab`; `none`: an exception -/
noncomputable def prepareVocab (argsort : List Nat → List Nat) (a : Args τ) (s : VM τ V) : Option (Report × VM τ V) :=
  (finish argsort s.nul s.sorted a.update { s.m with wv := loops argsort s a }).map fun m' =>
    (report (cfgOf s a) (orElse a.sample s.sample) a.update s.raw s.m.wv,
      { s with
        m := m'
        ints := if a.dry then s.ints else setSampleInts (orElse a.sample s.sample) (cfgOf s a) s.raw s.ints
        raw := if !a.dry && !a.keepRaw then [] else s.raw
        minCount := if !a.dry && !a.update then orElse a.minCount s.minCount else s.minCount
        sample := if !a.dry && !a.update then orElse a.sample s.sample else s.sample
        eff := effective (cfgOf s a) s.raw })

/-! ## Memory estimates -/

/-- the settings that decide about memory: `hs`, `negative > 0`, `vector_size`, `layer1_size` -/
structure Sizes where
  hs : Bool
  negative : Bool
  size : Nat
  layer1 : Nat

/-- `vocab_size or len(self.wv)` -/
def vocabSize (arg : Option Nat) (len : Nat) : Nat :=
  match arg with
  | none => len
  | some n => if n = 0 then len else n

/-- `report[key] = value` if a condition holds -/
def setIf (c : Bool) (d : PyDict String Nat) (k : String) (v : Nat) : PyDict String Nat := if c then PyDict.set d k v else d

/-- `report['total'] = sum(report.values())` -/
def addTotal (d : PyDict String Nat) : PyDict String Nat := PyDict.set d "total" (values d).sum

/-- models word2vec.py:750-779 `estimate_memory`; `len` is the number of words of the model -/
def estimate (z : Sizes) (len : Nat) (arg : Option Nat) (report : PyDict String Nat) : PyDict String Nat :=
  let n := vocabSize arg len
  let r := PyDict.set report "vocab" (n * (if z.hs then 700 else 500))
  let r := PyDict.set r "vectors" (n * z.size * 4)
  let r := setIf z.hs r "syn1" (n * z.layer1 * 4)
  let r := setIf z.negative r "syn1neg" (n * z.layer1 * 4)
  addTotal r

/-- models doc2vec.py:809-831 and 574-583: `estimate_memory` of Doc2Vec; `tags` is the number of document vectors -/
def estimateDoc (z : Sizes) (len tags : Nat) (arg : Option Nat) (report : PyDict String Nat) : PyDict String Nat :=
  let r := PyDict.set report "doctag_lookup" (60 * tags + 140 * tags)
  let r := PyDict.set r "doctag_syn0" (tags * z.size * 4)
  estimate z len arg r

/-- models fasttext.py:462-490: `estimate_memory` of FastText; `ngrams` are the numbers of n-grams of the words.  The
argument `vocab_size` is read in line 464 and not used. -/
def estimateFt (z : Sizes) (bucket : Nat) (ngrams : List Nat) (_arg : Option Nat) (report : PyDict String Nat) :
    PyDict String Nat :=
  let len := ngrams.length
  let r := PyDict.set report "vocab" (len * (if z.hs then 700 else 500))
  let r := PyDict.set r "syn0_vocab" (len * (z.size * 4))
  let r := setIf z.hs r "syn1" (len * (z.layer1 * 4))
  let r := setIf z.negative r "syn1neg" (len * (z.layer1 * 4))
  let r := setIf (decide (bucket ≠ 0)) r "syn0_ngrams" (bucket * (z.size * 4))
  let r := setIf (decide (bucket ≠ 0)) r "buckets_word" (64 + 100 * len + 4 * ngrams.sum)
  addTotal r

/-- an array of single-precision numbers: rows and columns -/
structure Arr where
  rows : Nat
  cols : Nat

/-- the arrays a Word2Vec model holds after `prepare_weights`, word2vec.py:819-839 and keyedvectors.py:352-356 -/
def arrays (z : Sizes) (len : Nat) : List Arr :=
  [⟨len, z.size⟩] ++ (if z.hs then [⟨len, z.layer1⟩] else []) ++ (if z.negative then [⟨len, z.layer1⟩] else [])

/-- the arrays of a Doc2Vec model, doc2vec.py:336-339: those of a Word2Vec model and the document vectors -/
def arraysDoc (z : Sizes) (len tags : Nat) : List Arr := arrays z len ++ [⟨tags, z.size⟩]

/-- the arrays of a FastText model: vectors_vocab, vectors_ngrams (fasttext.py:1121-1128), `vectors`, which is a copy of
vectors_vocab unless there are no buckets (lines 1171-1175), and the output arrays -/
def arraysFt (z : Sizes) (bucket len : Nat) : List Arr :=
  [⟨len, z.size⟩, ⟨bucket, z.size⟩] ++ (if bucket = 0 then [] else [⟨len, z.size⟩]) ++
    (if z.hs then [⟨len, z.layer1⟩] else []) ++ (if z.negative then [⟨len, z.layer1⟩] else [])

end Verif.W2V.Dry
