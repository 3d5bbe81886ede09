import Verif.W2V.TrainModel
import Verif.W2V.OnlineModel
import Mathlib.Data.Rat.Init

/-!
# The life cycle of a Word2Vec model

`gensim/models/word2vec.py`: the constructor (365-433), `build_vocab` (476-483),
`build_vocab_from_freq` (516-532), `train` (1007-1062), the checks of the arguments (1464-1517), the job
producer when a total is missing (1167-1211), `reset_from` (1840-1846).

What training does to the vectors and how a vocabulary is chosen are modelled elsewhere
(`Verif/W2V/*.lean`); here an epoch records the sentences it sees.
-/

namespace Verif.Life
open Verif PyDict

/-- The exceptions. -/
inductive Err | type | runtime | value | index | key
deriving DecidableEq, Repr

/-! ### Corpora -/

/-- What is given as `corpus_iterable`: a sequence that can be read again and again, a generator or
another iterator (`iter(...)`, `map(...)`, a file) with the items it still has, or something that is not
iterable. -/
inductive Corpus (α : Type)
  | seq (l : List α)
  | gen (rest : List α)
  | iter (rest : List α)
  | other

variable {α : Type}

/-- A `for` loop over the corpus: the items it sees, and the corpus afterwards. -/
def Corpus.pass : Corpus α → List α × Corpus α
  | .seq l => (l, .seq l)
  | .gen l => (l, .gen [])
  | .iter l => (l, .iter [])
  | .other => ([], .other)

/-- `isinstance(x, Iterable)`. -/
def Corpus.iterable : Corpus α → Bool
  | .other => false
  | _ => true

/-- `isinstance(x, GeneratorType)`. -/
def Corpus.isGen : Corpus α → Bool
  | .gen _ => true
  | _ => false

/-- `_check_corpus_sanity`: `gensim/models/word2vec.py:1464-1477`.  `file` is whether the path given as
`corpus_file` is a file. -/
def checkCorpus (it : Option (Corpus α)) (file : Option Bool) (passes : Int) : Except Err Unit :=
  match it, file with
  | none, none => .error .type
  | some _, some _ => .error .type
  | none, some isFile => if isFile then .ok () else .error .type
  | some c, none =>
    if !c.iterable then .error .type
    else if c.isGen ∧ passes > 1 then .error .type
    else .ok ()

/-! ### The model -/

/-- The attributes of a model that matter here: sizes of the vocabulary and of the vectors, learning
rates, epochs (`None` possible), counters. -/
structure Mdl where
  vocab : Nat
  vecs : Nat
  alpha : ℚ
  minAlpha : ℚ
  epochs : Option Int
  trainCount : Nat
  corpusCount : Nat
  totalWords : Nat

/-- `x or y` for a number or `None`. -/
def orElse (x : Option ℚ) (y : ℚ) : ℚ :=
  match x with
  | none => y
  | some v => if v = 0 then y else v

/-- `if n` for a number or `None`. -/
def truthy : Option Nat → Bool
  | none => false
  | some n => n ≠ 0

/-- The arguments of `train` besides the corpus; `callbacks` is their number. -/
structure Args where
  totalExamples : Option Nat
  totalWords : Option Nat
  epochs : Option Int
  startAlpha : Option ℚ
  endAlpha : Option ℚ
  callbacks : Nat

/-- `_check_training_sanity`: `gensim/models/word2vec.py:1501-1517`. -/
def checkTraining (m : Mdl) (a : Args) : Except Err Unit :=
  if m.vocab = 0 then .error .runtime
  else if m.vecs = 0 then .error .runtime
  else if a.totalWords = none ∧ a.totalExamples = none then .error .value
  else match a.epochs with
    | none => .error .value
    | some e => if e ≤ 0 then .error .value else .ok ()

/-- What happens during training, in order: calls of callbacks (by number) and epochs with what they see
(`none`: a file). -/
inductive Ev (α : Type)
  | trainBegin (cb : Nat)
  | epochBegin (cb : Nat)
  | epoch (seen : Option (List α))
  | epochEnd (cb : Nat)
  | trainEnd (cb : Nat)
deriving DecidableEq

/-- The loop over the epochs: `gensim/models/word2vec.py:1032-1051`; for a file, the test of
`_train_epoch_corpusfile` (1317). -/
def epochLoop (cbs : Nat) (words : Option Nat) : Nat → Option (Corpus α) → List (Ev α) →
    Option (Corpus α) × List (Ev α) × Except Err Unit
  | 0, it, evs => (it, evs, .ok ())
  | n + 1, it, evs =>
    let evs := evs ++ (List.range cbs).map .epochBegin
    match it with
    | some c =>
      epochLoop cbs words n (some c.pass.2)
        (evs ++ [.epoch (some c.pass.1)] ++ (List.range cbs).map .epochEnd)
    | none =>
      if truthy words then
        epochLoop cbs words n none (evs ++ [.epoch none] ++ (List.range cbs).map .epochEnd)
      else (none, evs, .error .value)

/-- What a call gives: the model, the corpus, the events and the result. -/
structure Out (α : Type) where
  model : Mdl
  corpus : Option (Corpus α)
  events : List (Ev α)
  result : Except Err Unit

/-- `train`: `gensim/models/word2vec.py:1007-1062`.  The learning rates and the number of epochs are
stored before the arguments are checked. -/
def train (m : Mdl) (it : Option (Corpus α)) (file : Option Bool) (a : Args) : Out α :=
  let m := { m with
    alpha := orElse a.startAlpha m.alpha, minAlpha := orElse a.endAlpha m.minAlpha, epochs := a.epochs }
  match checkTraining m a with
  | .error e => ⟨m, it, [], .error e⟩
  | .ok () =>
    match checkCorpus it file (a.epochs.getD 0) with
    | .error e => ⟨m, it, [], .error e⟩
    | .ok () =>
      match epochLoop a.callbacks a.totalWords (a.epochs.getD 0).toNat it
          ((List.range a.callbacks).map .trainBegin) with
      | (it', evs, .error e) => ⟨m, it', evs, .error e⟩
      | (it', evs, .ok ()) =>
        ⟨{ m with trainCount := m.trainCount + 1 }, it',
          evs ++ (List.range a.callbacks).map .trainEnd, .ok ()⟩

/-- `build_vocab` of a model without vocabulary, from sentences: `gensim/models/word2vec.py:476-483`,
`534-564`.  `kept` is the number of words kept of the sentences seen; `len` their lengths. -/
def buildVocab (kept : List α → Nat) (len : α → Nat) (m : Mdl) (it : Option (Corpus α)) : Out α :=
  match checkCorpus it none 1 with
  | .error e => ⟨m, it, [], .error e⟩
  | .ok () =>
    match it with
    | none => ⟨m, it, [], .error .type⟩
    | some c =>
      ⟨{ m with
          vocab := kept c.pass.1, vecs := kept c.pass.1, corpusCount := c.pass.1.length
          totalWords := (c.pass.1.map len).sum }, some c.pass.2, [], .ok ()⟩

/-- `build_vocab_from_freq` of a model without vocabulary: `gensim/models/word2vec.py:516-532`. -/
def buildVocabFromFreq (kept : Nat) (corpusCount : Option Nat) (m : Mdl) : Mdl :=
  { m with vocab := kept, vecs := kept, corpusCount := corpusCount.getD 0 }

/-- A model as the constructor sets it up (365-413). -/
def fresh (alpha minAlpha : ℚ) (epochs : Int) : Mdl :=
  ⟨0, 0, alpha, minAlpha, some epochs, 0, 0, 0⟩

/-- The constructor with sentences: `gensim/models/word2vec.py:415-421`. -/
def construct (kept : List α → Nat) (len : α → Nat) (alpha minAlpha : ℚ) (epochs : Int) (callbacks : Nat)
    (c : Corpus α) : Out α :=
  let m := fresh alpha minAlpha epochs
  match checkCorpus (some c) none (epochs + 1) with
  | .error e => ⟨m, some c, [], .error e⟩
  | .ok () =>
    let o := buildVocab kept len m (some c)
    match o.result with
    | .error e => ⟨o.model, o.corpus, [], .error e⟩
    | .ok () =>
      train o.model o.corpus none
        ⟨some o.model.corpusCount, some o.model.totalWords, o.model.epochs, some o.model.alpha,
          some o.model.minAlpha, callbacks⟩

/-- What is done with a model over its life: `build_vocab` (with any effect on sizes and counts),
`train`. -/
inductive Op (α : Type)
  | vocab (f : Mdl → Mdl) (h : ∀ m, (f m).trainCount = m.trainCount)
  | train (it : Option (Corpus α)) (file : Option Bool) (a : Args)

/-- Whether a call returned. -/
def isOk : Except Err Unit → Bool
  | .ok _ => true
  | .error _ => false

/-- The effect of an operation, and whether it was a call of `train` that returned. -/
def Op.run (m : Mdl) : Op α → Mdl × Bool
  | .vocab f _ => (f m, false)
  | .train it file a =>
    let o := Life.train m it file a
    (o.model, isOk o.result)

/-- A history: the model at the end and the number of calls of `train` that returned. -/
def runs (m : Mdl) : List (Op α) → Mdl × Nat
  | [] => (m, 0)
  | op :: ops => ((runs (op.run m).1 ops).1, (runs (op.run m).1 ops).2 + if (op.run m).2 then 1 else 0)

/-! ### The job producer without a total -/

/-- `_job_producer`: `gensim/models/word2vec.py:1172-1200`: the jobs put on the queue, and whether the
loop came to its end.  Without a (non-zero) `total_examples` the number of words pushed is divided by
`total_words`: with 0 or `None` the thread dies there (1192). -/
def produce (batchWords : Nat) (len : α → Nat) (ex words : Option Nat) :
    List α → List α → Nat → List (List α) → List (List α) × Bool
  | [], batch, _, js => (if batch = [] then js else js ++ [batch], true)
  | d :: ds, batch, size, js =>
    if size + len d ≤ batchWords then produce batchWords len ex words ds (batch ++ [d]) (size + len d) js
    else if truthy ex || truthy words then produce batchWords len ex words ds [d] (len d) (js ++ [batch])
    else (js ++ [batch], false)

/-- The epoch with these threads: as `W2V.epochInit`, the end markers being put only if the loop came to
its end (1208-1210). -/
def epochStart (w : Nat) (p : List (List α) × Bool) : W2V.Epoch (List α) :=
  { W2V.epochInit w p.1 with
    rest := p.1.map some ++ if p.2 then List.replicate w none else [] }

/-! ### `reset_from` -/

variable {τ : Type} [DecidableEq τ] {V : Type}

/-- A model with references to its vocabulary objects: `idx` to `index_to_key` and `key_to_index`, `exp`
to `expandos`. -/
structure Ref (V : Type) where
  idx : Nat
  exp : Nat
  vectors : List V
  out : List V
  corpusCount : Nat
  totalWords : Nat

/-- The objects and the models. -/
structure World (τ V : Type) where
  idxs : List (List τ × PyDict τ Nat)
  exps : List (List Nat)
  models : List (Ref V)

/-- The vocabulary a model refers to. -/
def World.wv (w : World τ V) (m : Ref V) : Option (W2V.WV τ) :=
  (w.idxs[m.idx]?).bind fun p => (w.exps[m.exp]?).map fun c => ⟨p.1, p.2, c⟩

/-- `model.wv[word]`: `gensim/models/keyedvectors.py:367-423`. -/
def World.vector (w : World τ V) (m : Ref V) (k : τ) : Except Err V :=
  match (w.idxs[m.idx]?).bind fun p => get? p.2 k with
  | none => .error .key
  | some i =>
    match m.vectors[i]? with
    | none => .error .index
    | some v => .ok v

/-- `models[i].reset_from(models[j])`: `gensim/models/word2vec.py:1840-1846`, `831-839`: the lists and
dictionaries of the other model are used themselves, not copied. -/
def World.resetFrom (w : World τ V) (freshRow : Nat → V) (zero : V) (i j : Nat) : Option (World τ V) :=
  (w.models[i]?).bind fun mi => (w.models[j]?).bind fun mj => (w.idxs[mj.idx]?).map fun p =>
    { w with models := w.models.set i { mi with
        idx := mj.idx, exp := mj.exp
        vectors := (List.range p.1.length).map freshRow
        out := List.replicate p.1.length zero
        corpusCount := mj.corpusCount } }

/-- `models[i].build_vocab(..., update=True)`: `gensim/models/word2vec.py:655-680`, `841-858`: words are
appended to the lists and dictionaries the model refers to. -/
def World.update (w : World τ V) (freshRow : Nat → V) (zero : V) (i : Nat) (cfg : W2V.Cfg τ)
    (raw : PyDict τ Nat) : Option (World τ V) :=
  (w.models[i]?).bind fun m => (w.wv m).bind fun wv =>
    let wv' := W2V.prepareUpdate cfg raw wv
    if m.vectors.length = 0 then none
    else (W2V.prepVectors freshRow wv'.i2k.length m.vectors).map fun vectors =>
      { idxs := w.idxs.set m.idx (wv'.i2k, wv'.k2i)
        exps := w.exps.set m.exp wv'.counts
        models := w.models.set i { m with
          vectors := vectors
          out := m.out ++ List.replicate (vectors.length - m.vectors.length) zero } }

/-- The vocabulary part of `models[i].build_vocab(...)` (`update=False`):
`gensim/models/word2vec.py:618-642`, `738-739`: new lists and dictionaries, but the counts are stored in
the same `expandos`.  The vectors are left out here. -/
def World.rebuild (argsort : List Nat → List Nat) (w : World τ V) (i : Nat) (cfg : W2V.Cfg τ)
    (raw : PyDict τ Nat) : Option (World τ V) :=
  (w.models[i]?).bind fun m => (w.wv m).map fun wv =>
    let wv' := W2V.prepareFresh argsort cfg raw wv
    { idxs := w.idxs ++ [(wv'.i2k, wv'.k2i)]
      exps := w.exps.set m.exp wv'.counts
      models := w.models.set i { m with idx := w.idxs.length } }

end Verif.Life
