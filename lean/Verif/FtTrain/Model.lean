import Verif.W2V.StepModel

/-!
# The training step of fastText (gensim/models/fasttext_inner.pyx)

Arithmetic is real instead of single precision.  The two arrays of input vectors, `syn0_vocab` (a row for
each word) and `syn0_ngrams` (a row for each bucket), are one function on `Row`; the output vectors are
functions from row numbers.  They take values in a real inner product space `E`; `our_dot` is the inner
product, `our_saxpy` adds a multiple.
-/

namespace Verif.FtTrain

open Verif.W2V Verif.W2V.Step
open scoped InnerProductSpace

variable {E : Type} [NormedAddCommGroup E] [InnerProductSpace ℝ E]

/-- The rows of the input vectors: those of `syn0_vocab` and those of `syn0_ngrams`. -/
inductive Row where
  | word (w : ℕ)
  | gram (b : ℕ)
deriving DecidableEq

/-- Models `EXP_TABLE`, gensim/models/fasttext_inner.pyx 728-730. -/
noncomputable def expTable (i : ℕ) : ℝ :=
  let e := Real.exp (((i : ℝ) / 512 * 2 - 1) * 8)
  e / (e + 1)

/-- Models the lookup `EXP_TABLE[<int>((f_dot + MAX_EXP) * (EXP_TABLE_SIZE / MAX_EXP / 2))]`,
gensim/models/fasttext_inner.pyx 137 (512 / 8 / 2 is 32 in integers too). -/
noncomputable def table (f : ℝ) : ℝ := expTable ⌊(f + 8) * 32⌋₊

/-- The output rows and the accumulated error. -/
structure Out (E : Type) where
  syn1 : ℕ → E
  work : E

/-- Models the two calls of `our_saxpy` with the multiplier `g`,
gensim/models/fasttext_inner.pyx 139-140, 212-213, 290-291, 357-358. -/
noncomputable def push (h : E) (o : Out E) (row : ℕ) (g : ℝ) : Out E :=
  { work := o.work + g • o.syn1 row
    syn1 := Function.update o.syn1 row (o.syn1 row + g • h) }

/-- Models the body of the loop over the samples in `fasttext_fast_sentence_sg_neg`,
gensim/models/fasttext_inner.pyx 133-140; `sig` is the lookup in the table. -/
noncomputable def sgDraw (sig : ℝ → ℝ) (alpha : ℝ) (h : E) (o : Out E) (tl : ℕ × Bool) : Out E :=
  let fDot := ⟪h, o.syn1 tl.1⟫_ℝ
  if fDot ≤ -8 ∨ 8 ≤ fDot then o
  else push h o tl.1 (((if tl.2 then 1 else 0) - sig fDot) * alpha)

/-- Models the body of the loop over the samples in `fasttext_fast_sentence_cbow_neg`,
gensim/models/fasttext_inner.pyx 280-291. -/
noncomputable def cbowDraw (sig : ℝ → ℝ) (alpha : ℝ) (h : E) (o : Out E) (tl : ℕ × Bool) : Out E :=
  let fDot := ⟪h, o.syn1 tl.1⟫_ℝ
  let f := if fDot ≤ -8 then 0 else if 8 ≤ fDot then 1 else sig fDot
  push h o tl.1 (((if tl.2 then 1 else 0) - f) * alpha)

/-- Models the body of the loop over the code of a word, gensim/models/fasttext_inner.pyx 204-213 and
349-358. -/
noncomputable def hsBit (sig : ℝ → ℝ) (alpha : ℝ) (h : E) (o : Out E) (pc : ℕ × Bool) : Out E :=
  let fDot := ⟪h, o.syn1 pc.1⟫_ℝ
  if fDot ≤ -8 ∨ 8 ≤ fDot then o
  else push h o pc.1 ((1 - (if pc.2 then 1 else 0) - sig fDot) * alpha)

/-- The lock factors, `vectors_vocab_lockf` and `vectors_ngrams_lockf`. -/
structure Locks where
  vocab : List ℝ
  ngrams : List ℝ

/-- Models `vocab_lockf[index % vocab_lockf_len]` and `ngrams_lockf[index % ngrams_lockf_len]`. -/
def rowLock (l : Locks) : Row → ℝ
  | .word w => l.vocab.getD (w % l.vocab.length) 0
  | .gram b => l.ngrams.getD (b % l.ngrams.length) 0

/-- The rows of a word: its own and those of its n-grams (`subwords_idx`), with repetitions. -/
def rowsOf (subwords : ℕ → List ℕ) (w : ℕ) : List Row := .word w :: (subwords w).map .gram

/-- Models the input vector of skip-gram, gensim/models/fasttext_inner.pyx 106-117, 188-200. -/
noncomputable def sgInput (subwords : ℕ → List ℕ) (w : ℕ) (syn0 : Row → E) : E :=
  let neu1 := syn0 (.word w)
  if (subwords w).length ≠ 0 then
    let neu1 := (subwords w).foldl (fun s b => s + syn0 (.gram b)) neu1
    (1 / ((subwords w).length : ℝ)) • neu1
  else neu1

/-- Models the updates of rows by `work` times their lock factors,
gensim/models/fasttext_inner.pyx 141-144, 215-220, 296-305, 363-372. -/
noncomputable def spread (l : Locks) (rows : List Row) (work : E) (syn0 : Row → E) : Row → E :=
  rows.foldl (fun s r => Function.update s r (s r + rowLock l r • work)) syn0

/-- Models `fasttext_fast_sentence_sg_neg`, gensim/models/fasttext_inner.pyx 73-144; `targets` by
`negTargets`. -/
noncomputable def sgNeg (sig : ℝ → ℝ) (alpha : ℝ) (l : Locks) (subwords : ℕ → List ℕ)
    (targets : List (ℕ × Bool)) (input : ℕ) (syn0 : Row → E) (syn1neg : ℕ → E) :
    (Row → E) × (ℕ → E) :=
  let o := targets.foldl (sgDraw sig alpha (sgInput subwords input syn0)) { syn1 := syn1neg, work := 0 }
  (spread l (rowsOf subwords input) o.work syn0, o.syn1)

/-- Models `fasttext_fast_sentence_sg_hs`, gensim/models/fasttext_inner.pyx 147-220. -/
noncomputable def sgHs (sig : ℝ → ℝ) (alpha : ℝ) (l : Locks) (subwords : ℕ → List ℕ)
    (path : List (ℕ × Bool)) (input : ℕ) (syn0 : Row → E) (syn1 : ℕ → E) : (Row → E) × (ℕ → E) :=
  let o := path.foldl (hsBit sig alpha (sgInput subwords input syn0)) { syn1 := syn1, work := 0 }
  (spread l (rowsOf subwords input) o.work syn0, o.syn1)

/-- The rows added up for a context, in the order of the loops,
gensim/models/fasttext_inner.pyx 252-259, 335-342. -/
def ctxRows (subwords : ℕ → List ℕ) (ctx : List ℕ) : List Row := ctx.flatMap (rowsOf subwords)

/-- Models `inv_count`, gensim/models/fasttext_inner.pyx 245, 261-262. -/
noncomputable def invCount (rows : List Row) : ℝ :=
  if (rows.length : ℝ) > 0.5 then 1 / (rows.length : ℝ) else 1

/-- Models the input vector of CBOW, gensim/models/fasttext_inner.pyx 250-264, 333-346. -/
noncomputable def cbowInput (cbowMean : Bool) (subwords : ℕ → List ℕ) (ctx : List ℕ) (syn0 : Row → E) : E :=
  let neu1 := (ctxRows subwords ctx).foldl (fun s r => s + syn0 r) 0
  if cbowMean then invCount (ctxRows subwords ctx) • neu1 else neu1

/-- Models the end of the CBOW functions, gensim/models/fasttext_inner.pyx 293-305, 360-372. -/
noncomputable def cbowSpread (cbowMean : Bool) (l : Locks) (subwords : ℕ → List ℕ) (ctx : List ℕ) (work : E)
    (syn0 : Row → E) : Row → E :=
  let work := if cbowMean then work else invCount (ctxRows subwords ctx) • work
  spread l (ctxRows subwords ctx) work syn0

/-- Models `fasttext_fast_sentence_cbow_neg`, gensim/models/fasttext_inner.pyx 223-305. -/
noncomputable def cbowNeg (sig : ℝ → ℝ) (alpha : ℝ) (cbowMean : Bool) (l : Locks) (subwords : ℕ → List ℕ)
    (targets : List (ℕ × Bool)) (ctx : List ℕ) (syn0 : Row → E) (syn1neg : ℕ → E) :
    (Row → E) × (ℕ → E) :=
  let o := targets.foldl (cbowDraw sig alpha (cbowInput cbowMean subwords ctx syn0))
    { syn1 := syn1neg, work := 0 }
  (cbowSpread cbowMean l subwords ctx o.work syn0, o.syn1)

/-- Models `fasttext_fast_sentence_cbow_hs`, gensim/models/fasttext_inner.pyx 308-372. -/
noncomputable def cbowHs (sig : ℝ → ℝ) (alpha : ℝ) (cbowMean : Bool) (l : Locks) (subwords : ℕ → List ℕ)
    (path : List (ℕ × Bool)) (ctx : List ℕ) (syn0 : Row → E) (syn1 : ℕ → E) : (Row → E) × (ℕ → E) :=
  let o := path.foldl (hsBit sig alpha (cbowInput cbowMean subwords ctx syn0))
    { syn1 := syn1, work := 0 }
  (cbowSpread cbowMean l subwords ctx o.work syn0, o.syn1)

/-! ## A batch -/

/-- The whole state of a model in training. -/
structure Net (E : Type) where
  syn0 : Row → E
  syn1 : ℕ → E
  syn1neg : ℕ → E
  rand : ℕ

/-- The settings, gensim/models/fasttext_inner.pyx 394-432: `buckets w` are the buckets of the n-grams of the
word `w` and `path w` its points and code. -/
structure Config where
  sig : ℝ → ℝ
  sg : Bool
  hs : Bool
  negative : ℕ
  cbowMean : Bool
  alpha : ℝ
  locks : Locks
  cumTable : List ℕ
  bucket : ℕ
  buckets : ℕ → List ℕ
  path : ℕ → List (ℕ × Bool)

/-- Models gensim/models/fasttext_inner.pyx 489-493: without buckets a word has no n-grams. -/
def subwords (c : Config) (w : ℕ) : List ℕ := if c.bucket ≠ 0 then c.buckets w else []

/-- Models gensim/models/fasttext_inner.pyx 564-571 for one pair: `p.1` is the word in the middle of the
window (the input) and `p.2` the other one (the target). -/
noncomputable def sgPair (c : Config) (s : Net E) (p : ℕ × ℕ) : Net E :=
  let s := if c.hs then
      let r := sgHs c.sig c.alpha c.locks (subwords c) (c.path p.2) p.1 s.syn0 s.syn1
      { s with syn0 := r.1, syn1 := r.2 }
    else s
  if c.negative > 0 then
    let r := sgNeg c.sig c.alpha c.locks (subwords c) (negTargets c.cumTable c.negative p.2 s.rand) p.1
      s.syn0 s.syn1neg
    { s with syn0 := r.1, syn1neg := r.2, rand := (negatives c.cumTable p.2 c.negative s.rand).2 }
  else s

/-- Models gensim/models/fasttext_inner.pyx 558-562: `p.1` is the word in the middle of the window (the target)
and `p.2` the others. -/
noncomputable def cbowWord (c : Config) (s : Net E) (p : ℕ × List ℕ) : Net E :=
  let s := if c.hs then
      let r := cbowHs c.sig c.alpha c.cbowMean c.locks (subwords c) (c.path p.1) p.2 s.syn0 s.syn1
      { s with syn0 := r.1, syn1 := r.2 }
    else s
  if c.negative > 0 then
    let r := cbowNeg c.sig c.alpha c.cbowMean c.locks (subwords c)
      (negTargets c.cumTable c.negative p.1 s.rand) p.2 s.syn0 s.syn1neg
    { s with syn0 := r.1, syn1neg := r.2, rand := (negatives c.cumTable p.1 c.negative s.rand).2 }
  else s

/-- Models `fasttext_train_any`, gensim/models/fasttext_inner.pyx 517-571: `indexes` are the words at the
positions, `sidx` the sentence boundaries, both as `populate_ft_config` leaves them (`prepare` of
`Verif.W2V.WindowModel`, the same loop as in word2vec). -/
noncomputable def train (c : Config) (window : ℕ) (reduced : ℕ → ℕ) (indexes sidx : List ℕ)
    (s : Net E) : Net E :=
  (List.range (sidx.length - 1)).foldl (fun s n =>
    (List.range' (sidx.getD n 0) (sidx.getD (n + 1) 0 - sidx.getD n 0)).foldl (fun s i =>
      let ctx := (context window reduced (sidx.getD n 0) (sidx.getD (n + 1) 0) i).map
        fun j => indexes.getD j 0
      if c.sg then ctx.foldl (fun s w => sgPair c s (indexes.getD i 0, w)) s
      else cbowWord c s (indexes.getD i 0, ctx)) s) s

end Verif.FtTrain
