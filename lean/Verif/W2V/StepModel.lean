import Verif.W2V.NegModel
import Verif.W2V.WindowModel
import Mathlib.Analysis.InnerProductSpace.Basic
import Mathlib.Analysis.SpecialFunctions.Log.Basic

/-!
# The training step of word2vec (gensim/models/word2vec_inner.pyx)

Arithmetic is real instead of single precision.  The vectors of the words (`syn0`), of the inner nodes
of the Huffman tree (`syn1`) and the output vectors (`syn1neg`) are functions from row numbers to a real
inner product space `E`; `sdot` is the inner product, `saxpy` adds a multiple.
-/

namespace Verif.W2V.Step

open scoped InnerProductSpace

variable {E : Type} [NormedAddCommGroup E] [InnerProductSpace ℝ E]

/-! ## The tables -/

/-- Models `EXP_TABLE`, gensim/models/word2vec_inner.pyx 934-935. -/
noncomputable def expTable (i : ℕ) : ℝ :=
  let e := Real.exp (((i : ℝ) / 1000 * 2 - 1) * 6)
  e / (e + 1)

/-- Models `LOG_TABLE`, gensim/models/word2vec_inner.pyx 936. -/
noncomputable def logTable (i : ℕ) : ℝ := Real.log (expTable i)

/-- Models the index `<int>((f + MAX_EXP) * (EXP_TABLE_SIZE / MAX_EXP / 2))`,
gensim/models/word2vec_inner.pyx 124.  `scale` is 83 if Cython compiles the division of the two constants
as a division of C integers, and 250/3 if it compiles it as a true division. -/
noncomputable def tableIndex (scale f : ℝ) : ℕ := ⌊(f + 6) * scale⌋₊

/-- The sigmoid and its logarithm, as the program computes them. -/
structure Sig where
  sig : ℝ → ℝ
  logsig : ℝ → ℝ

/-- By table lookup. -/
noncomputable def tables (scale : ℝ) : Sig :=
  { sig := fun f => expTable (tableIndex scale f), logsig := fun f => logTable (tableIndex scale f) }

/-! ## The inner loops -/

/-- The output rows, the accumulated error and the running loss. -/
structure Out (E : Type) where
  syn1 : ℕ → E
  work : E
  loss : ℝ

/-- Models the body of the loop over the code of a word, gensim/models/word2vec_inner.pyx 119-136 and
319-336: `h` is the input vector, `point` the inner node and `code` the bit. -/
noncomputable def hsBit (S : Sig) (alpha : ℝ) (computeLoss : Bool) (h : E) (o : Out E)
    (pc : ℕ × Bool) : Out E :=
  let fDot := ⟪h, o.syn1 pc.1⟫_ℝ
  if fDot ≤ -6 ∨ 6 ≤ fDot then o
  else
    let f := S.sig fDot
    let g := (1 - (if pc.2 then 1 else 0) - f) * alpha
    let lprob := -1 * (if pc.2 then -1 else 1) * fDot
    if computeLoss ∧ (lprob ≤ -6 ∨ 6 ≤ lprob) then o
    else
      { loss := if computeLoss then o.loss - S.logsig lprob else o.loss
        work := o.work + g • o.syn1 pc.1
        syn1 := Function.update o.syn1 pc.1 (o.syn1 pc.1 + g • h) }

/-- Models the body of the loop over the word and its negative samples,
gensim/models/word2vec_inner.pyx 229-243 and 439-453. -/
noncomputable def negDraw (S : Sig) (alpha : ℝ) (computeLoss : Bool) (h : E) (o : Out E)
    (tl : ℕ × Bool) : Out E :=
  let fDot := ⟪h, o.syn1 tl.1⟫_ℝ
  if fDot ≤ -6 ∨ 6 ≤ fDot then o
  else
    let f := S.sig fDot
    let g := ((if tl.2 then 1 else 0) - f) * alpha
    let lDot := if tl.2 then fDot else -fDot
    if computeLoss ∧ (lDot ≤ -6 ∨ 6 ≤ lDot) then o
    else
      { loss := if computeLoss then o.loss - S.logsig lDot else o.loss
        work := o.work + g • o.syn1 tl.1
        syn1 := Function.update o.syn1 tl.1 (o.syn1 tl.1 + g • h) }

/-- Models the choice of the targets, gensim/models/word2vec_inner.pyx 217-228: the word itself with
label 1, then the draws different from it with label 0. -/
def negTargets (table : List ℕ) (negative word r : ℕ) : List (ℕ × Bool) :=
  (word, true) :: (negatives table word negative r).1.map fun t => (t, false)

/-- Models `words_lockf[index % lockf_len]`. -/
def lock (lockf : List ℝ) (w : ℕ) : ℝ := lockf.getD (w % lockf.length) 0

/-! ## Skip-gram -/

/-- Models `w2v_fast_sentence_sg_hs`, gensim/models/word2vec_inner.pyx 74-138: the new word vectors, node
vectors and loss. -/
noncomputable def sgHs (S : Sig) (alpha : ℝ) (computeLoss : Bool) (lockf : List ℝ)
    (path : List (ℕ × Bool)) (word2 : ℕ) (syn0 syn1 : ℕ → E) (loss : ℝ) : (ℕ → E) × (ℕ → E) × ℝ :=
  let o := path.foldl (hsBit S alpha computeLoss (syn0 word2)) { syn1 := syn1, work := 0, loss := loss }
  (Function.update syn0 word2 (syn0 word2 + lock lockf word2 • o.work), o.syn1, o.loss)

/-- Models `w2v_fast_sentence_sg_neg`, gensim/models/word2vec_inner.pyx 159-247 (`targets` by
`negTargets`). -/
noncomputable def sgNeg (S : Sig) (alpha : ℝ) (computeLoss : Bool) (lockf : List ℝ)
    (targets : List (ℕ × Bool)) (word2 : ℕ) (syn0 syn1neg : ℕ → E) (loss : ℝ) :
    (ℕ → E) × (ℕ → E) × ℝ :=
  let o := targets.foldl (negDraw S alpha computeLoss (syn0 word2))
    { syn1 := syn1neg, work := 0, loss := loss }
  (Function.update syn0 word2 (syn0 word2 + lock lockf word2 • o.work), o.syn1, o.loss)

/-! ## Continuous bag of words -/

/-- Models `inv_count`, gensim/models/word2vec_inner.pyx 313-314. -/
noncomputable def invCount (ctx : List ℕ) : ℝ := if ctx.length > 0 then 1 / (ctx.length : ℝ) else 1

/-- Models the input vector `neu1`, gensim/models/word2vec_inner.pyx 305-316; `ctx` are the words at the
positions `j` to `k` other than `i`. -/
noncomputable def cbowInput (cbowMean : Bool) (ctx : List ℕ) (syn0 : ℕ → E) : E :=
  let neu1 := ctx.foldl (fun s w => s + syn0 w) 0
  if cbowMean then invCount ctx • neu1 else neu1

/-- Models the final loop, gensim/models/word2vec_inner.pyx 338-345, 455-462. -/
noncomputable def cbowSpread (cbowMean : Bool) (lockf : List ℝ) (ctx : List ℕ) (work : E)
    (syn0 : ℕ → E) : ℕ → E :=
  let work := if cbowMean then work else invCount ctx • work
  ctx.foldl (fun s w => Function.update s w (s w + lock lockf w • work)) syn0

/-- Models `w2v_fast_sentence_cbow_hs`, gensim/models/word2vec_inner.pyx 250-345. -/
noncomputable def cbowHs (S : Sig) (alpha : ℝ) (computeLoss cbowMean : Bool) (lockf : List ℝ)
    (path : List (ℕ × Bool)) (ctx : List ℕ) (syn0 syn1 : ℕ → E) (loss : ℝ) :
    (ℕ → E) × (ℕ → E) × ℝ :=
  let o := path.foldl (hsBit S alpha computeLoss (cbowInput cbowMean ctx syn0))
    { syn1 := syn1, work := 0, loss := loss }
  (cbowSpread cbowMean lockf ctx o.work syn0, o.syn1, o.loss)

/-- Models `w2v_fast_sentence_cbow_neg`, gensim/models/word2vec_inner.pyx 348-464. -/
noncomputable def cbowNeg (S : Sig) (alpha : ℝ) (computeLoss cbowMean : Bool) (lockf : List ℝ)
    (targets : List (ℕ × Bool)) (ctx : List ℕ) (syn0 syn1neg : ℕ → E) (loss : ℝ) :
    (ℕ → E) × (ℕ → E) × ℝ :=
  let o := targets.foldl (negDraw S alpha computeLoss (cbowInput cbowMean ctx syn0))
    { syn1 := syn1neg, work := 0, loss := loss }
  (cbowSpread cbowMean lockf ctx o.work syn0, o.syn1, o.loss)

/-! ## A batch -/

/-- The whole state of a model in training. -/
structure Net (E : Type) where
  syn0 : ℕ → E
  syn1 : ℕ → E
  syn1neg : ℕ → E
  loss : ℝ
  rand : ℕ

/-- The settings of a model, gensim/models/word2vec_inner.pyx 467-499; `path w` are the points and the code
of the word `w`. -/
structure Config where
  S : Sig
  hs : Bool
  negative : ℕ
  cbowMean : Bool
  computeLoss : Bool
  alpha : ℝ
  lockf : List ℝ
  table : List ℕ
  path : ℕ → List (ℕ × Bool)

/-- Models lines 587-590 of gensim/models/word2vec_inner.pyx: training on one pair of a word and a context
word. -/
noncomputable def sgPair (c : Config) (s : Net E) (p : ℕ × ℕ) : Net E :=
  let s := if c.hs then
      let r := sgHs c.S c.alpha c.computeLoss c.lockf (c.path p.1) p.2 s.syn0 s.syn1 s.loss
      { s with syn0 := r.1, syn1 := r.2.1, loss := r.2.2 }
    else s
  if c.negative > 0 then
    let r := sgNeg c.S c.alpha c.computeLoss c.lockf (negTargets c.table c.negative p.1 s.rand) p.2
      s.syn0 s.syn1neg s.loss
    { s with syn0 := r.1, syn1neg := r.2.1, loss := r.2.2,
             rand := (negatives c.table p.1 c.negative s.rand).2 }
  else s

/-- Models lines 680-683 of gensim/models/word2vec_inner.pyx: training on one word and its context. -/
noncomputable def cbowWord (c : Config) (s : Net E) (p : ℕ × List ℕ) : Net E :=
  let s := if c.hs then
      let r := cbowHs c.S c.alpha c.computeLoss c.cbowMean c.lockf (c.path p.1) p.2 s.syn0 s.syn1 s.loss
      { s with syn0 := r.1, syn1 := r.2.1, loss := r.2.2 }
    else s
  if c.negative > 0 then
    let r := cbowNeg c.S c.alpha c.computeLoss c.cbowMean c.lockf
      (negTargets c.table c.negative p.1 s.rand) p.2 s.syn0 s.syn1neg s.loss
    { s with syn0 := r.1, syn1neg := r.2.1, loss := r.2.2,
             rand := (negatives c.table p.1 c.negative s.rand).2 }
  else s

/-- Models the loop of `train_batch_sg`, gensim/models/word2vec_inner.pyx 573-590: `indexes` are the words
at the positions, `sidx` the sentence boundaries. -/
noncomputable def trainSg (c : Config) (window : ℕ) (reduced : ℕ → ℕ) (indexes sidx : List ℕ)
    (s : Net E) : Net E :=
  ((pairs window reduced sidx).map fun ij => (indexes.getD ij.1 0, indexes.getD ij.2 0)).foldl (sgPair c) s

/-- Models the loop of `train_batch_cbow`, gensim/models/word2vec_inner.pyx 669-683. -/
noncomputable def trainCbow (c : Config) (window : ℕ) (reduced : ℕ → ℕ) (indexes sidx : List ℕ)
    (s : Net E) : Net E :=
  ((List.range (sidx.length - 1)).flatMap fun n =>
    (List.range' (sidx.getD n 0) (sidx.getD (n + 1) 0 - sidx.getD n 0)).map fun i =>
      (indexes.getD i 0,
        (context window reduced (sidx.getD n 0) (sidx.getD (n + 1) 0) i).map fun j => indexes.getD j 0)
    ).foldl (cbowWord c) s

/-! ## Scoring -/

/-- Models `score_pair_sg_hs`, gensim/models/word2vec_inner.pyx 781-798: what is added to `work[0]`. -/
noncomputable def scorePath (S : Sig) (h : E) (syn1 : ℕ → E) (path : List (ℕ × Bool)) (acc : ℝ) : ℝ :=
  path.foldl (fun acc pc =>
    let f := ⟪h, syn1 pc.1⟫_ℝ * (if pc.2 then -1 else 1)
    if f ≤ -6 ∨ 6 ≤ f then acc else acc + S.logsig f) acc

/-- Models the loop of `score_sentence_sg`, gensim/models/word2vec_inner.pyx 764-777. -/
noncomputable def scoreSg (S : Sig) (path : ℕ → List (ℕ × Bool)) (window : ℕ) (indexes : List ℕ)
    (syn0 syn1 : ℕ → E) : ℝ :=
  (List.range indexes.length).foldl (fun acc i =>
    if (path (indexes.getD i 0)).length = 0 then acc
    else (context window (fun _ => 0) 0 indexes.length i).foldl (fun acc j =>
      if (path (indexes.getD j 0)).length = 0 then acc
      else scorePath S (syn0 (indexes.getD j 0)) syn1 (path (indexes.getD i 0)) acc) acc) 0

end Verif.W2V.Step
