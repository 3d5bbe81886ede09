import Verif.W2V.StepModel
import Verif.W2V.SubsampleModel
import Verif.W2V.ReadersModel
import Mathlib.Analysis.InnerProductSpace.PiL2

/-!
# Training and inference of document vectors (gensim/models/doc2vec_inner.pyx, doc2vec.py, doc2vec_corpusfile.pyx)

Arithmetic is real.  Word vectors `wv` and document vectors `dv` are functions from row numbers to a real inner
product space `E`; the output rows `syn1` and `syn1neg` are in a space `H`, which is `E` except for
`dm_concat`, where it has a block of `E` for each tag and each word of the window.
-/

namespace Verif.D2VStep

open Verif.W2V Verif.W2V.Step
open scoped InnerProductSpace

variable {E H : Type} [NormedAddCommGroup E] [InnerProductSpace ℝ E] [NormedAddCommGroup H]
  [InnerProductSpace ℝ H]

/-- The vectors and the state of the generator. -/
structure DNet (E H : Type) where
  wv : ℕ → E
  dv : ℕ → E
  syn1 : ℕ → H
  syn1neg : ℕ → H
  rand : ℕ

/-- Models `Doc2VecConfig`, gensim/models/doc2vec_inner.pyx 226-281; `path w` are the points and the code of
the word `w`; `beyond` is what is in memory after the lock factors of the words. -/
structure DConfig where
  S : Sig
  hs : Bool
  negative : ℕ
  cbowMean : Bool
  alpha : ℝ
  window : ℕ
  wordsLockf : List ℝ
  doctagsLockf : List ℝ
  beyond : ℕ → ℝ
  table : List ℕ
  path : ℕ → List (ℕ × Bool)
  trainWords : Bool
  learnDoctags : Bool
  learnWords : Bool
  learnHidden : Bool

/-! ## The output layer -/

/-- Models the loops over the code of a word, gensim/models/doc2vec_inner.pyx 48-57, 116-125 and 176-185: the
output rows and `work`. -/
noncomputable def outHs (S : Sig) (alpha : ℝ) (learnHidden : Bool) (h : H) (o : (ℕ → H) × H)
    (pc : ℕ × Bool) : (ℕ → H) × H :=
  let f := ⟪h, o.1 pc.1⟫_ℝ
  if f ≤ -6 ∨ 6 ≤ f then o
  else
    let g := (1 - (if pc.2 then 1 else 0) - S.sig f) * alpha
    (if learnHidden then Function.update o.1 pc.1 (o.1 pc.1 + g • h) else o.1, o.2 + g • o.1 pc.1)

/-- Models the loops over a word and its samples, gensim/models/doc2vec_inner.pyx 79-97, 141-160 and 202-221. -/
noncomputable def outNeg (S : Sig) (alpha : ℝ) (learnHidden : Bool) (h : H) (o : (ℕ → H) × H)
    (tl : ℕ × Bool) : (ℕ → H) × H :=
  let f := ⟪h, o.1 tl.1⟫_ℝ
  if f ≤ -6 ∨ 6 ≤ f then o
  else
    let g := ((if tl.2 then 1 else 0) - S.sig f) * alpha
    (if learnHidden then Function.update o.1 tl.1 (o.1 tl.1 + g • h) else o.1, o.2 + g • o.1 tl.1)

/-! ## DBOW -/

/-- Models `fast_document_dbow_hs`, gensim/models/doc2vec_inner.pyx 37-60: the context vectors and the nodes. -/
noncomputable def dbowHs (c : DConfig) (learnContext : Bool) (lockf : List ℝ) (path : List (ℕ × Bool))
    (ctx : ℕ) (vecs syn1 : ℕ → E) : (ℕ → E) × (ℕ → E) :=
  let o := path.foldl (outHs c.S c.alpha c.learnHidden (vecs ctx)) (syn1, 0)
  (if learnContext then Function.update vecs ctx (vecs ctx + lock lockf ctx • o.2) else vecs, o.1)

/-- Models `fast_document_dbow_neg`, gensim/models/doc2vec_inner.pyx 63-102. -/
noncomputable def dbowNeg (c : DConfig) (learnContext : Bool) (lockf : List ℝ) (targets : List (ℕ × Bool))
    (ctx : ℕ) (vecs syn1neg : ℕ → E) : (ℕ → E) × (ℕ → E) :=
  let o := targets.foldl (outNeg c.S c.alpha c.learnHidden (vecs ctx)) (syn1neg, 0)
  (if learnContext then Function.update vecs ctx (vecs ctx + lock lockf ctx • o.2) else vecs, o.1)

/-- Models lines 388-398 of gensim/models/doc2vec_inner.pyx: training on a word and a word of its window. -/
noncomputable def dbowWordPair (c : DConfig) (s : DNet E E) (word ctx : ℕ) : DNet E E :=
  let s := if c.hs then
      let r := dbowHs c c.learnWords c.wordsLockf (c.path word) ctx s.wv s.syn1
      { s with wv := r.1, syn1 := r.2 }
    else s
  if c.negative > 0 then
    let r := dbowNeg c c.learnWords c.wordsLockf (negTargets c.table c.negative word s.rand) ctx s.wv s.syn1neg
    { s with wv := r.1, syn1neg := r.2, rand := (negatives c.table word c.negative s.rand).2 }
  else s

/-- Models lines 402-410 of gensim/models/doc2vec_inner.pyx: training on a word and a tag. -/
noncomputable def dbowTagPair (c : DConfig) (s : DNet E E) (word tag : ℕ) : DNet E E :=
  let s := if c.hs then
      let r := dbowHs c c.learnDoctags c.doctagsLockf (c.path word) tag s.dv s.syn1
      { s with dv := r.1, syn1 := r.2 }
    else s
  if c.negative > 0 then
    let r := dbowNeg c c.learnDoctags c.doctagsLockf (negTargets c.table c.negative word s.rand) tag s.dv
      s.syn1neg
    { s with dv := r.1, syn1neg := r.2, rand := (negatives c.table word c.negative s.rand).2 }
  else s

/-- Models the body of the loop of `train_document_dbow`, gensim/models/doc2vec_inner.pyx 378-410. -/
noncomputable def dbowPosition (c : DConfig) (reduced : ℕ → ℕ) (indexes tags : List ℕ) (s : DNet E E) (i : ℕ) :
    DNet E E :=
  let word := indexes.getD i 0
  let s := if c.trainWords then
      ((context c.window reduced 0 indexes.length i).map fun j => indexes.getD j 0).foldl
        (fun s w => dbowWordPair c s word w) s
    else s
  tags.foldl (fun s t => dbowTagPair c s word t) s

/-- Models the loop of `train_document_dbow`, gensim/models/doc2vec_inner.pyx 376-410. -/
noncomputable def dbowDocument (c : DConfig) (reduced : ℕ → ℕ) (indexes tags : List ℕ) (s : DNet E E) :
    DNet E E :=
  (List.range indexes.length).foldl (dbowPosition c reduced indexes tags) s

/-! ## DM -/

/-- Models the calls of `fast_document_dm_hs` and `fast_document_dm_neg` (or `_dmc_`),
gensim/models/doc2vec_inner.pyx 533-540 and 672-681: the state and `work`. -/
noncomputable def hidden (c : DConfig) (h : H) (s : DNet E H) (word : ℕ) : DNet E H × H :=
  let r := if c.hs then (c.path word).foldl (outHs c.S c.alpha c.learnHidden h) (s.syn1, 0) else (s.syn1, 0)
  let s := { s with syn1 := r.1 }
  if c.negative > 0 then
    let r := (negTargets c.table c.negative word s.rand).foldl (outNeg c.S c.alpha c.learnHidden h)
      (s.syn1neg, r.2)
    ({ s with syn1neg := r.1, rand := (negatives c.table word c.negative s.rand).2 }, r.2)
  else (s, r.2)

/-- Models `inv_count`, gensim/models/doc2vec_inner.pyx 529-530.  If there is no context vector the code uses the
value of the position before, to scale zero and to no effect. -/
noncomputable def dmInvCount (ctx tags : List ℕ) : ℝ :=
  if ctx.length + tags.length > 0 then 1 / ((ctx.length + tags.length : ℕ) : ℝ) else 1

/-- Models the input `neu1`, gensim/models/doc2vec_inner.pyx 518-532. -/
noncomputable def dmInput (cbowMean : Bool) (ctx tags : List ℕ) (wv dv : ℕ → E) : E :=
  let neu1 := ctx.foldl (fun a w => a + wv w) 0
  let neu1 := tags.foldl (fun a t => a + dv t) neu1
  if cbowMean then dmInvCount ctx tags • neu1 else neu1

/-- Models the reading of a lock factor with a given number of factors. -/
def readLock (lockf : List ℝ) (beyond : ℕ → ℝ) (len w : ℕ) : ℝ := lockf.getD (w % len) (beyond (w % len))

/-- Adds a vector to rows, each with its factor. -/
def spread (lk : ℕ → ℝ) (rows : List ℕ) (work : E) (v : ℕ → E) : ℕ → E :=
  rows.foldl (fun v w => Function.update v w (v w + lk w • work)) v

/-- Models the body of the loops of `train_document_dm`, gensim/models/doc2vec_inner.pyx 518-555, and of
`d2v_train_epoch_dm`, gensim/models/doc2vec_corpusfile.pyx 336-378, for a word with the words `ctx` of its
window; `lockLen` is the number that the row of a word is reduced by. -/
noncomputable def dmWord (c : DConfig) (lockLen : ℕ) (s : DNet E E) (word : ℕ) (ctx tags : List ℕ) : DNet E E :=
  let r := hidden c (dmInput c.cbowMean ctx tags s.wv s.dv) s word
  let work := if c.cbowMean then r.2 else dmInvCount ctx tags • r.2
  let s := r.1
  let s := if c.learnDoctags then { s with dv := spread (lock c.doctagsLockf) tags work s.dv } else s
  if c.learnWords then
    { s with wv := spread (readLock c.wordsLockf c.beyond lockLen) ctx work s.wv }
  else s

/-- Models the loop of `train_document_dm`, gensim/models/doc2vec_inner.pyx 508-555.  The lock factors of the
words are looked up modulo `doctags_lockf_len` (line 554). -/
noncomputable def dmDocument (c : DConfig) (reduced : ℕ → ℕ) (indexes tags : List ℕ) (s : DNet E E) : DNet E E :=
  (List.range indexes.length).foldl (fun s i => dmWord c c.doctagsLockf.length s (indexes.getD i 0)
    ((context c.window reduced 0 indexes.length i).map fun j => indexes.getD j 0) tags) s

/-! ## DM with concatenation -/

/-- Models the window, gensim/models/doc2vec_inner.pyx 651-668: `2 * window` words, padded with the null
word. -/
def concatWindow (window nullWord : ℕ) (indexes : List ℕ) (i : ℕ) : List ℕ :=
  ((List.range (2 * window + 1)).filter fun d => d ≠ window).map fun d =>
    if i + d < window ∨ i + d - window ≥ indexes.length then nullWord else indexes.getD (i + d - window) 0

/-- The vectors of `n` blocks. -/
abbrev Blocks (E : Type) (n : ℕ) := PiLp 2 fun _ : Fin n => E

/-- Models the input `neu1`, gensim/models/doc2vec_inner.pyx 655-671: the vectors of the tags and of the words
of the window. -/
def concatInput {n : ℕ} (tags widx : List ℕ) (wv dv : ℕ → E) : Blocks E n :=
  WithLp.toLp 2 fun b => if (b : ℕ) < tags.length then dv (tags.getD b 0) else wv (widx.getD (b - tags.length) 0)

/-- A block of `work`. -/
def block {n : ℕ} (work : Blocks E n) (b : ℕ) : E := if h : b < n then work ⟨b, h⟩ else 0

/-- Adds blocks of a vector to rows, each with its factor: the `m`-th row gets the block `blk m`. -/
def spreadBlocks {n : ℕ} (lk : ℕ → ℝ) (rows : List ℕ) (blk : ℕ → ℕ) (work : Blocks E n) (v : ℕ → E) : ℕ → E :=
  (rows.zipIdx).foldl (fun v wm => Function.update v wm.1 (v wm.1 + lk wm.1 • block work (blk wm.2))) v

/-- Models the body of the loops of `train_document_dm_concat`, gensim/models/doc2vec_inner.pyx 651-690, and of
`d2v_train_epoch_dm_concat`, gensim/models/doc2vec_corpusfile.pyx 495-537: `tagBlock` is the block of `work`
that is added to a tag. -/
noncomputable def concatWord {n : ℕ} (c : DConfig) (tagBlock : ℕ → ℕ) (s : DNet E (Blocks E n)) (word : ℕ)
    (widx tags : List ℕ) : DNet E (Blocks E n) :=
  let r := hidden c (concatInput tags widx s.wv s.dv) s word
  let s := r.1
  let s := if c.learnDoctags then { s with dv := spreadBlocks (lock c.doctagsLockf) tags tagBlock r.2 s.dv } else s
  if c.learnWords then
    { s with wv := spreadBlocks (lock c.wordsLockf) widx (fun m => tags.length + m) r.2 s.wv }
  else s

/-- Models `train_document_dm_concat`, gensim/models/doc2vec_inner.pyx 623-690: documents without the expected
number of tags are skipped. -/
noncomputable def concatDocument {n : ℕ} (c : DConfig) (expected nullWord : ℕ) (indexes tags : List ℕ)
    (s : DNet E (Blocks E n)) : DNet E (Blocks E n) :=
  if tags.length ≠ expected then s
  else (List.range indexes.length).foldl (fun s i => concatWord c id s (indexes.getD i 0)
    (concatWindow c.window nullWord indexes i) tags) s

/-! ## The words of a document -/

/-- Models the choice of the words, gensim/models/doc2vec_inner.pyx 348-364 (and 481-497, 626-642): unknown words (`none`) and words
that are downsampled are left out, and reading stops after `room` words; `r` is the state of the generator. -/
def docIndexes (useSample : Bool) (sampleInts : ℕ → ℕ) : ℕ → List (Option ℕ) → ℕ → List ℕ × ℕ
  | _, [], r => ([], r)
  | room, none :: ts, r => docIndexes useSample sampleInts room ts r
  | room, some w :: ts, r =>
    let r' := if useSample then nextRandom r else r
    if useSample ∧ sampleInts w < randomInt32 r then docIndexes useSample sampleInts room ts r'
    else if room ≤ 1 then ([w], r')
    else
      let rest := docIndexes useSample sampleInts (room - 1) ts r'
      (w :: rest.1, rest.2)

/-- `MAX_DOCUMENT_LEN`, gensim/models/doc2vec_inner.pyx 29. -/
def maxDocumentLen : ℕ := 10000

/-- The three ways to train, `sg`, `dm_concat` or neither. -/
inductive Mode
  | dbow
  | dm
  | dmConcat
  deriving DecidableEq

/-! ## Inference -/

/-- Models `x or default`. -/
noncomputable def orDefault (x : Option ℝ) (d : ℝ) : ℝ :=
  match x with
  | none => d
  | some v => if v = 0 then d else v

/-- Models `epochs or self.epochs`. -/
def orDefaultNat (x : Option ℕ) (d : ℕ) : ℕ :=
  match x with
  | none => d
  | some v => if v = 0 then d else v

/-- Models the learning rates, gensim/models/doc2vec.py 629, 631 and 647: one for each epoch. -/
noncomputable def inferRates (alpha minAlpha : ℝ) (epochs : ℕ) : List ℝ :=
  let delta := (alpha - minAlpha) / ((max (epochs - 1) 1 : ℕ) : ℝ)
  ((List.range epochs).foldl (fun st _ => (st.1 ++ [st.2], st.2 - delta)) (([] : List ℝ), alpha)).1

/-- The model as inference uses it: the vectors, the settings and how words are looked up.  `net.dv` is not
used. -/
structure Trained (E H : Type) where
  net : DNet E H
  cfg : DConfig
  useSample : Bool
  sampleInts : ℕ → ℕ
  epochs : ℕ
  minAlpha : ℝ

/-- What an epoch draws: the state of the generator, and the reduced windows. -/
structure Draws where
  rand : ℕ
  reduced : ℕ → ℕ

/-- Models the settings that `infer_vector` passes, gensim/models/doc2vec.py 623-646. -/
def inferConfig (c : DConfig) (alpha : ℝ) : DConfig :=
  { c with alpha := alpha, doctagsLockf := [1], trainWords := false, learnDoctags := true, learnWords := false,
           learnHidden := false }

/-- Models one epoch of `infer_vector` for DBOW and DM, gensim/models/doc2vec.py 632-646, on a document with
one tag, whose row is 0; `s.dv 0` is the vector that is inferred. -/
noncomputable def inferEpoch (m : Trained E E) (sg : Bool) (words : List (Option ℕ)) (s : DNet E E)
    (e : ℝ × Draws) : DNet E E :=
  let c := inferConfig m.cfg e.1
  let r := docIndexes m.useSample m.sampleInts maxDocumentLen words e.2.rand
  let s := { s with rand := r.2 }
  if sg then dbowDocument c e.2.reduced r.1 [0] s else dmDocument c e.2.reduced r.1 [0] s

/-- Models `infer_vector` for DBOW (`sg`) and DM, gensim/models/doc2vec.py 616-649: all vectors afterwards; the
result is `dv 0`. -/
noncomputable def infer (m : Trained E E) (sg : Bool) (words : List (Option ℕ)) (start : E)
    (alpha minAlpha : Option ℝ) (epochs : Option ℕ) (draws : List Draws) : DNet E E :=
  let rates := inferRates (orDefault alpha m.cfg.alpha) (orDefault minAlpha m.minAlpha)
    (orDefaultNat epochs m.epochs)
  (rates.zip draws).foldl (inferEpoch m sg words) { m.net with dv := fun _ => start }

/-- Models one epoch of `infer_vector` for `dm_concat`; `expected` is `dm_tag_count`. -/
noncomputable def inferConcatEpoch {n : ℕ} (m : Trained E (Blocks E n)) (expected nullWord : ℕ)
    (words : List (Option ℕ)) (s : DNet E (Blocks E n)) (e : ℝ × Draws) : DNet E (Blocks E n) :=
  let c := inferConfig m.cfg e.1
  let r := docIndexes m.useSample m.sampleInts maxDocumentLen words e.2.rand
  concatDocument c expected nullWord r.1 [0] { s with rand := r.2 }

/-- Models `infer_vector` for `dm_concat`. -/
noncomputable def inferConcat {n : ℕ} (m : Trained E (Blocks E n)) (expected nullWord : ℕ)
    (words : List (Option ℕ)) (start : E) (alpha minAlpha : Option ℝ) (epochs : Option ℕ) (draws : List Draws) :
    DNet E (Blocks E n) :=
  let rates := inferRates (orDefault alpha m.cfg.alpha) (orDefault minAlpha m.minAlpha)
    (orDefaultNat epochs m.epochs)
  (rates.zip draws).foldl (inferConcatEpoch m expected nullWord words) { m.net with dv := fun _ => start }

/-! ## Training on a file -/

/-- Models one pass of a worker over the documents of a file from its start, `d2v_train_epoch_dbow` and
`d2v_train_epoch_dm`, gensim/models/doc2vec_corpusfile.pyx 174-229 and 314-382: the documents it trains with
their tags (none if the tag is not below `docvecsCount`).  `lines` are the words of the lines from the offset of
the worker on, `share` is `expected_words / workers`. -/
def fileDocs {α : Type} [DecidableEq α] (docvecsCount share : ℕ) :
    List (List α) → ℕ → ℕ → List (List α × List ℕ)
  | [], _, _ => []
  | l :: ls, tag, total =>
    if total > share then []
    else if l = [] then fileDocs docvecsCount share ls tag total
    else (l, if tag < docvecsCount then [tag] else []) :: fileDocs docvecsCount share ls (tag + 1) (total + l.length)

/-- Models the same for `d2v_train_epoch_dm_concat`, gensim/models/doc2vec_corpusfile.pyx 467-541: the tag is the
number of documents that this worker has trained, and documents are skipped if there is no such tag (the
expected number of tags is 1). -/
def fileDocsConcat {α : Type} [DecidableEq α] (docvecsCount share : ℕ) :
    List (List α) → ℕ → ℕ → List (List α × List ℕ)
  | [], _, _ => []
  | l :: ls, done, total =>
    if total > share then []
    else if l = [] ∨ ¬ done < docvecsCount then fileDocsConcat docvecsCount share ls done total
    else (l, [done]) :: fileDocsConcat docvecsCount share ls (done + 1) (total + l.length)

/-- Models an epoch over a file, gensim/models/doc2vec.py 373-389 and 504-506: what each worker trains, reading
from its offset on with its first tag. -/
def epochDocs (docvecsCount workers totalWords : ℕ) (text : Text.Str) : List (List (List Text.Str × List ℕ)) :=
  (fileOffsets text workers).map fun o =>
    fileDocs docvecsCount (totalWords / workers) (fastLines (text.drop o.1)) o.2 0

/-- Models the same for `dm_concat`; the first tag is passed but not used
(gensim/models/doc2vec_corpusfile.pyx 458 and 483). -/
def epochDocsConcat (docvecsCount workers totalWords : ℕ) (text : Text.Str) :
    List (List (List Text.Str × List ℕ)) :=
  (fileOffsets text workers).map fun o =>
    fileDocsConcat docvecsCount (totalWords / workers) (fastLines (text.drop o.1)) 0 0

/-- Models the training of a document in `d2v_train_epoch_dm`, gensim/models/doc2vec_corpusfile.pyx 328-378.
`reduced_windows` is not set, as `train_words` is false (lines 89-91): `garbage` is what the memory holds. -/
noncomputable def fileDm (c : DConfig) (garbage : ℕ → ℕ) (indexes tags : List ℕ) (s : DNet E E) : DNet E E :=
  (List.range indexes.length).foldl (fun s i => dmWord c c.wordsLockf.length s (indexes.getD i 0)
    ((context c.window garbage 0 indexes.length i).map fun j => indexes.getD j 0) tags) s

/-- Models the training of a document in `d2v_train_epoch_dm_concat`, gensim/models/doc2vec_corpusfile.pyx
495-537.  The block for the tag is at `m`, the variable of the loop before (lines 513 and 531), which ends with
`2 * window - 1`. -/
noncomputable def fileConcat {n : ℕ} (c : DConfig) (nullWord : ℕ) (indexes tags : List ℕ)
    (s : DNet E (Blocks E n)) : DNet E (Blocks E n) :=
  (List.range indexes.length).foldl (fun s i => concatWord c (fun _ => 2 * c.window - 1) s (indexes.getD i 0)
    (concatWindow c.window nullWord indexes i) tags) s

end Verif.D2VStep
