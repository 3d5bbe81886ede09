import Verif.LdaSeq.Model

/-!
# Fitting one word of a topic over time, constructing and showing a dynamic topic model
(`f_obs`, `df_obs`, `compute_obs_deriv`, `LdaSeqModel.__init__`, `dtm_vis`, `dtm_coherence` of
`gensim/models/ldaseqmodel.py`)

Exact real arithmetic.
-/

namespace Verif.LdaSeq

variable {k V : ℕ}

/-! ### The objective of the optimiser -/

/-- What `f_obs` and `df_obs` read of the chain and of their arguments: variances, chain variance, number of slices,
the counts of the word, the counts of all words and `zeta`, which stays as it is while the word is fitted. -/
structure Fit where
  ov : ℝ
  cv : ℝ
  T : ℕ
  counts : ℕ → ℝ
  totals : ℕ → ℝ
  zeta : ℕ → ℝ

/-- The loop of `f_obs` (`ldaseqmodel.py` 1582-1593); the index `u` is `t - 1`. -/
noncomputable def fObsLoop (f : Fit) (mean variance : ℕ → ℝ) : List ℕ → ℝ × ℝ → ℝ × ℝ
  | [], acc => acc
  | u :: us, acc =>
    let val := mean (u + 1) - mean u
    fObsLoop f mean variance us
      (acc.1 + val * val,
       acc.2 + (f.counts u * mean (u + 1) - f.totals u * Real.exp (mean (u + 1) + variance (u + 1) / 2) / f.zeta u))

/-- `f_obs` (`ldaseqmodel.py` 1560-1604); `x` are the observations to try. -/
noncomputable def fObs (f : Fit) (x : ℕ → ℝ) : ℝ :=
  let mean := postMean f.ov f.cv x f.T
  let variance := postVar f.ov f.cv f.T
  let s := fObsLoop f mean variance (List.range f.T) (0, 0)
  let term1 := if 0 < f.cv then -(s.1 / (2 * f.cv)) - mean 0 * mean 0 / (2 * 1000 * f.cv) else 0
  let final := -(term1 + s.2)
  final

/-- The inner loop of `compute_obs_deriv` (`ldaseqmodel.py` 1220-1232) with `md` for `mean_deriv`. -/
noncomputable def obsDerivLoop (f : Fit) (mean variance md : ℕ → ℝ) : List ℕ → ℝ × ℝ → ℝ × ℝ
  | [], acc => acc
  | u :: us, acc =>
    obsDerivLoop f mean variance md us
      (acc.1 + (mean (u + 1) - mean u) * (md (u + 1) - md u),
       acc.2 + (f.counts u - f.totals u * Real.exp (mean (u + 1) + variance (u + 1) / 2) / f.zeta u) * md (u + 1))

/-- `df_obs` with `compute_obs_deriv` (`ldaseqmodel.py` 1633-1645, 1195-1242): the entry of slice `t`; `mtx` is
`mean_deriv_mtx`. -/
noncomputable def dfObs (f : Fit) (mtx : ℕ → ℕ → ℝ) (x : ℕ → ℝ) (t : ℕ) : ℝ :=
  let mean := postMean f.ov f.cv x f.T
  let variance := postVar f.ov f.cv f.T
  let s := obsDerivLoop f mean variance (mtx t) (List.range f.T) (0, 0)
  let term1 := if f.cv ≠ 0 then -(s.1 / f.cv) - (mean 0 * mtx t 0) / (1000 * f.cv) else 0
  let final := -(term1 + s.2)
  final

/-- `mean_deriv_mtx` as `update_obs` fills it (`ldaseqmodel.py` 1096-1097) -/
noncomputable def codeMtx (f : Fit) (t u : ℕ) : ℝ := meanDeriv f.ov f.cv t f.T u

/-! ### The constructor -/

/-- the argument `initialize` -/
inductive Init where
  | gensim
  | ldamodel
  | own
  | other
deriving DecidableEq

inductive InitErr where
  | valueError
  | typeError
  | attributeError
deriving DecidableEq

/-- the arguments of the constructor; `id2word` is the size of the mapping, `lda` and `sstats` say whether
`lda_model` and `sstats` are given -/
structure Args where
  corpus : Option (List (List (ℕ × ℕ)))
  id2word : Option ℕ
  timeSlice : Option (List ℕ)
  how : Init
  lda : Bool
  sstats : Bool
  numTopics : ℕ

/-- the constructed model: words, slices and, if it was trained, where the statistics came from and the length of
the longest document -/
structure Made where
  vocabLen : ℕ
  slices : ℕ
  trained : Option (Init × ℕ)
deriving DecidableEq

/-- models utils.py:729-733 `get_max_id` plus one (utils.py:821) -/
def numTerms : List (List (ℕ × ℕ)) → ℕ
  | [] => 0
  | d :: ds => max ((d.map fun e => e.1 + 1).foldr max 0) (numTerms ds)

/-- models ldaseqmodel.py:130-137: `vocab_len` -/
def vocabOf (id2word : Option ℕ) (corpus : List (List (ℕ × ℕ))) : ℕ :=
  match id2word with
  | none => numTerms corpus
  | some n => n

/-- models ldaseqmodel.py:124-192 `LdaSeqModel.__init__`, up to the training of the static model and of the chains
(for `numTopics > 0`, which subscripts the missing statistics at line 213).  Simplification: the corpus can be read
several times. -/
def construct (a : Args) : Except InitErr Made := do
  if a.corpus = none ∧ a.id2word = none then throw .valueError
  let vocabLen := vocabOf a.id2word (a.corpus.getD [])
  -- `len(time_slice)` (line 151) is also taken when there is none
  let slices ← match a.timeSlice with
    | none => throw .typeError
    | some l => pure l.length
  match a.corpus with
  | none => return ⟨vocabLen, slices, none⟩
  | some c =>
    if c = [] then throw .valueError
    let maxLen := (c.map List.length).foldr max 0
    match a.how with
    | .gensim => return ⟨vocabLen, slices, some (.gensim, maxLen)⟩
    | .ldamodel => if a.lda then return ⟨vocabLen, slices, some (.ldamodel, maxLen)⟩ else throw .attributeError
    | .own => if a.sstats then return ⟨vocabLen, slices, some (.own, maxLen)⟩ else throw .typeError
    | .other => throw .attributeError

/-! ### Showing the model -/

/-- models ldaseqmodel.py:621-627: the loop of `dtm_vis` over the corpus; a word outside the vocabulary raises
(`none`) -/
def visLoop (vocabLen : ℕ) : List (List (ℕ × ℕ)) → List ℕ → (ℕ → ℕ) → Option (List ℕ × (ℕ → ℕ))
  | [], lengths, freq => some (lengths, freq)
  | doc :: docs, lengths, freq =>
    if doc.all (fun e => decide (e.1 < vocabLen)) then
      visLoop vocabLen docs (lengths ++ [doc.length])
        (doc.foldl (fun f e => Function.update f e.1 (f e.1 + e.2)) freq)
    else none

/-- models ldaseqmodel.py:611-631 `dtm_vis`: the lengths of the documents and the frequencies of the terms -/
def dtmVis (vocabLen : ℕ) (corpus : List (List (ℕ × ℕ))) : Option (List ℕ × (ℕ → ℕ)) :=
  visLoop vocabLen corpus [] fun _ => 0

/-- models ldaseqmodel.py:651-658 `dtm_coherence`, with word ids; 20 is the default of `print_topics` (516, 534) -/
noncomputable def dtmCoherence (srt : List ℝ → List ℕ) (part : List ℝ → ℕ → List ℕ) (chains : List (Chain V))
    (time : ℕ) : List (List ℕ) :=
  (chains.map fun c => printTopic srt part c time 20).foldl (fun acc topic =>
    acc ++ [topic.foldl (fun ws e => ws ++ [e.1]) []]) []

end Verif.LdaSeq
