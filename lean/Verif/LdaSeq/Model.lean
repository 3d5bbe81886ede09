import Mathlib.Analysis.SpecialFunctions.Log.Basic
import Mathlib.Algebra.BigOperators.Fin
import Verif.Utils.ChunkModel
import Verif.Matutils.SparseModel

/-!
# The dynamic topic model (`gensim/models/ldaseqmodel.py`)

Exact real arithmetic.  There are `k + 1` topics and `V` words.  `digamma`, `gammaln` of scipy and the
optimiser `fmin_cg` are parameters.  Only the branch `model == "DTM"` exists in the code.
-/

namespace Verif.LdaSeq

open Verif

variable {k V : ℕ}

/-- A document: word ids with counts. -/
abbrev Doc (V : ℕ) := List (Fin V × ℝ)

/-- `digamma` and `gammaln` of scipy. -/
structure Special where
  digamma : ℝ → ℝ
  gammaln : ℝ → ℝ

/-! ### Inference on one document (`LdaPost`) -/

/-- `update_gamma` (`ldaseqmodel.py` 1354-1362). -/
def updateGamma (alpha : Fin (k + 1) → ℝ) (doc : Doc V) (phi : Fin doc.length → Fin (k + 1) → ℝ) :
    Fin (k + 1) → ℝ := fun j => alpha j + ∑ n, phi n j * doc[n].2

/-- The logarithm of the new `phi` (`update_phi`, `ldaseqmodel.py` 1317-1336); the chain of `np.logaddexp` is
the logarithm of the sum of the exponentials. -/
noncomputable def logPhi (sp : Special) (topics : Fin V → Fin (k + 1) → ℝ) (doc : Doc V)
    (gamma : Fin (k + 1) → ℝ) (n : Fin doc.length) (j : Fin (k + 1)) : ℝ :=
  sp.digamma (gamma j) + topics doc[n].1 j -
    Real.log (∑ i, Real.exp (sp.digamma (gamma i) + topics doc[n].1 i))

open Classical in
/-- `compute_lda_lhood` (`ldaseqmodel.py` 1381-1418). -/
noncomputable def lhood (sp : Special) (alpha : Fin (k + 1) → ℝ) (topics : Fin V → Fin (k + 1) → ℝ) (doc : Doc V)
    (gamma : Fin (k + 1) → ℝ) (phi logphi : Fin doc.length → Fin (k + 1) → ℝ) : ℝ :=
  sp.gammaln (∑ j, alpha j) - sp.gammaln (∑ j, gamma j) +
  ∑ j, ((alpha j - gamma j) * (sp.digamma (gamma j) - sp.digamma (∑ i, gamma i)) +
    sp.gammaln (gamma j) - sp.gammaln (alpha j) +
    ∑ n, if 0 < phi n j then doc[n].2 * phi n j *
      ((sp.digamma (gamma j) - sp.digamma (∑ i, gamma i)) + topics doc[n].1 j - logphi n j) else 0)

/-- What `fit_lda_post` leaves in the `LdaPost` object. -/
structure Post (k N : ℕ) where
  gamma : Fin (k + 1) → ℝ
  phi : Fin N → Fin (k + 1) → ℝ
  logphi : Fin N → Fin (k + 1) → ℝ
  lhood : ℝ

/-- One round of `fit_lda_post` (`ldaseqmodel.py` 1483-1492): `gamma`, then `phi`, then the likelihood. -/
noncomputable def round (sp : Special) (alpha : Fin (k + 1) → ℝ) (topics : Fin V → Fin (k + 1) → ℝ) (doc : Doc V)
    (phi : Fin doc.length → Fin (k + 1) → ℝ) : Post k doc.length :=
  let gamma := updateGamma alpha doc phi
  let logphi := logPhi sp topics doc gamma
  let phi' := fun n j => Real.exp (logphi n j)
  ⟨gamma, phi', logphi, lhood sp alpha topics doc gamma phi' logphi⟩

open Classical in
/-- The loop of `fit_lda_post` (`ldaseqmodel.py` 1480-1493) with some number of rounds left. -/
noncomputable def fitLoop (sp : Special) (alpha : Fin (k + 1) → ℝ) (topics : Fin V → Fin (k + 1) → ℝ) (doc : Doc V)
    (total : ℝ) : ℕ → ℝ → Post k doc.length → Post k doc.length
  | 0, _, p => p
  | left + 1, converged, p =>
    if 1 / 10 ^ 8 < converged then
      let q := round sp alpha topics doc p.phi
      fitLoop sp alpha topics doc total left |(p.lhood - q.lhood) / (p.lhood * total)| q
    else p

/-- `fit_lda_post` (`ldaseqmodel.py` 1451-1495).  `init_lda_post` (1366-1368) does not reset `log_phi`, so
the first likelihood is computed with the rows `stale` of the previous document. -/
noncomputable def fitDoc (sp : Special) (alpha : Fin (k + 1) → ℝ) (topics : Fin V → Fin (k + 1) → ℝ) (doc : Doc V)
    (stale : ℕ → Fin (k + 1) → ℝ) (maxIter : ℕ) : Post k doc.length :=
  let total := (doc.map Prod.snd).sum
  let gamma0 := fun _ => alpha 0 + total / ((k + 1 : ℕ) : ℝ)
  let phi0 := fun (_ : Fin doc.length) (_ : Fin (k + 1)) => 1 / ((k + 1 : ℕ) : ℝ)
  let lhood0 := lhood sp alpha topics doc gamma0 phi0 fun n j => stale n j
  let p := round sp alpha topics doc phi0
  fitLoop sp alpha topics doc total maxIter |(lhood0 - p.lhood) / (lhood0 * total)| p

/-! ### The e-step over the corpus -/

/-- The variables of `inferDTMseq` (`ldaseqmodel.py` 404-443). -/
structure Infer (k V : ℕ) where
  docIndex : ℕ
  time : ℕ
  ss : Fin (k + 1) → Fin V → ℕ → ℝ
  gammas : List (Fin (k + 1) → ℝ)
  bound : ℝ
  buffer : ℕ → Fin (k + 1) → ℝ

/-- `np.cumsum(time_slice)[t]`. -/
def cumsum (timeSlice : List ℕ) (t : ℕ) : ℕ := (timeSlice.take (t + 1)).sum

/-- `update_lda_seq_ss` (`ldaseqmodel.py` 1519-1529). -/
def addStats (time : ℕ) (doc : Doc V) (phi : Fin doc.length → Fin (k + 1) → ℝ)
    (ss : Fin (k + 1) → Fin V → ℕ → ℝ) : Fin (k + 1) → Fin V → ℕ → ℝ := fun j w t =>
  if t = time then ss j w t + ∑ n, if doc[n].1 = w then doc[n].2 * phi n j else 0 else ss j w t

/-- One document in `inferDTMseq` (`ldaseqmodel.py` 413-443); `topicsAt t` are the topics of slice `t`
(`make_lda_seq_slice`, 464-467).  `none` is the `IndexError` of a slice that does not exist. -/
noncomputable def inferDoc (sp : Special) (alpha : Fin (k + 1) → ℝ) (topicsAt : ℕ → Fin V → Fin (k + 1) → ℝ)
    (timeSlice : List ℕ) (maxIter : ℕ) (s : Infer k V) (doc : Doc V) : Option (Infer k V) :=
  let time := if cumsum timeSlice s.time < s.docIndex then s.time + 1 else s.time
  if time < timeSlice.length then
    let p := fitDoc sp alpha (topicsAt time) doc s.buffer maxIter
    some
      { docIndex := s.docIndex + 1
        time := time
        ss := addStats time doc p.phi s.ss
        gammas := s.gammas ++ [p.gamma]
        bound := s.bound + p.lhood
        buffer := fun n j => if h : n < doc.length then p.logphi ⟨n, h⟩ j else s.buffer n j }
  else none

/-- A loop over documents that may fail. -/
def foldDocs {σ δ : Type} (f : σ → δ → Option σ) : σ → List δ → Option σ
  | s, [] => some s
  | s, d :: ds =>
    match f s d with
    | none => none
    | some s' => foldDocs f s' ds

/-- `inferDTMseq` (`ldaseqmodel.py` 404-445); `time_slice` must not be empty. -/
noncomputable def inferDTMseq (sp : Special) (alpha : Fin (k + 1) → ℝ) (topicsAt : ℕ → Fin V → Fin (k + 1) → ℝ)
    (timeSlice : List ℕ) (maxIter chunksize : ℕ) (corpus : List (Doc V)) : Option (Infer k V) :=
  foldDocs (fun s chunk => foldDocs (inferDoc sp alpha topicsAt timeSlice maxIter) s chunk)
    ⟨0, 0, fun _ _ _ => 0, [], 0, fun _ _ => 0⟩ (Chunk.chunks chunksize corpus)

/-! ### The state space model of one topic (`sslm`) -/

/-- The forward variances of a word (`compute_post_variance`, `ldaseqmodel.py` 789-795). -/
noncomputable def fwdVar (ov cv : ℝ) : ℕ → ℝ
  | 0 => cv * 1000
  | t + 1 => (open Classical in if ov ≠ 0 then ov / (fwdVar ov cv t + cv + ov) else 0) * (fwdVar ov cv t + cv)

open Classical in
/-- The posterior variances of a word (`ldaseqmodel.py` 798-804), for `T` slices. -/
noncomputable def postVar (ov cv : ℝ) (T t : ℕ) : ℝ :=
  if t < T then
    let c := if 0 < fwdVar ov cv t then (fwdVar ov cv t / (fwdVar ov cv t + cv)) ^ 2 else 0
    c * (postVar ov cv T (t + 1) - cv) + (1 - c) * fwdVar ov cv t
  else fwdVar ov cv T
termination_by T - t

/-- The forward means (`compute_post_mean`, `ldaseqmodel.py` 849-852). -/
noncomputable def fwdMean (ov cv : ℝ) (obs : ℕ → ℝ) : ℕ → ℝ
  | 0 => 0
  | t + 1 =>
    let c := ov / (fwdVar ov cv t + cv + ov)
    c * fwdMean ov cv obs t + (1 - c) * obs t

open Classical in
/-- The posterior means (`ldaseqmodel.py` 855-861). -/
noncomputable def postMean (ov cv : ℝ) (obs : ℕ → ℝ) (T t : ℕ) : ℝ :=
  if t < T then
    let c := if cv = 0 then 0 else cv / (fwdVar ov cv t + cv)
    c * fwdMean ov cv obs t + (1 - c) * postMean ov cv obs T (t + 1)
  else fwdMean ov cv obs T
termination_by T - t

open Classical in
/-- The forward pass of `compute_mean_deriv` (`ldaseqmodel.py` 1150-1161) with the variances `fv`. -/
noncomputable def fwdDeriv (ov cv : ℝ) (fv : ℕ → ℝ) (time : ℕ) : ℕ → ℝ
  | 0 => 0
  | t + 1 =>
    let w := if 0 < ov then ov / (fv t + cv + ov) else 0
    w * fwdDeriv ov cv fv time t + if time = t then 1 - w else 0

open Classical in
/-- The backward pass of `compute_mean_deriv` (`ldaseqmodel.py` 1163-1168). -/
noncomputable def derivWith (ov cv : ℝ) (fv : ℕ → ℝ) (time T t : ℕ) : ℝ :=
  if t < T then
    let w := if cv = 0 then 0 else cv / (fv t + cv)
    w * fwdDeriv ov cv fv time t + (1 - w) * derivWith ov cv fv time T (t + 1)
  else fwdDeriv ov cv fv time T
termination_by T - t

/-- `compute_mean_deriv(word, time, deriv)` (`ldaseqmodel.py` 1147-1170): its `fwd_variance` is
`self.variance[word]` (1148). -/
noncomputable def meanDeriv (ov cv : ℝ) (time T t : ℕ) : ℝ := derivWith ov cv (postVar ov cv T) time T t

/-- What training changes in a topic chain. -/
structure Chain (V : ℕ) where
  obs : Fin V → ℕ → ℝ
  mean : Fin V → ℕ → ℝ
  variance : Fin V → ℕ → ℝ
  zeta : ℕ → ℝ
  eLogProb : Fin V → ℕ → ℝ

/-- `update_zeta` (`ldaseqmodel.py` 742-744). -/
noncomputable def updateZeta (c : Chain V) : Chain V :=
  { c with zeta := fun j => ∑ w, Real.exp (c.mean w (j + 1) + c.variance w (j + 1) / 2) }

/-- `compute_expected_log_prob` (`ldaseqmodel.py` 877-879). -/
noncomputable def expectedLogProb (c : Chain V) : Chain V :=
  { c with eLogProb := fun w t => c.mean w (t + 1) - Real.log (c.zeta t) }

/-- `sslm_counts_init` (`ldaseqmodel.py` 898-919). -/
noncomputable def countsInit (ov cv : ℝ) (T : ℕ) (sstats : Fin V → ℝ) : Chain V :=
  let a := fun w => sstats w / ∑ v, sstats v
  let b := fun w => a w + 1 / (V : ℝ)
  let c := fun w => Real.log (b w / ∑ v, b v)
  let obs := fun w (_ : ℕ) => c w
  expectedLogProb (updateZeta
    { obs := obs
      mean := fun w => postMean ov cv (obs w) T
      variance := fun _ => postVar ov cv T
      zeta := fun _ => 0
      eLogProb := fun _ _ => 0 })

/-- The part of `compute_bound` that changes the chain (`ldaseqmodel.py` 1011-1013). -/
noncomputable def refresh (ov cv : ℝ) (T : ℕ) (c : Chain V) : Chain V :=
  updateZeta { c with mean := fun w => postMean ov cv (c.obs w) T }

/-- How many words the loop `for w in range(w)` of `compute_bound` (`ldaseqmodel.py` 1019-1023) visits in
slice `t = 1, 2, ...`: the loop variable is the bound of the next loop. -/
def boundWords (V : ℕ) : ℕ → ℕ
  | 0 => V
  | t + 1 => boundWords V t - 1

/-- The words whose terms `compute_bound` adds in slice `t + 1`. -/
def boundRange (V t : ℕ) : List ℕ := List.range (boundWords V t)

open Classical in
/-- The loop of `update_obs` over the words (`ldaseqmodel.py` 1078-1116); `cg w counts obs` is what
`fmin_cg` returns; the state is whether `norm_cutoff_obs` is set, and the observations. -/
noncomputable def updateObsLoop (T : ℕ) (sstats : Fin V → ℕ → ℝ) (cg : Fin V → (ℕ → ℝ) → (ℕ → ℝ) → ℕ → ℝ) :
    List (Fin V) → Bool → (Fin V → ℕ → ℝ) → Fin V → ℕ → ℝ
  | [], _, obs => obs
  | w :: ws, cut, obs =>
    let norm := Real.sqrt (∑ i ∈ Finset.range T, sstats w i * sstats w i)
    if norm < 2 ∧ cut = true then updateObsLoop T sstats cg ws true obs
    else
      let counts := if norm < 2 then fun _ => 0 else sstats w
      updateObsLoop T sstats cg ws (cut || decide (norm < 2)) (Function.update obs w (cg w counts (obs w)))

/-- One round of `fit_sslm` (`ldaseqmodel.py` 967-970); the objective of the optimiser moves the means
(`f_obs`, 1572-1573): `mess` is where it leaves them. -/
noncomputable def fitRound (ov cv : ℝ) (T : ℕ) (sstats : Fin V → ℕ → ℝ)
    (cg : Fin V → (ℕ → ℝ) → (ℕ → ℝ) → ℕ → ℝ) (mess : Fin V → ℕ → ℝ) (c : Chain V) : Chain V :=
  refresh ov cv T (updateZeta { c with
    obs := updateObsLoop T sstats cg (List.finRange V) false c.obs
    mean := mess })

/-- `fit_sslm` (`ldaseqmodel.py` 941-978) with `rounds` rounds (one or two, by the change of the bound). -/
noncomputable def fitSslm (ov cv : ℝ) (T : ℕ) (sstats : Fin V → ℕ → ℝ)
    (cg : Fin V → (ℕ → ℝ) → (ℕ → ℝ) → ℕ → ℝ) (mess : Fin V → ℕ → ℝ) (rounds : ℕ) (c : Chain V) : Chain V :=
  expectedLogProb ((fitRound ov cv T sstats cg mess)^[rounds]
    (refresh ov cv T { c with variance := fun _ => postVar ov cv T }))

/-! ### Training loop and queries -/

/-- `convergence > LDASQE_EM_THRESHOLD` (`ldaseqmodel.py` 263); `none` is infinity. -/
def aboveThreshold : Option ℝ → Prop
  | none => True
  | some c => 1 / 10 ^ 4 < c

open Classical in
/-- The new `convergence` (`ldaseqmodel.py` 295-301): a small one is replaced by 1. -/
noncomputable def convergence (old new : ℝ) : Option ℝ :=
  if old = 0 then none
  else if |(new - old) / old| < 1 / 10 ^ 4 then some 1 else some |(new - old) / old|

open Classical in
/-- The loop of `fit_lda_seq` (`ldaseqmodel.py` 263-307): the number of iterations, given the bound of every
iteration.  The first argument bounds the iterations of the model. -/
noncomputable def emLoop (minIter maxIter : ℕ) (bound : ℕ → ℝ) : ℕ → ℕ → Option ℝ → ℕ
  | 0, iter, _ => iter
  | fuel + 1, iter, c =>
    if iter < minIter ∨ (aboveThreshold c ∧ iter ≤ maxIter) then
      emLoop minIter maxIter bound fuel (iter + 1)
        (convergence (if iter = 0 then 0 else bound (iter - 1)) (bound iter))
    else iter

/-- The word distribution of a topic in `print_topic` (`ldaseqmodel.py` 556-559). -/
noncomputable def topicDist (c : Chain V) (time : ℕ) (w : Fin V) : ℝ :=
  Real.exp (c.eLogProb w time) / ∑ v, Real.exp (c.eLogProb v time)

/-- `print_topic` (`ldaseqmodel.py` 556-562) with word ids instead of words. -/
noncomputable def printTopic (srt : List ℝ → List ℕ) (part : List ℝ → ℕ → List ℕ) (c : Chain V) (time topn : ℕ) :
    List (ℕ × ℝ) :=
  let x := (List.finRange V).map (topicDist c time)
  (Matutils.argsort srt part x topn true).map fun i => (i, x.getD i 0)

/-- A row of `doc_topics` (`ldaseqmodel.py` 582-583). -/
noncomputable def normalize (gamma : Fin (k + 1) → ℝ) (j : Fin (k + 1)) : ℝ := gamma j / ∑ i, gamma i

/-- The loop of `__getitem__` over the slices (`ldaseqmodel.py` 680-683): the document is fitted to every
slice; the `LdaPost` object keeps what the last one left. -/
noncomputable def getItemLoop (sp : Special) (alpha : Fin (k + 1) → ℝ) (topicsAt : ℕ → Fin V → Fin (k + 1) → ℝ)
    (doc : Doc V) : List ℕ → (ℕ → Fin (k + 1) → ℝ) → (Fin (k + 1) → ℝ) → Fin (k + 1) → ℝ
  | [], _, gamma => gamma
  | t :: ts, buffer, _ =>
    let p := fitDoc sp alpha (topicsAt t) doc buffer 25
    getItemLoop sp alpha topicsAt doc ts (fun n j => if h : n < doc.length then p.logphi ⟨n, h⟩ j else buffer n j)
      p.gamma

/-- `ldaseq[doc]` (`ldaseqmodel.py` 674-687) for `T` slices. -/
noncomputable def getItem (sp : Special) (alpha : Fin (k + 1) → ℝ) (topicsAt : ℕ → Fin V → Fin (k + 1) → ℝ)
    (T : ℕ) (doc : Doc V) : Fin (k + 1) → ℝ :=
  normalize (getItemLoop sp alpha topicsAt doc (List.range T) (fun _ _ => 0) fun _ => 0)

end Verif.LdaSeq
