import Mathlib.Analysis.SpecialFunctions.Log.Basic
import Mathlib.Analysis.SpecialFunctions.Pow.Real
import Mathlib.Algebra.BigOperators.Fin
import Verif.Utils.ChunkModel

/-!
# The hierarchical Dirichlet process model (`gensim/models/hdpmodel.py`)

Exact real arithmetic.  There are `n + 1` topics (`T`), `m + 1` topics per document (`K`) and a finite type
`W` of words.  `psi` and `gammaln` of scipy are parameters.  `matutils.argsort(x, reverse=True)` is a
parameter `order`: a permutation of the topics for every vector.  The learning rate is assumed to be below 1
(`np.log(1 - rhot)` is NaN or -inf otherwise).
-/

namespace Verif.Hdp

open Verif

variable {W : Type} [Fintype W] [DecidableEq W] {n m : ℕ}

/-- A document: word ids with counts. -/
abbrev Doc (W : Type) := List (W × ℝ)

/-- The settings of `HdpModel.__init__` (`hdpmodel.py` 340-382); `tau` is the argument, `self.m_tau` is
`tau + 1`; `D` is `len(corpus)`, or 0 without a corpus (353-355). -/
structure Cfg where
  psi : ℝ → ℝ
  gammaln : ℝ → ℝ
  eta : ℝ
  alpha : ℝ
  gamma : ℝ
  tau : ℝ
  kappa : ℝ
  scale : ℝ
  varConverge : ℝ
  D : ℕ

/-- What training changes: `m_lambda`, `m_lambda_sum`, `m_Elogbeta`, `m_timestamp`, `m_r`, `m_updatect`,
`m_varphi_ss`, the two rows of `m_var_sticks`, `m_status_up_to_date`. -/
structure St (n : ℕ) (W : Type) where
  lam : Fin (n + 1) → W → ℝ
  lamSum : Fin (n + 1) → ℝ
  elogbeta : Fin (n + 1) → W → ℝ
  ts : W → ℕ
  r : List ℝ
  updatect : ℕ
  varphi : Fin (n + 1) → ℝ
  sticks0 : Fin n → ℝ
  sticks1 : Fin n → ℝ
  upToDate : Bool

/-- `HdpModel.__init__` (`hdpmodel.py` 362-380); `g` are the draws of `random_state.gamma`. -/
noncomputable def init (cfg : Cfg) (g : Fin (n + 1) → W → ℝ) : St n W :=
  let lam : Fin (n + 1) → W → ℝ := fun t w =>
    g t w * cfg.D * 100 / ((n + 1 : ℕ) * Fintype.card W) - cfg.eta
  { lam := lam
    lamSum := fun t => ∑ w, lam t w
    elogbeta := fun t w => cfg.psi (cfg.eta + lam t w) - cfg.psi (∑ w, (cfg.eta + lam t w))
    ts := fun _ => 0
    r := [0]
    updatect := 0
    varphi := fun _ => 0
    sticks0 := fun _ => 1
    sticks1 := fun i => ((n - i.val : ℕ) : ℝ)
    upToDate := true }

/-- `expect_log_sticks` (`hdpmodel.py` 86-94). -/
noncomputable def expectLogSticks {k : ℕ} (psi : ℝ → ℝ) (a b : Fin k → ℝ) (t : Fin (k + 1)) : ℝ :=
  (if h : t.val < k then psi (a ⟨t.val, h⟩) - psi (a ⟨t.val, h⟩ + b ⟨t.val, h⟩) else 0) +
    ∑ j : Fin k, if j.val < t.val then psi (b j) - psi (a j + b j) else 0

/-- `ret_log_normalize_vec` of one row (`matutils.py` 672-676). -/
noncomputable def logNormalize {k : ℕ} (v : Fin (k + 1) → ℝ) : Fin (k + 1) → ℝ :=
  let maxVal := Finset.univ.sup' Finset.univ_nonempty v
  let shift := 100 - Real.log ((k + 1 : ℕ) + 1) - maxVal
  let tot := ∑ i, Real.exp (v i + shift)
  let logNorm := Real.log tot - shift
  fun i => v i - logNorm

/-! ### Inference on one training document -/

/-- The variables of `doc_e_step` for a document of `N` distinct positions. -/
structure ES (n m N : ℕ) where
  logVarPhi : Fin (m + 1) → Fin (n + 1) → ℝ
  varPhi : Fin (m + 1) → Fin (n + 1) → ℝ
  logPhi : Fin N → Fin (m + 1) → ℝ
  phi : Fin N → Fin (m + 1) → ℝ
  v0 : Fin m → ℝ
  v1 : Fin m → ℝ
  sticks2 : Fin (m + 1) → ℝ
  likelihood : ℝ
  converge : ℝ

/-- The likelihood of `doc_e_step` (`hdpmodel.py` 652-668). -/
noncomputable def likelihood {N : ℕ} (cfg : Cfg) (sticks1st : Fin (n + 1) → ℝ) (E : Fin (n + 1) → Fin N → ℝ)
    (c : Fin N → ℝ) (logVarPhi varPhi : Fin (m + 1) → Fin (n + 1) → ℝ) (logPhi phi : Fin N → Fin (m + 1) → ℝ)
    (v0 v1 : Fin m → ℝ) (sticks2 : Fin (m + 1) → ℝ) : ℝ :=
  (∑ k, ∑ t, (sticks1st t - logVarPhi k t) * varPhi k t) + m * Real.log cfg.alpha +
  (∑ k, ((1 - v0 k) * (cfg.psi (v0 k) - cfg.psi (v0 k + v1 k)) +
    (cfg.alpha - v1 k) * (cfg.psi (v1 k) - cfg.psi (v0 k + v1 k)))) -
  (∑ k, cfg.gammaln (v0 k + v1 k) - ∑ k, (cfg.gammaln (v0 k) + cfg.gammaln (v1 k))) +
  (∑ i, ∑ k, (sticks2 k - logPhi i k) * phi i k) +
  ∑ i, ∑ k, phi i k * ∑ t, varPhi k t * (E t i * c i)

/-- One turn of the loop of `doc_e_step` (`hdpmodel.py` 626-676). -/
noncomputable def eTurn {N : ℕ} (cfg : Cfg) (sticks1st : Fin (n + 1) → ℝ) (E : Fin (n + 1) → Fin N → ℝ)
    (c : Fin N → ℝ) (iter : ℕ) (s : ES n m N) : ES n m N :=
  let logVarPhi := fun k => logNormalize fun t =>
    (∑ i, s.phi i k * (E t i * c i)) + if iter < 3 then 0 else sticks1st t
  let varPhi := fun k t => Real.exp (logVarPhi k t)
  let logPhi := fun i => logNormalize fun k =>
    (∑ t, varPhi k t * E t i) + if iter < 3 then 0 else s.sticks2 k
  let phi := fun i k => Real.exp (logPhi i k)
  let v0 := fun k : Fin m => 1 + ∑ i, phi i k.castSucc * c i
  let v1 := fun k : Fin m => cfg.alpha + ∑ j : Fin m, if k ≤ j then ∑ i, phi i j.succ * c i else 0
  let sticks2 := expectLogSticks cfg.psi v0 v1
  let l := likelihood cfg sticks1st E c logVarPhi varPhi logPhi phi v0 v1 sticks2
  { logVarPhi, varPhi, logPhi, phi, v0, v1, sticks2
    likelihood := l
    converge := (l - s.likelihood) / |s.likelihood| }

open Classical in
/-- The loop of `doc_e_step` (`hdpmodel.py` 622-676), with `max_iter - iter` turns left. -/
noncomputable def eLoop {N : ℕ} (cfg : Cfg) (sticks1st : Fin (n + 1) → ℝ) (E : Fin (n + 1) → Fin N → ℝ)
    (c : Fin N → ℝ) : ℕ → ℕ → ES n m N → ES n m N
  | 0, _, s => s
  | left + 1, iter, s =>
    if s.converge < 0 ∨ cfg.varConverge < s.converge then
      eLoop cfg sticks1st E c left (iter + 1) (eTurn cfg sticks1st E c iter s)
    else s

/-- The variables before the loop (`hdpmodel.py` 608-617): `phi` uniform, `likelihood` is `old_likelihood`. -/
noncomputable def eInit (N : ℕ) (cfg : Cfg) : ES n m N :=
  { logVarPhi := fun _ _ => 0
    varPhi := fun _ _ => 0
    logPhi := fun _ _ => 0
    phi := fun _ _ => 1 / ((m + 1 : ℕ) : ℝ)
    v0 := fun _ => 1
    v1 := fun _ => cfg.alpha
    sticks2 := fun _ => 0
    likelihood := -10 ^ 200
    converge := 1 }

open Classical in
/-- `doc_e_step` up to the loop's end; `none` is the `UnboundLocalError` of a loop that never runs
(`var_converge >= 1`). -/
noncomputable def docEStep {N : ℕ} (cfg : Cfg) (sticks1st : Fin (n + 1) → ℝ) (E : Fin (n + 1) → Fin N → ℝ)
    (c : Fin N → ℝ) : Option (ES n m N) :=
  if cfg.varConverge < 1 then some (eLoop cfg sticks1st E c 100 0 (eInit N cfg)) else none

/-! ### A chunk of documents -/

/-- `SuffStats` (`hdpmodel.py` 149-164); the columns of `m_var_beta_ss` are positions in the word list. -/
structure SS (n : ℕ) where
  sticks : Fin (n + 1) → ℝ
  beta : Fin (n + 1) → ℕ → ℝ

/-- The unique words of a document added to those found before (`hdpmodel.py` 542-545). -/
def addWords (ws : List W) : Doc W → List W
  | [] => ws
  | p :: doc => addWords (if p.1 ∈ ws then ws else ws ++ [p.1]) doc

/-- `word_list` (`hdpmodel.py` 539-545); the value `unique_words[w]` is the position of `w` in it. -/
def wordList (chunk : List (Doc W)) : List W := chunk.foldl addWords []

/-- The update of the statistics (`hdpmodel.py` 680-681).  `ss[:, chunkids] += x` of numpy adds, to every
column of `chunkids`, the last entry of `x` for that column. -/
def addDoc (wl : List W) (doc : Doc W) (res : ES n m doc.length) (ss : SS n) : SS n :=
  { sticks := fun t => ss.sticks t + ∑ k, res.varPhi k t
    beta := fun t p =>
      match ((List.finRange doc.length).filter fun i => wl.idxOf doc[i].1 = p).getLast? with
      | none => ss.beta t p
      | some i => ss.beta t p + ∑ k, res.varPhi k t * (res.phi i k * doc[i].2) }

/-- The loop over the documents of a chunk (`hdpmodel.py` 556-570): empty documents are skipped; `m + 1` is
`m_K`. -/
noncomputable def chunkStats (m : ℕ) (cfg : Cfg) (E : Fin (n + 1) → W → ℝ) (sticks1st : Fin (n + 1) → ℝ) (wl : List W) :
    List (Doc W) → SS n → Option (SS n)
  | [], ss => some ss
  | doc :: docs, ss =>
    if doc = [] then chunkStats m cfg E sticks1st wl docs ss
    else
      match docEStep (m := m) cfg sticks1st (fun t (i : Fin doc.length) => E t doc[i].1) fun i => doc[i].2 with
      | none => none
      | some res => chunkStats m cfg E sticks1st wl docs (addDoc wl doc res ss)

/-- The lazy updates of the columns of the words of a chunk (`hdpmodel.py` 550-554). -/
noncomputable def catchUp (cfg : Cfg) (wl : List W) (s : St n W) : St n W :=
  let lam := fun t w =>
    if w ∈ wl then s.lam t w * Real.exp (s.r.getLastD 0 - s.r.getD (s.ts w) 0) else s.lam t w
  { s with
    lam := lam
    elogbeta := fun t w =>
      if w ∈ wl then cfg.psi (cfg.eta + lam t w) - cfg.psi (Fintype.card W * cfg.eta + s.lamSum t)
      else s.elogbeta t w }

/-- `rhot` (`hdpmodel.py` 701-703). -/
noncomputable def rhot (cfg : Cfg) (updatect : ℕ) : ℝ :=
  max (cfg.scale * (cfg.tau + 1 + updatect) ^ (-cfg.kappa)) 0

/-- `optimal_ordering` (`hdpmodel.py` 729-733). -/
def optimalOrdering (order : (Fin (n + 1) → ℝ) → Equiv.Perm (Fin (n + 1))) (s : St n W) : St n W :=
  let idx := order s.lamSum
  { s with
    varphi := fun t => s.varphi (idx t)
    lam := fun t => s.lam (idx t)
    lamSum := fun t => s.lamSum (idx t)
    elogbeta := fun t => s.elogbeta (idx t) }

/-- The first row of `m_var_sticks` (`hdpmodel.py` 723). -/
def topSticks0 (varphi : Fin (n + 1) → ℝ) (i : Fin n) : ℝ := varphi i.castSucc + 1

/-- The second row of `m_var_sticks` (`hdpmodel.py` 724-725). -/
def topSticks1 (cfg : Cfg) (varphi : Fin (n + 1) → ℝ) (i : Fin n) : ℝ :=
  (∑ j : Fin n, if i ≤ j then varphi j.succ else 0) + cfg.gamma

/-- `update_lambda` (`hdpmodel.py` 698-725). -/
noncomputable def updateLambda (cfg : Cfg) (order : (Fin (n + 1) → ℝ) → Equiv.Perm (Fin (n + 1)))
    (wl : List W) (size : ℕ) (optO : Bool) (ss : SS n) (s : St n W) : St n W :=
  let rho := rhot cfg s.updatect
  let s1 : St n W := { s with
    upToDate := false
    lam := fun t w => if w ∈ wl then s.lam t w * (1 - rho) + rho * cfg.D * ss.beta t (wl.idxOf w) / size
      else s.lam t w
    lamSum := fun t => (1 - rho) * s.lamSum t + rho * cfg.D * (∑ p ∈ Finset.range wl.length, ss.beta t p) / size
    updatect := s.updatect + 1
    ts := fun w => if w ∈ wl then s.updatect + 1 else s.ts w
    r := s.r ++ [s.r.getLastD 0 + Real.log (1 - rho)]
    varphi := fun t => (1 - rho) * s.varphi t + rho * ss.sticks t * cfg.D / size }
  let s2 := if optO then optimalOrdering order s1 else s1
  { s2 with sticks0 := topSticks0 s2.varphi, sticks1 := topSticks1 cfg s2.varphi }

/-- `update_chunk(chunk, update, opt_o)` (`hdpmodel.py` 538-577) without its score. -/
noncomputable def updateChunk (m : ℕ) (cfg : Cfg) (order : (Fin (n + 1) → ℝ) → Equiv.Perm (Fin (n + 1)))
    (chunk : List (Doc W)) (update optO : Bool) (s : St n W) : Option (St n W) :=
  let wl := wordList chunk
  let s1 := catchUp cfg wl s
  match chunkStats m cfg s1.elogbeta (expectLogSticks cfg.psi s1.sticks0 s1.sticks1) wl chunk
      ⟨fun _ => 0, fun _ _ => 0⟩ with
  | none => none
  | some ss => some (if update then updateLambda cfg order wl chunk.length optO ss s1 else s1)

/-- `update_expectations` (`hdpmodel.py` 741-747). -/
noncomputable def updateExpectations (cfg : Cfg) (s : St n W) : St n W :=
  let lam := fun t w => s.lam t w * Real.exp (s.r.getLastD 0 - s.r.getD (s.ts w) 0)
  { s with
    lam := lam
    elogbeta := fun t w => cfg.psi (cfg.eta + lam t w) - cfg.psi (Fintype.card W * cfg.eta + s.lamSum t)
    ts := fun _ => s.updatect
    upToDate := true }

/-! ### `update` -/

/-- `update_finished` (`hdpmodel.py` 509-517); 0 stands for no limit on the chunks; `maxTime` says whether
there is a time limit and `late` whether it is exceeded. -/
def finished (maxChunks : ℕ) (maxTime late : Bool) (D chunksDone docsDone : ℕ) : Bool :=
  (maxChunks != 0 && chunksDone == maxChunks) || (maxTime && late) ||
    (maxChunks == 0 && !maxTime && decide (D ≤ docsDone))

/-- What `update` has at the end of one of its turns: the model, `m_num_docs_processed` and the chunks
trained on. -/
structure Progress (n : ℕ) (W : Type) where
  model : St n W
  docs : ℕ
  done : List (List (Doc W))

/-- How `update` ends within some number of turns. -/
inductive Outcome (α : Type) where
  /-- still running -/
  | running
  /-- `UnboundLocalError` -/
  | failed
  /-- returned -/
  | returned (x : α)

/-- The loops of `update(corpus)` (`hdpmodel.py` 467-487).  `rest` are the chunks left in this pass; `late c`
says whether the time limit is exceeded after `c` chunks; the first argument bounds the turns. -/
noncomputable def run (m : ℕ) (cfg : Cfg) (order : (Fin (n + 1) → ℝ) → Equiv.Perm (Fin (n + 1)))
    (maxChunks : ℕ) (maxTime : Bool) (late : ℕ → Bool) (saveFreq : ℕ) (chunks : List (List (Doc W))) :
    ℕ → List (List (Doc W)) → Progress n W → Outcome (Progress n W)
  | 0, _, _ => .running
  | fuel + 1, [], p => run m cfg order maxChunks maxTime late saveFreq chunks fuel chunks p
  | fuel + 1, ch :: rest, p =>
    match updateChunk m cfg order ch true true p.model with
    | none => .failed
    | some s =>
      let docs := p.docs + ch.length
      let done := p.done ++ [ch]
      if finished maxChunks maxTime (late done.length) cfg.D done.length docs then
        .returned ⟨updateExpectations cfg s, docs, done⟩
      else
        run m cfg order maxChunks maxTime late saveFreq chunks fuel rest
          ⟨if done.length % saveFreq = 0 then updateExpectations cfg s else s, docs, done⟩

/-- `update(corpus)` (`hdpmodel.py` 463-487); `docs` is `m_num_docs_processed` before. -/
noncomputable def update (m : ℕ) (cfg : Cfg) (order : (Fin (n + 1) → ℝ) → Equiv.Perm (Fin (n + 1)))
    (maxChunks : ℕ) (maxTime : Bool) (late : ℕ → Bool) (chunksize : ℕ) (corpus : List (Doc W)) (fuel : ℕ)
    (s : St n W) (docs : ℕ) : Outcome (Progress n W) :=
  run m cfg order maxChunks maxTime late (max 1 (10000 / chunksize)) (Chunk.chunks chunksize corpus) fuel
    (Chunk.chunks chunksize corpus) ⟨s, docs, []⟩

/-! ### The LDA model, queries -/

/-- The loop of `hdp_to_lda` (`hdpmodel.py` 889-892): the part of the stick left before position `i`. -/
noncomputable def stickLeft (s0 s1 : Fin n → ℝ) : ℕ → ℝ
  | 0 => 1
  | i + 1 => if h : i < n then stickLeft s0 s1 i - s0 ⟨i, h⟩ / (s0 ⟨i, h⟩ + s1 ⟨i, h⟩) * stickLeft s0 s1 i
    else stickLeft s0 s1 i

/-- `alpha` of `hdp_to_lda` (`hdpmodel.py` 887-894). -/
noncomputable def ldaAlpha (cfg : Cfg) (s : St n W) (i : Fin (n + 1)) : ℝ :=
  (if h : i.val < n then
    s.sticks0 ⟨i, h⟩ / (s.sticks0 ⟨i, h⟩ + s.sticks1 ⟨i, h⟩) * stickLeft s.sticks0 s.sticks1 i
  else stickLeft s.sticks0 s.sticks1 n) * cfg.alpha

/-- `beta` of `hdp_to_lda` (`hdpmodel.py` 897). -/
noncomputable def ldaBeta (cfg : Cfg) (s : St n W) (t : Fin (n + 1)) (w : W) : ℝ :=
  (s.lam t w + cfg.eta) / (Fintype.card W * cfg.eta + s.lamSum t)

/-- `get_topics` (`hdpmodel.py` 796-797). -/
noncomputable def getTopics (cfg : Cfg) (s : St n W) (t : Fin (n + 1)) (w : W) : ℝ :=
  (s.lam t w + cfg.eta) / ∑ w, (s.lam t w + cfg.eta)

/-- What `suggested_lda_model` gives (`hdpmodel.py` 912-917): an `LdaModel` with fresh random statistics
`sstats`, from which `LdaModel.get_topics` answers, and `expElogbeta`, which `LdaModel.inference` uses. -/
structure Lda (n : ℕ) (W : Type) where
  alpha : Fin (n + 1) → ℝ
  sstats : Fin (n + 1) → W → ℝ
  expElogbeta : Fin (n + 1) → W → ℝ

/-- `suggested_lda_model` (`hdpmodel.py` 912-917); `random` are the initial statistics of the `LdaModel`
(`ldamodel.py` 511). -/
noncomputable def suggestedLda (cfg : Cfg) (s : St n W) (random : Fin (n + 1) → W → ℝ) : Lda n W :=
  { alpha := ldaAlpha cfg s
    sstats := random
    expElogbeta := ldaBeta cfg s }

/-- `LdaModel.get_topics` (`ldamodel.py` 259-268, 1211-1212) with the prior `1 / num_topics` of the words. -/
noncomputable def Lda.topics (l : Lda n W) (t : Fin (n + 1)) (w : W) : ℝ :=
  (1 / ((n + 1 : ℕ) : ℝ) + l.sstats t w) / ∑ w, (1 / ((n + 1 : ℕ) : ℝ) + l.sstats t w)

/-- One turn of `lda_e_step` (`hdpmodel.py` 125-131): from `exp(E[log theta])` and `phinorm` to `gamma`. -/
noncomputable def ldaTurn {N : ℕ} (alpha : Fin (n + 1) → ℝ) (beta : Fin (n + 1) → Fin N → ℝ) (c : Fin N → ℝ)
    (theta : Fin (n + 1) → ℝ) : Fin (n + 1) → ℝ := fun t =>
  alpha t + theta t * ∑ i, c i / (∑ u, theta u * beta u i + 1 / 10 ^ 100) * beta t i

/-- `dirichlet_expectation`, then `exp`. -/
noncomputable def expElog (psi : ℝ → ℝ) (gamma : Fin (n + 1) → ℝ) (t : Fin (n + 1)) : ℝ :=
  Real.exp (psi (gamma t) - psi (∑ u, gamma u))

open Classical in
/-- The loop of `lda_e_step` (`hdpmodel.py` 124-133). -/
noncomputable def ldaLoop {N : ℕ} (psi : ℝ → ℝ) (alpha : Fin (n + 1) → ℝ) (beta : Fin (n + 1) → Fin N → ℝ)
    (c : Fin N → ℝ) : ℕ → (Fin (n + 1) → ℝ) → Fin (n + 1) → ℝ
  | 0, gamma => gamma
  | left + 1, gamma =>
    let gamma' := ldaTurn alpha beta c (expElog psi gamma)
    if (∑ t, |gamma' t - gamma t|) / ((n + 1 : ℕ) : ℝ) < 1 / 100000 then gamma'
    else ldaLoop psi alpha beta c left gamma'

/-- The topic weights of one document in `inference` (`hdpmodel.py` 416-422): zero for an empty document. -/
noncomputable def inferDoc (psi : ℝ → ℝ) (alpha : Fin (n + 1) → ℝ) (beta : Fin (n + 1) → W → ℝ) (doc : Doc W) :
    Fin (n + 1) → ℝ :=
  if doc = [] then fun _ => 0
  else ldaLoop psi alpha (fun t (i : Fin doc.length) => beta t doc[i].1) (fun i => doc[i].2) 100 fun _ => 1

open Classical in
/-- `hdp[bow]` (`hdpmodel.py` 446-448) of one document; `none` before training (410-411). -/
noncomputable def getItem (cfg : Cfg) (lda : Option ((Fin (n + 1) → ℝ) × (Fin (n + 1) → W → ℝ))) (eps : ℝ)
    (doc : Doc W) : Option (List (Fin (n + 1) × ℝ)) :=
  match lda with
  | none => none
  | some (alpha, beta) =>
    let gamma := inferDoc cfg.psi alpha beta doc
    some (if ∑ t, gamma t = 0 then []
      else ((List.finRange (n + 1)).map fun t => (t, gamma t / ∑ u, gamma u)).filter fun p => eps ≤ p.2)

/-- The topics in the order of `HdpTopicFormatter` (`hdpmodel.py` 992-994), which `show_topics` and
`show_topic` count; they call `update_expectations` first if needed (781-783). -/
noncomputable def shownTopics (cfg : Cfg) (order : (Fin (n + 1) → ℝ) → Equiv.Perm (Fin (n + 1))) (s : St n W) :
    Fin (n + 1) → W → ℝ :=
  let s := if s.upToDate then s else updateExpectations cfg s
  let betas := fun t w => s.lam t w + cfg.eta
  fun k => betas (order (fun t => ∑ w, betas t w) k)

end Verif.Hdp
