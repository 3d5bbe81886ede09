/-
Model of training and querying an LDA model (gensim/models/ldamodel.py), on top of the models of
inference (Verif/Lda/InferModel.lean) and of the training loop (Verif/Lda/UpdateModel.lean): priors
(`init_dir_prior` 523-589, `update_dir_prior` 109-145, `update_alpha` 755-779, `update_eta` 781-804),
`rho` (948-949), `sync_state` (604-617), `get_lambda` (259-268), `get_topics` (1201-1212),
`show_topics` (1152-1163), `get_document_topics` (1288-1367), `__getitem__` (1510-1531) and
gensim/interfaces.py `TransformedCorpus.__init__` (138-156).
-/
import Verif.Lda.InferModel
import Verif.Lda.UpdateModel
import Mathlib.Analysis.SpecialFunctions.Pow.Real

namespace Verif.LdaTrain

open Verif.Dirichlet Verif.LdaInfer Verif.Lda

variable {T W : Type} [Fintype T] [Fintype W] [DecidableEq W]

/-! ## Priors -/

/-- `polygamma(1, x)`. -/
noncomputable def trigamma (x : ℝ) : ℝ := deriv psi x

section prior
variable {I : Type} [Fintype I]

/-- `gradf` (ldamodel.py:131). -/
noncomputable def gradf (prior : I → ℝ) (N : ℝ) (logphat : I → ℝ) (i : I) : ℝ :=
  N * (psi (∑ j, prior j) - psi (prior i) + logphat i)

/-- `dprior` (ldamodel.py:133-138). -/
noncomputable def dprior (prior : I → ℝ) (N : ℝ) (logphat : I → ℝ) (i : I) : ℝ :=
  let c := N * trigamma (∑ j, prior j)
  let q := fun j => -N * trigamma (prior j)
  let b := (∑ j, gradf prior N logphat j / q j) / (1 / c + ∑ j, 1 / q j)
  Neg.neg (gradf prior N logphat i - b) / q i

/-- `update_dir_prior(prior, N, logphat, rho)` (ldamodel.py:109-145). -/
noncomputable def updateDirPrior (prior : I → ℝ) (N : ℝ) (logphat : I → ℝ) (rho : ℝ) : I → ℝ :=
  let updated := fun i => rho * dprior prior N logphat i + prior i
  if ∀ i, 0 < updated i then updated else prior

/-- `logphat = sum(dirichlet_expectation(g) for g in gs) / N` (ldamodel.py:772, 798). -/
noncomputable def logphat (gs : List (I → ℝ)) (i : I) : ℝ :=
  (gs.map fun g => dirichletExpectation g i).sum / gs.length

end prior

/-- The priors a name stands for (ldamodel.py:558-579), `shape` entries of a model of `n` topics. -/
inductive PriorSpec where
  | symmetric | asymmetric | auto
  | scalar (x : ℝ)
  | vector (v : ℕ → ℝ)

/-- `init_dir_prior` (ldamodel.py:546-589): entry `i`, and whether the prior is learnt. -/
noncomputable def initDirPrior (n shape : ℕ) : PriorSpec → (ℕ → ℝ) × Bool
  | .symmetric => (fun _ => 1 / n, false)
  | .asymmetric =>
    (fun i => (1 / (i + Real.sqrt shape)) / ∑ j ∈ Finset.range shape, 1 / ((j : ℝ) + Real.sqrt shape), false)
  | .auto => (fun _ => 1 / n, true)
  | .scalar x => (fun _ => x, false)
  | .vector v => (v, false)

/-! ## Training -/

/-- `pow(offset + pass_ + (self.num_updates / chunksize), -decay)` (ldamodel.py:948-949). -/
noncomputable def rho (offset decay : ℝ) (chunksize pass numUpdates : ℕ) : ℝ :=
  (offset + pass + numUpdates / chunksize) ^ (-decay)

/-- `self.alpha`, and how many initial gammas have been drawn from `random_state`. -/
structure AlphaSt (T : Type) where
  alpha : T → ℝ
  drawn : ℕ

/-- What an M step recomputes besides the state: `self.eta` (a vector when it is learnt) and
    `self.expElogbeta`. -/
structure BetaSt (T W : Type) where
  eta : W → ℝ
  expElogbeta : T → W → ℝ

/-- The settings of a model; `eta0` is `self.state.eta`, set by the constructor only
    (ldamodel.py:510); `draws` are the initial gammas of the documents, in the order in which training
    meets them. -/
structure Config (T W : Type) where
  eta0 : T → W → ℝ
  draws : ℕ → T → ℝ
  eps : ℝ
  threshold : ℝ
  iterations : ℕ
  optAlpha : Bool
  optEta : Bool

/-- `LdaState.get_lambda` (ldamodel.py:259-268). -/
def getLambda (c : Config T W) (st : State (T × W) ℝ) (k : T) (w : W) : ℝ := c.eta0 k w + st.sstats (k, w)

/-- `np.exp(self.state.get_Elogbeta())` (ldamodel.py:270-278, 614-616). -/
noncomputable def syncState (c : Config T W) (st : State (T × W) ℝ) (k : T) : W → ℝ := expElog (getLambda c st k)

/-- The numerical parts of training (ldamodel.py:738-804, 1047-1059): E step of a chunk, `update_alpha`,
    then, in the M step, `sync_state` and `update_eta`. -/
noncomputable def numerics (c : Config T W) (offset decay : ℝ) (chunksize : ℕ) :
    Numerics (T × W) ℝ (AlphaSt T) (BetaSt T W) (List (T → ℝ)) (List (W × ℝ)) where
  infer := fun t chunk =>
    let r := inference ⟨t.alpha.alpha, t.eta.expElogbeta, c.eps, c.threshold, c.iterations⟩
      (chunk.zipIdx.map fun x => (x.1, c.draws (t.alpha.drawn + x.2)))
    (fun kw => r.2 kw.1 kw.2, r.1)
  updAlpha := fun a gammas r =>
    ⟨if c.optAlpha then updateDirPrior a.alpha gammas.length (logphat gammas) r else a.alpha,
      a.drawn + gammas.length⟩
  updEta := fun h st r =>
    ⟨if c.optEta then
        updateDirPrior h.eta (Fintype.card T) (logphat (Finset.univ.toList.map (getLambda c st))) r
      else h.eta, syncState c st⟩
  rho := rho offset decay chunksize

/-- A call `update(corpus, chunksize=, decay=, offset=, passes=, update_every=, iterations=,
    gamma_threshold=)`. -/
structure Call (W : Type) where
  corpus : List (List (W × ℝ))
  chunksize : ℕ
  decay : ℝ
  offset : ℝ
  passes : ℕ
  updateEvery : ℕ
  iterations : Option ℕ
  gammaThreshold : Option ℝ

/-- `LdaModel.update` (ldamodel.py:835-1028), one worker.  `iterations` and `gamma_threshold` of the
    call are logged (897-900, 935-936); inference reads `self.iterations` and `self.gamma_threshold`
    (695, 706). -/
noncomputable def trainCall (c : Config T W) (t : Trainer (T × W) ℝ (AlphaSt T) (BetaSt T W)) (u : Call W) :
    Trainer (T × W) ℝ (AlphaSt T) (BetaSt T W) :=
  update (numerics c u.offset u.decay u.chunksize) u.updateEvery u.chunksize u.passes u.corpus t

/-- The constructor (ldamodel.py:460-512): random statistics `s0`; `expElogbeta` comes from them alone. -/
noncomputable def initModel (alpha : T → ℝ) (eta : W → ℝ) (s0 : T × W → ℝ) :
    Trainer (T × W) ℝ (AlphaSt T) (BetaSt T W) :=
  ⟨⟨s0, 0⟩, ⟨alpha, 0⟩, ⟨eta, fun k => expElog fun w => s0 (k, w)⟩, 0⟩

/-- Any history of `update` calls on a new model. -/
noncomputable def train (c : Config T W) (t : Trainer (T × W) ℝ (AlphaSt T) (BetaSt T W)) (calls : List (Call W)) :
    Trainer (T × W) ℝ (AlphaSt T) (BetaSt T W) := calls.foldl (trainCall c) t

/-- `get_topics` (ldamodel.py:1201-1212). -/
noncomputable def getTopics (c : Config T W) (st : State (T × W) ℝ) (k : T) (w : W) : ℝ :=
  getLambda c st k w / ∑ v, getLambda c st k v

/-! ## Queries -/

/-- `show_topics`: the topics it lists (ldamodel.py:1152-1163), given the topics sorted by
    (jittered) alpha. -/
def chosenTopics (numTopics : ℕ) (sorted : List ℕ) (n : ℤ) : List ℕ :=
  if n < 0 ∨ (numTopics : ℤ) ≤ n then List.range numTopics
  else
    let n := n.toNat
    sorted.take (n / 2) ++ (if n = 0 then sorted else sorted.drop (sorted.length - (n + 1) / 2))

/-- `max(minimum_probability, 1e-8)` (ldamodel.py:1320, 1324). -/
noncomputable def floorProb (x : ℝ) : ℝ := max x (1 / 10 ^ 8)

/-- `document_topics` (ldamodel.py:1337-1342). -/
noncomputable def documentTopics {n : ℕ} (gamma : Fin n → ℝ) (minProb : ℝ) : List (Fin n × ℝ) :=
  ((List.finRange n).map fun k => (k, gamma k / ∑ j, gamma j)).filter fun x => decide (floorProb minProb ≤ x.2)

/-- The settings that queries read: `minimum_probability`, `minimum_phi_value`, `per_word_topics`. -/
structure Settings where
  minProb : ℝ
  minPhi : ℝ
  perWord : Bool

/-- The thresholds a call of `get_document_topics(bow, minimum_probability, minimum_phi_value,
    per_word_topics)` works with (ldamodel.py:1318-1324): a missing `minimum_phi_value` becomes
    `self.minimum_probability`. -/
noncomputable def effective (s : Settings) (minProb minPhi : Option ℝ) (perWord : Bool) : Settings :=
  ⟨floorProb (minProb.getD s.minProb), floorProb (minPhi.getD s.minProb), perWord⟩

/-- `get_document_topics(corpus, ...)` (ldamodel.py:1327-1334): the settings of the model afterwards,
    because `TransformedCorpus` stores its keyword arguments in the model (interfaces.py:152-155). -/
noncomputable def askCorpus (s : Settings) (minProb minPhi : Option ℝ) (perWord : Bool) : Settings :=
  effective s minProb minPhi perWord

/-- `model[bow]` (ldamodel.py:1510-1531), also used for every document of a lazy result when it is
    iterated (interfaces.py:176-178): the thresholds it works with, from the settings of the model at that time. -/
noncomputable def getItem (s : Settings) : Settings := effective s none (some s.minPhi) s.perWord

/-- `model[corpus]` (ldamodel.py:1531, then as `askCorpus`). -/
noncomputable def getItemCorpus (s : Settings) : Settings := askCorpus s none (some s.minPhi) s.perWord

end Verif.LdaTrain
