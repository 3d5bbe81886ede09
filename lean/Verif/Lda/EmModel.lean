import Verif.Lda.BoundModel
import Verif.Lda.UpdateModel
import Verif.Lda.TrainModel

/-!
# Model of the EM steps of `LdaModel.update` with the real numerics (`gensim/models/ldamodel.py`)

`UpdateModel` leaves the numerical parts of training abstract; here they are inference as in `InferModel`, priors
that are not learnt and the learning rate of `TrainModel`.  Coordinates of the statistics are pairs (topic, word).
A document comes with the initial gamma that the code draws at random for it.
-/

namespace Verif.LdaEm

open Verif.LdaInfer Verif.LdaBound Verif.Lda

variable {T W : Type} [Fintype T] [Fintype W] [DecidableEq W]

/-- the settings of a model with fixed priors: `dtype`'s epsilon, `gamma_threshold`, `iterations`, `offset`,
`decay`, `chunksize` (ldamodel.py:341-349) -/
structure Cfg where
  eps : ℝ
  threshold : ℝ
  iterations : ℕ
  offset : ℝ
  decay : ℝ
  chunksize : ℕ

/-- `self.alpha`, `self.eta`, the state and `num_updates` -/
abbrev Tr (T W : Type) := Trainer (T × W) ℝ (T → ℝ) (Eta T W)

/-- models ldamodel.py:254-263 `get_lambda` -/
def getLambda (t : Tr T W) (k : T) (w : W) : ℝ := t.eta.at k w + t.state.sstats (k, w)

/-- models ldamodel.py:265-275 `get_Elogbeta` and 603-616 `sync_state`: `self.expElogbeta` -/
noncomputable def expElogbeta (lam : T → W → ℝ) (k : T) (w : W) : ℝ := Real.exp (dirichletExpectation (lam k) w)

/-- what `inference` reads (ldamodel.py:624-728) -/
noncomputable def params (c : Cfg) (t : Tr T W) : Params T W :=
  ⟨t.alpha, expElogbeta (getLambda t), c.eps, c.threshold, c.iterations⟩

/-- the numerical parts of training with priors that are not learnt (`optimize_alpha` and `optimize_eta` false,
ldamodel.py:738-753, 948-949, 989, 1062) -/
noncomputable def numerics (c : Cfg) :
    Numerics (T × W) ℝ (T → ℝ) (Eta T W) (List (T → ℝ)) (List (W × ℝ) × (T → ℝ)) where
  infer t chunk := ((fun j => (inference (params c t) chunk).2 j.1 j.2), (inference (params c t) chunk).1)
  updAlpha a _ _ := a
  updEta e _ _ := e
  rho pass n := LdaTrain.rho c.offset c.decay c.chunksize pass n

/-- models ldamodel.py:962-1007: the E steps on the chunks of one update of the topics, then its M step -/
noncomputable def emStep (c : Cfg) (pass : ℕ) (t : Tr T W) (chunks : List (List (List (W × ℝ) × (T → ℝ)))) : Tr T W :=
  let r := chunks.foldl (estep (numerics c) pass) (t, State.zero)
  mstep (numerics c) pass r.1 r.2

/-- models lda_worker.py:150-152, 204-207: a worker is reset to the topics of the master, with statistics of zero, and
runs the E step on each of its jobs -/
noncomputable def workerState (c : Cfg) (pass : ℕ) (t : Tr T W) (jobs : List (List (List (W × ℝ) × (T → ℝ)))) :
    State (T × W) ℝ :=
  (jobs.foldl (estep (numerics c) pass) (t, State.zero)).2

/-- models ldamodel.py:1000-1004 in distributed mode: `getstate` merges the states of all workers into that of the
first (lda_dispatcher.py:227-231), then the M step; `jobs` is what each worker happened to process -/
noncomputable def emStepDistributed (c : Cfg) (pass : ℕ) (t : Tr T W)
    (jobs : List (List (List (List (W × ℝ) × (T → ℝ))))) : Tr T W :=
  match jobs.map (workerState c pass t) with
  | [] => t
  | s :: states => mstep (numerics c) pass t (states.foldl State.merge s)

end Verif.LdaEm
