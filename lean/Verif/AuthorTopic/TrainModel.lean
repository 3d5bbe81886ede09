import Verif.AuthorTopic.InferModel
import Verif.Lda.EmModel

/-!
# The training loop of the author-topic model

Models `AuthorTopicModel.update` from the moment the documents to train on are known
(gensim/models/atmodel.py:780-887), over exact real numbers.  The loop over passes and chunks is the text of
`LdaModel.update`, so it is the loop of `Verif.Lda.UpdateModel`; what differs are the numerical parts below.
`Verif.AuthorTopic.Model` has what happens before: the tables of authors and documents.
-/

namespace Verif.AuthorTrain

open Verif.AuthorInfer Verif.LdaInfer Verif.LdaBound Verif.LdaEm Verif.Lda

variable {A T W : Type} [DecidableEq A] [Fintype T] [Fintype W] [DecidableEq W]

/-- What training changes: the state, `alpha` with the rows of all authors (`self.state.gamma`), `eta` and
    `num_updates` (atmodel.py:55-77, 140-290). -/
abbrev ATr (A T W : Type) := Trainer (T × W) ℝ ((T → ℝ) × (A → T → ℝ)) (Eta T W)

/-- What the M step and the update of the priors do to `alpha` and `eta`: anything, and nothing if they are not
    learnt (atmodel.py:852-853, ldamodel.py:667-736, 1062-1063). -/
structure Learn (T W : Type) where
  alpha : (T → ℝ) → List (T → ℝ) → ℝ → (T → ℝ)
  eta : Eta T W → State (T × W) ℝ → ℝ → Eta T W

/-- Priors that are not learnt (`optimize_alpha` and `optimize_eta` false). -/
def Learn.fixed : Learn T W := ⟨fun a _ _ => a, fun e _ _ => e⟩

/-- What inference reads from the model (atmodel.py:398-538); `docs a` is the number of documents of author `a`. -/
noncomputable def par (c : Cfg) (docs : A → ℕ) (t : ATr A T W) : Par A T W :=
  ⟨⟨t.alpha.1, expElogbeta fun k w => t.eta.at k w + t.state.sstats (k, w), c.eps, c.threshold, c.iterations⟩, docs⟩

/-- `do_estep` (atmodel.py:540-575) and the update of `alpha` (852-853) in pass `pass`: inference is given the
    learning rate of the moment and leaves its rows in the state. -/
noncomputable def numerics (c : Cfg) (docs : A → ℕ) (learn : Learn T W) (pass : ℕ) :
    Numerics (T × W) ℝ ((T → ℝ) × (A → T → ℝ)) (Eta T W) (Run A T W) (List A × List (W × ℝ)) where
  infer t chunk :=
    let r := authorInference (par c docs t) (LdaTrain.rho c.offset c.decay c.chunksize pass t.numUpdates) t.alpha.2 chunk
    (fun j => r.sstats j.1 j.2, r)
  updAlpha a r rho := (learn.alpha a.1 r.chunk rho, r.gamma)
  updEta := learn.eta
  rho pass n := LdaTrain.rho c.offset c.decay c.chunksize pass n

/-- One pass over the documents (atmodel.py:815-887), with `every = update_every * numworkers`. -/
noncomputable def authorPass (c : Cfg) (docs : A → ℕ) (learn : Learn T W) (every : ℕ)
    (corpus : List (List A × List (W × ℝ))) (t : ATr A T W) (pass : ℕ) : ATr A T W :=
  runPass (numerics c docs learn pass) every c.chunksize corpus t pass

/-- `update`, from the list of documents to train on to the end, each document with its authors
    (atmodel.py:780-887); no `chunksize` argument, so the model's, cut to the number of documents (783-784). -/
noncomputable def authorUpdate (c : Cfg) (docs : A → ℕ) (learn : Learn T W) (every passes : ℕ)
    (corpus : List (List A × List (W × ℝ))) (t : ATr A T W) : ATr A T W :=
  (List.range passes).foldl
    (authorPass { c with chunksize := min corpus.length c.chunksize } docs learn every corpus)
    { t with state := { t.state with numdocs := t.state.numdocs + corpus.length } }

end Verif.AuthorTrain
