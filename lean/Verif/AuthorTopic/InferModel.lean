import Verif.Lda.InferModel
import Mathlib.Algebra.Order.Round

/-!
# Inference of the author-topic model

Models the computation of `AuthorTopicModel.inference` (gensim/models/atmodel.py:398-538), statistics
included, over exact real numbers.  `Verif.AuthorTopic.Model` has the tables of authors and documents;
here every document comes with the ids of its authors (`authors_d`, line 470) and `docs a` is the number of
documents of author `a` (`len(self.author2doc[self.id2author[a]])`, line 490).
-/

namespace Verif.AuthorInfer

open Verif.Dirichlet Verif.LdaInfer

variable {A T W : Type} [DecidableEq A] [Fintype T] [DecidableEq W]

/-- What inference reads from the model besides the gammas: the parameters shared with LDA (`alpha`,
    `expElogbeta`, the constant 1e-100, `gamma_threshold`, `iterations`) and the number of documents of
    every author. -/
structure Par (A T W : Type) where
  lda : Params T W
  docs : A → ℕ

/-- `int(x)`: the conversion of a count by `np.fromiter(..., dtype=np.int)` (atmodel.py:467) drops the
    fractional part. -/
noncomputable def trunc (x : ℝ) : ℝ := if 0 ≤ x then (⌊x⌋ : ℝ) else (⌈x⌉ : ℝ)

/-- `ids` and `cts` of a document (atmodel.py:461-467). -/
noncomputable def counts (doc : List (W × ℝ)) : List (W × ℝ) := doc.map fun x => (x.1, trunc x.2)

/-- `expElogthetad.sum(axis=0)` for the rows of the authors of a document (atmodel.py:393, 523). -/
noncomputable def thetaSum (rows : List (T → ℝ)) (k : T) : ℝ := (rows.map fun r => expElog r k).sum

/-- `compute_phinorm`, the entry of a word (atmodel.py:377-396). -/
noncomputable def authorNorm (p : Par A T W) (rows : List (T → ℝ)) (w : W) : ℝ :=
  phinorm p.lda (thetaSum rows) w

/-- The new row of one author (atmodel.py:489-496): `a` is the author, `g` the row before the document,
    `t` the current row, `rows` the current rows of all authors of the document. -/
noncomputable def newRow (p : Par A T W) (rho : ℝ) (doc : List (W × ℝ)) (rows : List (T → ℝ)) (a : A)
    (g t : T → ℝ) (k : T) : ℝ :=
  (1 - rho) * g k + rho * (p.lda.alpha k + p.docs a * expElog t k *
    (doc.map fun x => x.2 / authorNorm p rows x.1 * p.lda.beta k x.1).sum)

/-- One round over the authors (atmodel.py:484-503). `before` has the authors with their rows before the
    document. -/
noncomputable def round (p : Par A T W) (rho : ℝ) (doc : List (W × ℝ)) (before : List (A × (T → ℝ)))
    (rows : List (T → ℝ)) : List (T → ℝ) :=
  List.zipWith (fun x t => newRow p rho doc rows x.1 x.2 t) before rows

/-- `mean_absolute_difference(tilde_gamma.ravel(), lastgamma.ravel())` (atmodel.py:507). -/
noncomputable def rowsChange (new old : List (T → ℝ)) : ℝ :=
  (List.zipWith (fun r s => ∑ k, |r k - s k|) new old).sum / (new.length * Fintype.card T)

/-- The iterations of one document (atmodel.py:484-511), at most `n` of them. -/
noncomputable def rounds (p : Par A T W) (rho : ℝ) (doc : List (W × ℝ)) (before : List (A × (T → ℝ))) :
    ℕ → List (T → ℝ) → List (T → ℝ)
  | 0, rows => rows
  | n + 1, rows =>
    let new := round p rho doc before rows
    if rowsChange new rows < p.lda.threshold then new else rounds p rho doc before n new

/-- `tilde_gamma` at the end of a document (atmodel.py:470-512). -/
noncomputable def docRows (p : Par A T W) (rho : ℝ) (gamma : A → T → ℝ) (d : List A × List (W × ℝ)) :
    List (T → ℝ) :=
  rounds p rho (counts d.2) (d.1.map fun a => (a, gamma a)) p.lda.iterations (d.1.map gamma)

/-- `self.state.gamma[authors_d, :] = tilde_gamma` (atmodel.py:515): row by row, later rows win. -/
def store (gamma : A → T → ℝ) (rows : List (A × (T → ℝ))) : A → T → ℝ :=
  rows.foldl (fun g x => Function.update g x.1 x.2) gamma

/-- The gammas of the model, `gamma_chunk` and `sstats` while `inference` runs. -/
structure Run (A T W : Type) where
  gamma : A → T → ℝ
  chunk : List (T → ℝ)
  sstats : T → W → ℝ

/-- The body of the loop over documents (atmodel.py:454-524). -/
noncomputable def docBody (p : Par A T W) (rho : ℝ) (r : Run A T W) (d : List A × List (W × ℝ)) : Run A T W :=
  let rows := docRows p rho r.gamma d
  { gamma := store r.gamma (d.1.zip rows)
    chunk := r.chunk ++ rows
    sstats := addStats p.lda (counts d.2) (thetaSum rows) r.sstats }

/-- `inference(chunk, ..., rhot, collect_sstats=True)` (atmodel.py:398-538). -/
noncomputable def authorInference (p : Par A T W) (rho : ℝ) (gamma : A → T → ℝ)
    (chunk : List (List A × List (W × ℝ))) : Run A T W :=
  let r := chunk.foldl (docBody p rho) ⟨gamma, [], fun _ _ => 0⟩
  { r with sstats := fun k w => r.sstats k w * p.lda.beta k w }

end Verif.AuthorInfer
