import Verif.AuthorTopic.InferModel
import Verif.Lda.BoundModel

/-!
# `bound` and `log_perplexity` of the author-topic model

Models the computation of `AuthorTopicModel.bound` (gensim/models/atmodel.py:889-1014) and `log_perplexity`
(gensim/models/atmodel.py:576-605) over exact real numbers.  The checks of the arguments and the choice of the authors of a
document are `Verif.AuthorTopic.boundAuthors`; here every document comes with the ids of its authors (`authors_d`, line 978)
and `keys` has the ids of the authors of `author2doc` (lines 996-997).
-/

namespace Verif.AuthorBound

open Verif.Dirichlet Verif.LdaInfer Verif.AuthorInfer Verif.LdaBound

variable {A T W : Type} [Fintype T] [Fintype W] [DecidableEq W]

/-- What `bound` reads from the model; `eta` is a vector or a matrix (`init_dir_prior` leaves no number), `eps` is 1e-100. -/
structure Mod (A T W : Type) where
  alpha : T → ℝ
  eta : Eta T W
  lam : T → W → ℝ
  gamma : A → T → ℝ
  numAuthors : ℕ
  eps : ℝ

/-- `compute_phinorm(expElogtheta[authors_d, :], expElogbeta[:, ids])`, the entry of a word (atmodel.py:393-396, 987). -/
noncomputable def boundNorm (m : Mod A T W) (authors : List A) (w : W) : ℝ :=
  ∑ k, thetaSum (authors.map m.gamma) k * expElog (m.lam k) w + m.eps

/-- What a document adds to `word_score` (atmodel.py:978-988). -/
noncomputable def docScore (m : Mod A T W) (d : List A × List (W × ℝ)) : Except LdaBound.Err ℝ :=
  if d.1.length = 0 then .error .zeroDivision
  else .ok (Real.log (1 / d.1.length) * ((counts d.2).map Prod.snd).sum +
    ((counts d.2).map fun x => x.2 * Real.log (boundNorm m d.1 x.1)).sum)

/-- The loop over the documents (atmodel.py:972-988). -/
noncomputable def wordScore (m : Mod A T W) : List (List A × List (W × ℝ)) → ℝ → Except LdaBound.Err ℝ
  | [], score => .ok score
  | d :: docs, score => do
    let v ← docScore m d
    wordScore m docs (score + v)

/-- What an author adds to `theta_score` (atmodel.py:998-1000). -/
noncomputable def authorScore (m : Mod A T W) (a : A) : ℝ :=
  ∑ k, (m.alpha k - m.gamma a k) * dirichletExpectation (m.gamma a) k
    + ∑ k, (Real.log (Real.Gamma (m.gamma a k)) - Real.log (Real.Gamma (m.alpha k)))
    + (Real.log (Real.Gamma (∑ k, m.alpha k)) - Real.log (Real.Gamma (∑ k, m.gamma a k)))

/-- `bound` (atmodel.py:923-1014). The part of the topics is that of LDA (atmodel.py:1006-1010, ldamodel.py:1115-1124). -/
noncomputable def bound (m : Mod A T W) (ratio : ℝ) (keys : List A) (chunk : List (List A × List (W × ℝ))) :
    Except LdaBound.Err ℝ := do
  let words ← wordScore m chunk 0
  if keys.length = 0 then throw .zeroDivision
  let theta := (keys.map (authorScore m)).foldl (fun s v => s + v) 0 * ((m.numAuthors : ℝ) / keys.length)
  return words * ratio + theta + topicScore m.eta m.lam

/-- `log_perplexity` (atmodel.py:596-605); a chunk without words gives a number that is not finite in the code, 0 here. -/
noncomputable def logPerplexity (m : Mod A T W) (total : Option ℕ) (keys : List A)
    (chunk : List (List A × List (W × ℝ))) : Except LdaBound.Err ℝ := do
  let total := total.getD chunk.length
  let words := (chunk.map fun d => (d.2.map Prod.snd).sum).sum
  if chunk.length = 0 then throw .zeroDivision
  let ratio := 1 * (total : ℝ) / chunk.length
  let b ← bound m ratio keys chunk
  return b / (ratio * words)

end Verif.AuthorBound
