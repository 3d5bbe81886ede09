import Verif.Lda.InferModel

/-!
# Model of the evaluation of topic models: `bound` and `log_perplexity` of `gensim/models/ldamodel.py`,
`log_perplexity` of `gensim/models/atmodel.py` (the same arithmetic), `evaluate_test_corpus` of
`gensim/models/hdpmodel.py`

Arithmetic is over the reals, as in `InferModel`.
-/

namespace Verif.LdaBound

open Verif.LdaInfer Verif.Dirichlet

variable {T W : Type} [Fintype T] [Fintype W] [DecidableEq W]

/-- `self.eta`: a number, a vector over the words, or a matrix (ldamodel.py:548-601 `init_dir_prior`) -/
inductive Eta (T W : Type) where
  | scalar (e : ℝ)
  | vec (e : W → ℝ)
  | mat (e : T → W → ℝ)

/-- an entry of `self.eta` broadcast to the shape of `_lambda` -/
def Eta.at : Eta T W → T → W → ℝ
  | .scalar e, _, _ => e
  | .vec e, _, w => e w
  | .mat e, k, w => e k w

/-- models ldamodel.py:1119-1122: `sum_eta` -/
def Eta.sum : Eta T W → ℝ
  | .scalar e => e * (Fintype.card W : ℝ)
  | .vec e => ∑ w, e w
  | .mat e => ∑ k, ∑ w, e k w

inductive Err where
  | valueError
  | zeroDivision
deriving DecidableEq

/-- a `gammad` of the loop: one row of a matrix as `inference` returns it (2-d), or an element of the
argument `gamma` (1-d) -/
inductive Gamma (T : Type) where
  | mat (g : T → ℝ)
  | row (g : T → ℝ)

def Gamma.val : Gamma T → T → ℝ
  | .mat g => g
  | .row g => g

/-- models the compiled `logsumexp` (`_matutils.pyx` 75-99), which takes 2-d arrays only, applied to
`Elogthetad + Elogbeta[:, int(id)]` -/
noncomputable def logSumExp (g : Gamma T) (elogbeta : T → ℝ) : Except Err ℝ :=
  match g with
  | .row _ => .error .valueError
  | .mat g => .ok (Real.log (∑ k, Real.exp (dirichletExpectation g k + elogbeta k)))

/-- models ldamodel.py:1103 `sum(cnt * logsumexp(Elogthetad + Elogbeta[:, int(id)]) for id, cnt in doc)` -/
noncomputable def wordScore (lam : T → W → ℝ) (g : Gamma T) : List (W × ℝ) → Except Err ℝ
  | [] => .ok 0
  | x :: doc => do
    let v ← logSumExp g (fun k => dirichletExpectation (lam k) x.1)
    let r ← wordScore lam g doc
    return x.2 * v + r

/-- models ldamodel.py:1091-1108, one document -/
noncomputable def docScore (alpha : T → ℝ) (lam : T → W → ℝ) (doc : List (W × ℝ)) (g : Gamma T) : Except Err ℝ := do
  let words ← wordScore lam g doc
  return words
    + ∑ k, (alpha k - g.val k) * dirichletExpectation g.val k
    + ∑ k, (Real.log (Real.Gamma (g.val k)) - Real.log (Real.Gamma (alpha k)))
    + (Real.log (Real.Gamma (∑ k, alpha k)) - Real.log (Real.Gamma (∑ k, g.val k)))

/-- models ldamodel.py:1090-1108: the loop over the documents, each with its `gammad` -/
noncomputable def docsScore (alpha : T → ℝ) (lam : T → W → ℝ) : List (List (W × ℝ) × Gamma T) → ℝ → Except Err ℝ
  | [], score => .ok score
  | d :: docs, score => do
    let v ← docScore alpha lam d.1 d.2
    docsScore alpha lam docs (score + v)

/-- models ldamodel.py:1115-1124: the part of the topics -/
noncomputable def topicScore (eta : Eta T W) (lam : T → W → ℝ) : ℝ :=
  ∑ k, ∑ w, (eta.at k w - lam k w) * dirichletExpectation (lam k) w
    + ∑ k, ∑ w, (Real.log (Real.Gamma (lam k w)) - Real.log (Real.Gamma (eta.at k w)))
    + ∑ k, (Real.log (Real.Gamma eta.sum) - Real.log (Real.Gamma (∑ w, lam k w)))

/-- models ldamodel.py:1055-1126 `bound`; every document comes with its `gammad` -/
noncomputable def bound (alpha : T → ℝ) (eta : Eta T W) (lam : T → W → ℝ) (ratio : ℝ)
    (docs : List (List (W × ℝ) × Gamma T)) : Except Err ℝ := do
  let score ← docsScore alpha lam docs 0
  return score * ratio + topicScore eta lam

/-- `bound(corpus)`: the `gammad` of a document is inferred, from an arbitrary initial value
(ldamodel.py:1094-1095) -/
noncomputable def inferred (p : Params T W) (docs : List (List (W × ℝ) × (T → ℝ))) : List (List (W × ℝ) × Gamma T) :=
  docs.map fun d => (d.1, .mat (inferDoc p d.1 d.2))

/-- `bound(corpus, gamma=gamma)`: the `gammad` of a document is an element of the matrix `gamma`
(ldamodel.py:1096-1097) -/
def given (docs : List (List (W × ℝ) × (T → ℝ))) : List (List (W × ℝ) × Gamma T) :=
  docs.map fun d => (d.1, .row d.2)

/-- models ldamodel.py:806-833 and atmodel.py:573-605 `log_perplexity`: `total` is `total_docs`.  A chunk
without words gives a number that is not finite in the code (division of a numpy number by zero), 0 here. -/
noncomputable def logPerplexity (alpha : T → ℝ) (eta : Eta T W) (lam : T → W → ℝ) (total : Option ℕ)
    (docs : List (List (W × ℝ) × Gamma T)) : Except Err ℝ := do
  let total := total.getD docs.length
  let words := (docs.map fun d => (d.1.map Prod.snd).sum).sum
  if docs.length = 0 then throw .zeroDivision
  let ratio := 1 * (total : ℝ) / docs.length
  let b ← bound alpha eta lam ratio docs
  return b / (ratio * words)

/-- models hdpmodel.py:918-953 `evaluate_test_corpus`: the loop, with `likelihood` for the first result of
`lda_e_step`; `total` is `total_words` -/
noncomputable def evalLoop (likelihood : List (W × ℝ) → ℝ) : List (List (W × ℝ)) → ℝ → ℝ → ℝ × ℝ
  | [], score, total => (score, total)
  | doc :: docs, score, total =>
    if 0 < doc.length then evalLoop likelihood docs (score + likelihood doc) (total + (doc.map Prod.snd).sum)
    else evalLoop likelihood docs score total

/-- models hdpmodel.py:918-953: `score / total_words` is computed for the log message whether or not it is
written, and raises when both are still Python's zeros -/
noncomputable def evaluate (likelihood : List (W × ℝ) → ℝ) (docs : List (List (W × ℝ))) : Except Err ℝ :=
  if docs.any (fun d => decide (0 < d.length)) then .ok (evalLoop likelihood docs 0 0).1
  else .error .zeroDivision

end Verif.LdaBound
