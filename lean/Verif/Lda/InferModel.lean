/-
Model of variational inference in gensim/models/ldamodel.py: `inference` (lines 624-728), the
per-document part of `bound` (1086-1108), and of `dirichlet_expectation` (gensim/matutils.py:1069-1087).

Arithmetic is over the reals (the code uses float arrays; rounding is not modelled).  Topics are any
finite type, words any type: `expElogbeta[k, w]` is `beta k w`.  A document is a list of
(word id, count) pairs.  The initial gammas, drawn at random by the code, are arbitrary.
-/
import Verif.Lda.DirichletProps

namespace Verif.LdaInfer

open Verif.Dirichlet

variable {T W : Type} [Fintype T] [DecidableEq W]

/-- `dirichlet_expectation(alpha)` for a vector (matutils.py:1083-1084). -/
noncomputable def dirichletExpectation (g : T → ℝ) (k : T) : ℝ := psi (g k) - psi (∑ j, g j)

/-- `np.exp(dirichlet_expectation(gammad))` (ldamodel.py:664, 701-702). -/
noncomputable def expElog (g : T → ℝ) (k : T) : ℝ := Real.exp (dirichletExpectation g k)

/-- What inference reads from the model: `alpha`, `expElogbeta`, `gamma_threshold`, `iterations`, and
    the constant `epsilon` (ldamodel.py:677). -/
structure Params (T W : Type) where
  alpha : T → ℝ
  beta : T → W → ℝ
  eps : ℝ
  threshold : ℝ
  iterations : ℕ

/-- `phinorm`, the entry of word `w` (ldamodel.py:693, 703). -/
noncomputable def phinorm (p : Params T W) (th : T → ℝ) (w : W) : ℝ := ∑ k, th k * p.beta k w + p.eps

/-- `self.alpha + expElogthetad * np.dot(cts / phinorm, expElogbetad.T)` (ldamodel.py:700). -/
noncomputable def gammaStep (p : Params T W) (th : T → ℝ) (doc : List (W × ℝ)) (k : T) : ℝ :=
  p.alpha k + th k * (doc.map fun x => x.2 / phinorm p th x.1 * p.beta k x.1).sum

/-- `mean_absolute_difference` (ldamodel.py:705; gensim/_matutils.pyx:44-72). -/
noncomputable def meanChange (g g' : T → ℝ) : ℝ := (∑ k, |g k - g' k|) / Fintype.card T

/-- The iterations of one document (ldamodel.py:695-708), at most `n` of them: from `gammad` to the
    final `gammad`. `expElogthetad` is always `exp(dirichlet_expectation(gammad))`. -/
noncomputable def loop (p : Params T W) (doc : List (W × ℝ)) : ℕ → (T → ℝ) → T → ℝ
  | 0, g => g
  | n + 1, g =>
    let g' := gammaStep p (expElog g) doc
    if meanChange g' g < p.threshold then g' else loop p doc n g'

/-- The `gammad` of one document, from its initial value (ldamodel.py:678-709). -/
noncomputable def inferDoc (p : Params T W) (doc : List (W × ℝ)) (g0 : T → ℝ) : T → ℝ :=
  loop p doc p.iterations g0

/-- `row[ids] += values`, one row of `sstats[:, ids] += ...` (ldamodel.py:714), with numpy's meaning
    for an id that occurs several times: the old entry is read once, and the last value wins. -/
def scatterAdd (ids : List W) (value : ℕ → ℝ) (row : W → ℝ) : W → ℝ :=
  ids.zipIdx.foldl (fun r x => Function.update r x.1 (row x.1 + value x.2)) row

/-- `sstats[:, ids] += np.outer(expElogthetad.T, cts / phinorm)` (ldamodel.py:711-714). -/
noncomputable def addStats (p : Params T W) (doc : List (W × ℝ)) (th : T → ℝ) (s : T → W → ℝ) (k : T) :
    W → ℝ :=
  scatterAdd (doc.map Prod.fst)
    (fun i => th k * ((doc.map fun x => x.2 / phinorm p th x.1).getD i 0)) (s k)

/-- The body of the loop over documents (ldamodel.py:678-714): the gammas so far and `sstats`. -/
noncomputable def docBody (p : Params T W) (st : List (T → ℝ) × (T → W → ℝ)) (d : List (W × ℝ) × (T → ℝ)) :
    List (T → ℝ) × (T → W → ℝ) :=
  (st.1 ++ [inferDoc p d.1 d.2], addStats p d.1 (expElog (inferDoc p d.1 d.2)) st.2)

/-- `inference(chunk, collect_sstats=True)` (ldamodel.py:624-728); every document comes with its
    initial gamma. -/
noncomputable def inference (p : Params T W) (chunk : List (List (W × ℝ) × (T → ℝ))) :
    List (T → ℝ) × (T → W → ℝ) :=
  let r := chunk.foldl (docBody p) ([], fun _ _ => 0)
  (r.1, fun k w => r.2 k w * p.beta k w)

/-- The contribution of one document to `bound` (ldamodel.py:1097-1108).  `logsumexp(Elogthetad +
    Elogbeta[:, id])` is the logarithm of the sum of `expElogthetad * expElogbeta[:, id]`; `eps` is
    the constant that inference, but not `bound`, adds to it (0 gives the code's value). -/
noncomputable def docBound (alpha : T → ℝ) (beta : T → W → ℝ) (eps : ℝ) (doc : List (W × ℝ)) (g : T → ℝ) : ℝ :=
  (doc.map fun x => x.2 * Real.log (∑ k, expElog g k * beta k x.1 + eps)).sum
    + ∑ k, (alpha k - g k) * dirichletExpectation g k
    + ∑ k, (Real.log (Real.Gamma (g k)) - Real.log (Real.Gamma (alpha k)))
    + (Real.log (Real.Gamma (∑ k, alpha k)) - Real.log (Real.Gamma (∑ k, g k)))

end Verif.LdaInfer
