import Verif.Lda.InferModel
import Verif.Lda.BoundModel
import Verif.Hdp.Model

/-!
# Model of `lda_e_step` and its likelihood (`gensim/models/hdpmodel.py`)

`psi` and `gammaln` of scipy are the digamma function and the logarithm of the Gamma function; exact real arithmetic.
-/

namespace Verif.HdpScore

open Verif Verif.Dirichlet

variable {T W : Type} [Fintype T]

/-- the variables of the loop of `lda_e_step`; `elog` is unset before the first turn -/
structure Vars (T : Type) where
  gamma : T → ℝ
  elog : Option (T → ℝ)
  theta : T → ℝ

/-- `phinorm`, for a word `w` (`hdpmodel.py` 121, 130) -/
noncomputable def norm (beta : T → W → ℝ) (theta : T → ℝ) (w : W) : ℝ := ∑ k, theta k * beta k w + 1 / 10 ^ 100

/-- models hdpmodel.py:119-120: the variables before the loop -/
noncomputable def start : Vars T :=
  ⟨fun _ => 1, none, fun _ => Real.exp (psi 1 - psi (∑ _ : T, (1 : ℝ)))⟩

/-- models hdpmodel.py:124-130: one turn -/
noncomputable def turn (alpha : T → ℝ) (beta : T → W → ℝ) (doc : List (W × ℝ)) (s : Vars T) : Vars T :=
  let gamma := fun k => alpha k + s.theta k * (doc.map fun x => x.2 / norm beta s.theta x.1 * beta k x.1).sum
  let elog := fun k => psi (gamma k) - psi (∑ j, gamma j)
  ⟨gamma, some elog, fun k => Real.exp (elog k)⟩

open Classical in
/-- models hdpmodel.py:123-133: the loop, with `n` turns left -/
noncomputable def turns (alpha : T → ℝ) (beta : T → W → ℝ) (doc : List (W × ℝ)) : ℕ → Vars T → Vars T
  | 0, s => s
  | n + 1, s =>
    let s' := turn alpha beta doc s
    if (∑ k, |s'.gamma k - s.gamma k|) / Fintype.card T < 1 / 100000 then s' else turns alpha beta doc n s'

/-- models hdpmodel.py:97-140 `lda_e_step`: the likelihood and `gamma`; `none` is the `UnboundLocalError` of a loop
that never runs. -/
noncomputable def eStep (alpha : T → ℝ) (beta : T → W → ℝ) (maxIter : ℕ) (doc : List (W × ℝ)) : Option (ℝ × (T → ℝ)) :=
  let s := turns alpha beta doc maxIter start
  s.elog.map fun elog =>
    ((doc.map fun x => x.2 * Real.log (norm beta s.theta x.1)).sum
      + ∑ k, (alpha k - s.gamma k) * elog k
      + ∑ k, (Real.log (Real.Gamma (s.gamma k)) - Real.log (Real.Gamma (alpha k)))
      + (Real.log (Real.Gamma (∑ k, alpha k)) - Real.log (Real.Gamma (∑ k, s.gamma k))), s.gamma)

/-- models hdpmodel.py:934-953 `evaluate_test_corpus` with `lda_e_step` and its 100 turns -/
noncomputable def evaluateTest (alpha : T → ℝ) (beta : T → W → ℝ) (docs : List (List (W × ℝ))) :
    Except LdaBound.Err ℝ :=
  LdaBound.evaluate (fun doc => ((eStep alpha beta 100 doc).map Prod.fst).getD 0) docs

end Verif.HdpScore
