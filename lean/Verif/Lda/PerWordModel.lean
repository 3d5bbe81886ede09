import Verif.Lda.TrainModel
import Verif.Lda.InferModel
import Verif.Py.Sort

/-!
# The topics of the words of a document in LDA

Models `LdaModel.get_document_topics(bow, per_word_topics=True)` (gensim/models/ldamodel.py:1318-1367)
on top of the model of inference (`Verif.Lda.InferModel`).  Real numbers are exact.  The random
initial gamma of the document is the argument `g0`.
-/

namespace Verif.LdaPerWord

open Verif.LdaInfer Verif.LdaTrain

variable {n : ℕ} {W : Type} [DecidableEq W]

/-- What `get_document_topics(bow, per_word_topics=True)` returns (ldamodel.py:1367). -/
structure Answer (n : ℕ) (W : Type) where
  topics : List (Fin n × ℝ)
  wordTopics : List (W × List (Fin n))
  wordPhis : List (W × List (Fin n × ℝ))

/-- `a` may stay before `b` in `sorted(phi_values, reverse=True)`: pairs `(phi, topic)` compared
    lexicographically, the greater one first (ldamodel.py:1363). -/
noncomputable def pairGe (a b : ℝ × Fin n) : Bool := decide (b.1 < a.1 ∨ (a.1 = b.1 ∧ b.2 ≤ a.2))

/-- The loop over topics for one word (ldamodel.py:1350-1357): `phi_values` and `phi_topic` after the
    topics `ks`. `m` is `minimum_phi_value` after the `max` of line 1324. -/
noncomputable def topicLoop (phis : Fin n → W → ℝ) (m : ℝ) (w : W) :
    List (Fin n) → List (ℝ × Fin n) → List (Fin n × ℝ) → List (ℝ × Fin n) × List (Fin n × ℝ)
  | [], values, topic => (values, topic)
  | k :: ks, values, topic =>
    if m ≤ phis k w then
      topicLoop phis m w ks (values ++ [(phis k w, k)]) (topic ++ [(k, phis k w)])
    else topicLoop phis m w ks values topic

/-- The body of the loop over the words of `bow` (ldamodel.py:1347-1365): the entries of the word in
    `word_topic` and in `word_phi`. -/
noncomputable def wordEntry (phis : Fin n → W → ℝ) (m : ℝ) (w : W) :
    (W × List (Fin n)) × (W × List (Fin n × ℝ)) :=
  let r := topicLoop phis m w (List.finRange n) [] []
  ((w, (pySort pairGe r.1).map Prod.snd), (w, r.2))

/-- `get_document_topics(bow, minimum_probability, minimum_phi_value, per_word_topics=True)`
    (ldamodel.py:1318-1367) for one document. -/
noncomputable def perWord (p : Params (Fin n) W) (s : Settings) (minProb minPhi : Option ℝ)
    (bow : List (W × ℝ)) (g0 : Fin n → ℝ) : Answer n W :=
  let e := effective s minProb minPhi true
  let r := inference p [(bow, g0)]
  let gamma := r.1.headD g0
  let entries := bow.map fun x => wordEntry r.2 e.minPhi x.1
  { topics := documentTopics gamma e.minProb
    wordTopics := entries.map Prod.fst
    wordPhis := entries.map Prod.snd }

end Verif.LdaPerWord
