import Verif.W2V.StepModel
import Verif.W2V.HuffmanModel
import Verif.Py.Dict

/-!
# Scores of sentences by hierarchical softmax (gensim/models/word2vec_inner.pyx)

Arithmetic is real instead of single precision, as in `StepModel`.
-/

namespace Verif.W2V.Hs

open scoped InnerProductSpace
open Verif.W2V.Step

variable {E : Type} [NormedAddCommGroup E] [InnerProductSpace ℝ E] {τ : Type} [DecidableEq τ]

/-- The points and bits of the word at an index, as `_assign_binary_codes` stored them (word2vec.py:2177-2180) and as
word2vec_inner.pyx 747-749 and 843-845 read them: as many as the code has bits. -/
def pathOf (out : List (Nat × List Bool × List Nat)) (w : Nat) : List (Nat × Bool) :=
  match out.find? (fun e => e.1 == w) with
  | some e => e.2.2.zip e.2.1
  | none => []

/-- Models the loops word2vec_inner.pyx 722-754 and 838-850: the indexes of the known words of a sentence, at most
10000 of them. -/
def known (k2i : PyDict τ Nat) (sentence : List τ) : List Nat :=
  (sentence.filterMap fun w => PyDict.get? k2i w).take 10000

/-- Models the input of `score_pair_cbow_hs`, word2vec_inner.pyx 885-896.  Without any word in the window `inv_count` is
not assigned: it is whatever number `junk` is there. -/
noncomputable def scoreInput (mean : Bool) (junk : ℝ) (ctx : List ℕ) (syn0 : ℕ → E) : E :=
  let neu1 := ctx.foldl (fun s w => s + syn0 w) 0
  let inv := if 0 < ctx.length then 1 / (ctx.length : ℝ) else junk
  if mean then inv • neu1 else neu1

/-- Models the loop of `score_sentence_cbow`, word2vec_inner.pyx 856-868, with `score_pair_cbow_hs`, 874-908: words without
a code are neither scored nor part of a context. -/
noncomputable def scoreCbow (S : Sig) (mean : Bool) (junk : ℝ) (path : ℕ → List (ℕ × Bool)) (window : ℕ)
    (indexes : List ℕ) (syn0 syn1 : ℕ → E) : ℝ :=
  (List.range indexes.length).foldl (fun acc i =>
    if (path (indexes.getD i 0)).length = 0 then acc
    else
      let ctx := ((context window (fun _ => 0) 0 indexes.length i).map fun j => indexes.getD j 0).filter
        fun w => decide ((path w).length ≠ 0)
      scorePath S (scoreInput mean junk ctx syn0) syn1 (path (indexes.getD i 0)) acc) 0

/-- Models word2vec.py:1704-1707: the score of one sentence. -/
noncomputable def score (S : Sig) (sg mean : Bool) (junk : ℝ) (k2i : PyDict τ Nat)
    (out : List (Nat × List Bool × List Nat)) (window : ℕ) (syn0 syn1 : ℕ → E) (sentence : List τ) : ℝ :=
  if sg then scoreSg S (pathOf out) window (known k2i sentence) syn0 syn1
  else scoreCbow S mean junk (pathOf out) window (known k2i sentence) syn0 syn1

end Verif.W2V.Hs
