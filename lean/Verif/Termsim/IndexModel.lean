import Verif.Termsim.Model
import Mathlib.Analysis.SpecialFunctions.Pow.Real

/-!
# Term similarity indexes (`UniformTermSimilarityIndex`, `WordEmbeddingSimilarityIndex`,
gensim/similarities/termsim.py)

The dictionary is the list of its tokens, with the positions as ids.  Similarities are real numbers.
-/

namespace Verif.Termsim
open Verif

variable {T K : Type} [DecidableEq T]

/-- Models `sorted(dictionary.items())`, gensim/similarities/termsim.py 91. -/
def dictItems (toks : List T) : List (Nat × T) := toks.zipIdx.map fun p => (p.2, p.1)

/-- Models `UniformTermSimilarityIndex.most_similar`, gensim/similarities/termsim.py 94-97. -/
def uniformSimilar (items : List (Nat × T)) (value : K) (t1 : T) (topn : Nat) : List (T × K) :=
  ((items.filter fun p => decide (p.2 ≠ t1)).take topn).map fun p => (p.2, value)

/-- Models `WordEmbeddingSimilarityIndex.most_similar`, gensim/similarities/termsim.py 133-140; `vectors t n`
is `keyedvectors.most_similar(positive=[t], topn=n, **kwargs)`. -/
noncomputable def embeddingSimilar (known : T → Bool) (vectors : T → Nat → List (T × ℝ))
    (threshold exponent : ℝ) (t1 : T) (topn : Nat) : List (T × ℝ) :=
  if known t1 then
    ((vectors t1 topn).filter fun p => decide (threshold < p.2)).map fun p => (p.1, p.2 ^ exponent)
  else []

/-- Models the terms of an index as ids, gensim/similarities/termsim.py 255-262: `dictionary[t]`, and
`dictionary.token2id` of the terms in the dictionary. -/
def byIds (toks : List T) (mostSimilar : T → Nat → List (T × K)) (t topn : Nat) : List (Nat × K) :=
  match toks[t]? with
  | none => []
  | some t1 => ((mostSimilar t1 topn).filter fun p => decide (p.1 ∈ toks)).map fun p =>
      (toks.idxOf p.1, p.2)

end Verif.Termsim
