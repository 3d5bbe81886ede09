import Verif.Py.Text

/-!
# Sampling and preprocessing of text corpora (`gensim/corpora/textcorpus.py`)

The documents of a corpus are the items its stream yields.  `chance i` is the number the random
generator gives for document `i`.
-/

namespace Verif.TextCorpus
open Verif Text

variable {D : Type}

/-- Models the loop of `sample_texts`, gensim/corpora/textcorpus.py 435-446: the sampled items, and
the number of items still missing at the end. -/
def sampleLoop (length : Nat) (chance : Nat → Nat) : Nat → Nat → List D → List D × Nat
  | _, n, [] => ([], n)
  | i, n, d :: ds =>
    if i = length then ([], n)
    else if chance i ≤ n then
      let r := sampleLoop length chance (i + 1) (n - 1) ds
      (d :: r.1, r.2)
    else sampleLoop length chance (i + 1) n ds

/-- What a generator did: the items it yielded, and whether it raised `ValueError` after them. -/
structure Outcome (D : Type) where
  yielded : List D
  error : Bool
  deriving DecidableEq

/-- Models `sample_texts`, gensim/corpora/textcorpus.py 425-451, without metadata and before
preprocessing; `length` is the argument, or the length of the corpus. -/
def sampleTexts (length : Nat) (n : Int) (chance : Nat → Nat) (docs : List D) : Outcome D :=
  if ¬ n ≤ length then ⟨[], true⟩
  else if ¬ 0 ≤ n then ⟨[], true⟩
  else
    let r := sampleLoop length chance 0 n.toNat docs
    ⟨r.1, decide (r.2 ≠ 0)⟩

/-- Models `self.preprocess_text(sample[0]), sample[1]`, gensim/corpora/textcorpus.py 443-444, for a
stream of lines: an `IndexError` is `none`. -/
def sampleWithMetadata {T : Type} (preprocess : Str → T) (line : Str) : Option (T × Char) :=
  match line[0]?, line[1]? with
  | some a, some b => some (preprocess [a], b)
  | _, _ => none

/-- Models `preprocess_text`, gensim/corpora/textcorpus.py 341-348. -/
def preprocessText {X T : Type} (charFilters : List (X → X)) (tokenizer : X → T)
    (tokenFilters : List (T → T)) (text : X) : T :=
  tokenFilters.foldl (fun tokens f => f tokens) (tokenizer (charFilters.foldl (fun t f => f t) text))

/-- What `step_through_preprocess` shows: a text, or tokens. -/
inductive Shown (X T : Type)
  | text (x : X)
  | tokens (t : T)
  deriving DecidableEq

/-- Models the first loop of `step_through_preprocess`, gensim/corpora/textcorpus.py 368-370. -/
def charSteps {X T : Type} : List (X → X) → X → List (Shown X T) × X
  | [], text => ([], text)
  | f :: fs, text =>
    let r := charSteps fs (f text)
    (Shown.text (f text) :: r.1, r.2)

/-- Models `step_through_preprocess`, gensim/corpora/textcorpus.py 368-376 (the second components of
the pairs it yields). -/
def stepThrough {X T : Type} (charFilters : List (X → X)) (tokenizer : X → T)
    (tokenFilters : List (T → T)) (text : X) : List (Shown X T) :=
  let r := charSteps charFilters text
  r.1 ++ [Shown.tokens (tokenizer r.2)] ++
    tokenFilters.map fun f => Shown.tokens (f (tokenizer r.2))

end Verif.TextCorpus
