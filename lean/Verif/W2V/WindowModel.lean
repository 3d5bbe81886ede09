import Mathlib.Data.List.Range
import Mathlib.Data.Int.Order.Basic

/-!
# Model of the training windows (`gensim/models/word2vec_inner.pyx`, `word2vec_corpusfile.pyx`)

`M` is `MAX_SENTENCE_LEN`.  The down-sampling decision is an arbitrary function of a generator state and the
word; the reduced windows are arbitrary numbers below `window`.
-/

namespace Verif.W2V

variable {τ σ : Type}

/-- models word2vec_inner.pyx:544-557, the loop over the tokens of one sentence.  `indexes` holds the words taken
so far; `keep` decides about down-sampling (`vocab_sample_ints[word_index] < random_int32(&c.next_random)`). -/
def tokenLoop (M : Nat) (lookup : τ → Option Nat) (keep : σ → Nat → Bool × σ) :
    List τ → List Nat → σ → List Nat × σ
  | [], indexes, g => (indexes, g)
  | t :: ts, indexes, g =>
    match lookup t with
    | none => tokenLoop M lookup keep ts indexes g
    | some w =>
      let d := keep g w
      if d.1 = false then tokenLoop M lookup keep ts indexes d.2
      else if (indexes ++ [w]).length = M then (indexes ++ [w], d.2)
      else tokenLoop M lookup keep ts (indexes ++ [w]) d.2

/-- models word2vec_inner.pyx:541-566 (also 637-662 and word2vec_corpusfile.pyx:195-224), the loop over the
sentences of a batch; results: `indexes` and `sentence_idx` (the entries written) -/
def sentenceLoop (M : Nat) (lookup : τ → Option Nat) (keep : σ → Nat → Bool × σ) :
    List (List τ) → List Nat → List Nat → σ → List Nat × List Nat
  | [], indexes, sidx, _ => (indexes, sidx)
  | sent :: sents, indexes, sidx, g =>
    if sent = [] then sentenceLoop M lookup keep sents indexes sidx g
    else
      let r := tokenLoop M lookup keep sent indexes g
      if r.1.length = M then (r.1, sidx ++ [r.1.length])
      else sentenceLoop M lookup keep sents r.1 (sidx ++ [r.1.length]) r.2

/-- models word2vec_inner.pyx:540-566 -/
def prepare (M : Nat) (lookup : τ → Option Nat) (keep : σ → Nat → Bool × σ) (sents : List (List τ)) (g : σ) :
    List Nat × List Nat := sentenceLoop M lookup keep sents [] [0] g

/-- models word2vec_inner.pyx:577-585: the context positions of position `i` in the sentence occupying
positions `start` to `stop` (exclusive).  The cbow functions use the same range and skip (262-266). -/
def context (window : Nat) (reduced : Nat → Nat) (start stop i : Nat) : List Nat :=
  let j : Int := (i : Int) - window + reduced i
  let j : Int := if j < start then start else j
  let k : Int := (i : Int) + window + 1 - reduced i
  let k : Int := if k > stop then stop else k
  ((List.range' j.toNat (k - j).toNat)).filter (fun j => j ≠ i)

/-- models word2vec_inner.pyx:573-590: the (centre, context) position pairs trained on, in order -/
def pairs (window : Nat) (reduced : Nat → Nat) (sidx : List Nat) : List (Nat × Nat) :=
  (List.range (sidx.length - 1)).flatMap (fun n =>
    let start := sidx.getD n 0
    let stop := sidx.getD (n + 1) 0
    (List.range' start (stop - start)).flatMap (fun i =>
      (context window reduced start stop i).map (fun j => (i, j))))

end Verif.W2V
