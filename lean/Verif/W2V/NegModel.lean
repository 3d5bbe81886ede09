import Mathlib.Algebra.Order.Field.Basic

/-!
# Model of negative sampling: `make_cum_table` (`gensim/models/word2vec.py`), `bisect_left` and the random
number generator of `gensim/models/word2vec_inner.pyx`
-/

namespace Verif.W2V

/-- models word2vec.py:812-815: the running sums of the words' weights (`count ** ns_exponent`) -/
def cumulatives {K : Type} [Field K] : K → List K → List K
  | _, [] => []
  | acc, x :: xs => (acc + x) :: cumulatives (acc + x) xs

/-- models word2vec.py:795-817 `make_cum_table`: `ws` are the weights of the words, `round` is Python's.
Exact arithmetic instead of floats. -/
def cumTable {K : Type} [Field K] (round : K → Nat) (domain : Nat) (ws : List K) : List Nat :=
  let total := ws.foldl (· + ·) 0
  (cumulatives 0 ws).map (fun c => round (c / total * domain))

/-- models word2vec_inner.pyx:142-150 `bisect_left`; the fuel bounds the number of iterations -/
def bisectLoop (a : List Nat) (x : Nat) : Nat → Nat → Nat → Nat
  | 0, lo, _ => lo
  | fuel + 1, lo, hi =>
    if hi > lo then
      let mid := (lo + hi) >>> 1
      if a.getD mid 0 ≥ x then bisectLoop a x fuel lo mid else bisectLoop a x fuel (mid + 1) hi
    else lo

def bisectLeft (a : List Nat) (x lo hi : Nat) : Nat := bisectLoop a x (hi - lo) lo hi

/-- models word2vec_inner.pyx:156, 223: the next state of the generator; products wrap at 64 bits -/
def nextRandom (r : Nat) : Nat := ((r * 25214903917 + 11) % 2 ^ 64) &&& 281474976710655

/-- models word2vec_inner.pyx:222: the word drawn with the generator in state `r` -/
def drawWord (table : List Nat) (r : Nat) : Nat :=
  bisectLeft table ((r >>> 16) % table.getLast?.getD 0) 0 table.length

/-- models word2vec_inner.pyx:215-231: the negative samples for one word, skipping the word itself; `n`
draws starting in state `r`.  Result: the samples and the state afterwards. -/
def negatives (table : List Nat) (word : Nat) : Nat → Nat → List Nat × Nat
  | 0, r => ([], r)
  | n + 1, r =>
    let t := drawWord table r
    let rest := negatives table word n (nextRandom r)
    if t = word then rest else (t :: rest.1, rest.2)

end Verif.W2V
