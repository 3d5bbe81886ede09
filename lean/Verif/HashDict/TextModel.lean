import Verif.HashDict.Model

/-!
# Model of `HashDictionary.save_as_text` (`gensim/corpora/hashdictionary.py` 341-349)
-/

namespace Verif.HashDict
open Verif PyDict

variable {τ : Type} [LinearOrder τ]

/-- models hashdictionary.py:343-346: the words of one id with their document frequencies, most frequent first
(`sorted` is stable, so equally frequent words stay in alphabetical order) -/
def lineWords (s : St τ) (i : Nat) : List (τ × Nat) :=
  pySort (fun a b => decide (b.2 ≤ a.2))
    ((pySort (fun a b => decide (a ≤ b)) (getitem s i)).map fun w => (w, getD s.dfsDebug w 0))

/-- models hashdictionary.py:341-349, `save_as_text`: the lines of the file as triples of the id, its document
frequency and the words with theirs.  How a triple is written (`id[TAB]df[TAB]word(df)[TAB]word(df)…`) is not
modelled: nothing reads the file. -/
def saveAsText (c : Cfg τ) (s : St τ) : List (Nat × Nat × List (τ × Nat)) :=
  (List.range c.range).filterMap fun i =>
    if getitem s i = [] then none else some (i, getD s.dfs i 0, lineWords s i)

end Verif.HashDict
