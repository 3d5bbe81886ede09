import Mathlib.Analysis.SpecialFunctions.Log.Basic
import Mathlib.Algebra.BigOperators.Fin
import Mathlib.Algebra.BigOperators.WithTop
import Mathlib.Data.Finset.SymmDiff
import Verif.Matutils.SparseModel
import Verif.Matutils.NormModel

/-!
# Model of the distances of distributions and of `LdaModel.diff`

Models `/repo/gensim/matutils.py` (Kullback-Leibler, Jensen-Shannon, Hellinger on dense vectors, conversion of sparse
vectors) and `LdaModel.diff`. Numbers are reals, with a top element for infinity.
-/

namespace Verif.LdaDiff

open Verif Verif.Matutils

/-- What can be raised. -/
inductive Err | value | attribute | assertion | index
  deriving DecidableEq, Repr

abbrev Vec (n : Nat) := Fin n → ℝ

/-- `scipy.special.rel_entr` for non-negative arguments. -/
noncomputable def relEntr (x y : ℝ) : WithTop ℝ :=
  open Classical in
  if 0 < x then if 0 < y then ((x * Real.log (x / y) : ℝ) : WithTop ℝ) else ⊤ else 0

/-- `scipy.stats.entropy(pk, qk)`: both are divided by their sums first. -/
noncomputable def entropy {n : Nat} (p q : Vec n) : WithTop ℝ :=
  ∑ i, relEntr (p i / ∑ j, p j) (q i / ∑ j, q j)

/-- A vector handed to a distance: dense, or a bag of words. -/
inductive Input
  | dense (n : Nat) (v : Vec n)
  | bow (doc : List (Nat × ℝ))

/-- The dense vector of a list. -/
def ofList (n : Nat) (l : List ℝ) : Vec n := fun i => l.getD i 0

/-- `_convert_vec` (`matutils.py` 842-866) for two bags of words: without `num_features`, the number of entries of the longer one is
taken as the dimension. -/
noncomputable def convertBow (doc1 doc2 : List (Nat × ℝ)) (numFeatures : Option Nat) : Except Err ((n : Nat) × Vec n × Vec n) :=
  let n := match numFeatures with
    | some n => n
    | none => max doc1.length doc2.length
  match sparse2full doc1 n, sparse2full doc2 n with
  | some a, some b => .ok ⟨n, ofList n a, ofList n b⟩
  | _, _ => .error .index

/-- `kullback_leibler` (`matutils.py` 869-888) of dense vectors of one size. -/
noncomputable def kullbackLeibler {n : Nat} (p q : Vec n) : WithTop ℝ := entropy p q

/-- Half of a number of `WithTop ℝ`. -/
noncomputable def half : WithTop ℝ → WithTop ℝ
  | ⊤ => ⊤
  | (x : ℝ) => ((x / 2 : ℝ) : WithTop ℝ)

/-- `jensen_shannon` (`matutils.py` 891-914) of dense vectors of one size. -/
noncomputable def jensenShannon {n : Nat} (p q : Vec n) : WithTop ℝ :=
  let avg : Vec n := fun i => (p i + q i) / 2
  half (entropy p avg + entropy q avg)

/-- `kullback_leibler` of bags of words. -/
noncomputable def kullbackLeiblerBow (doc1 doc2 : List (Nat × ℝ)) (numFeatures : Option Nat) : Except Err (WithTop ℝ) :=
  match convertBow doc1 doc2 numFeatures with
  | .error e => .error e
  | .ok ⟨_, p, q⟩ => .ok (kullbackLeibler p q)

/-- `jensen_shannon` of bags of words. -/
noncomputable def jensenShannonBow (doc1 doc2 : List (Nat × ℝ)) (numFeatures : Option Nat) : Except Err (WithTop ℝ) :=
  match convertBow doc1 doc2 numFeatures with
  | .error e => .error e
  | .ok ⟨_, p, q⟩ => .ok (jensenShannon p q)

/-- `hellinger` (`matutils.py` 917-950) of dense vectors. -/
noncomputable def hellinger {n : Nat} (p q : Vec n) : ℝ :=
  Real.sqrt (1 / 2 * ∑ i, (Real.sqrt (p i) - Real.sqrt (q i)) ^ 2)

/-! ### `LdaModel.diff` -/

/-- What `diff` uses of a model: its class and the classes it derives from, its topics over a vocabulary of `n` words, and the words `show_topic` lists. -/
structure Lda (W : Type) (n : Nat) where
  cls : String
  bases : List String
  numTopics : Nat
  topics : Fin numTopics → Vec n
  words : Fin numTopics → Nat → Finset W

/-- The names of the distances (`ldamodel.py` 1447-1452). -/
inductive Distance | kullbackLeibler | hellinger | jaccard | jensenShannon
  deriving DecidableEq

/-- `distances[distance]`. -/
def parseDistance (name : String) : Option Distance :=
  if name = "kullback_leibler" then some .kullbackLeibler
  else if name = "hellinger" then some .hellinger
  else if name = "jaccard" then some .jaccard
  else if name = "jensen_shannon" then some .jensenShannon
  else none

variable {W : Type} [DecidableEq W] {n : Nat}

/-- `distance_func(d1[topic1], d2[topic2])` (`ldamodel.py` 1461-1470, 1494). The topics of a model are positive, so that the first
and the last are finite; infinity would be stored as such. -/
noncomputable def topicDistance (d : Distance) (numWords : Nat) (a b : Lda W n) (i : Fin a.numTopics) (j : Fin b.numTopics) : ℝ :=
  match d with
  | .kullbackLeibler => (kullbackLeibler (a.topics i) (b.topics j)).untopD 0
  | .hellinger => hellinger (a.topics i) (b.topics j)
  | .jaccard => jaccardDistance (a.words i numWords) (b.words j numWords)
  | .jensenShannon => (jensenShannon (a.topics i) (b.topics j)).untopD 0

/-- `np.max(z)` of a non-empty array. -/
noncomputable def maxOf (z : List ℝ) : ℝ := z.tail.foldl max (z.headD 0)

/-- `ldamodel.py` 1504-1506. -/
noncomputable def norming (z : List ℝ) : ℝ :=
  open Classical in if |maxOf z| > 1 / 100000000 then maxOf z else 1

/-- The result: the distances, and for each cell the common words and the words of one topic only. `pick` is the order in which
a set is turned into a list. -/
structure Diff (W : Type) where
  z : List (List ℝ)
  annotation : Option (List (List (List W × List W)))

/-- `LdaModel.diff` (`ldamodel.py` 1447-1508), off the diagonal. A diagonal result is given as one row. -/
noncomputable def diff (pick : Finset W → List W) (a b : Lda W n) (distance : String) (numWords nAnnTerms : Nat)
    (diagonal annotation normed : Bool) : Except Err (Diff W) :=
  match parseDistance distance with
  | none => .error .value
  | some d =>
    if a.cls ∉ b.cls :: b.bases then .error .attribute  -- `self.__name__` in the message (1459)
    else
      let cell (i : Fin a.numTopics) (j : Fin b.numTopics) : ℝ × List W × List W :=
        let fst := a.words i numWords
        let snd := b.words j numWords
        (topicDistance d numWords a b i j, (pick (fst ∩ snd)).take nAnnTerms, (pick (symmDiff fst snd)).take nAnnTerms)
      let finish (cells : List (List (ℝ × List W × List W))) : Diff W :=
        let z := cells.map fun r => r.map (·.1)
        let c := if normed then norming z.flatten else 1
        ⟨z.map fun r => r.map (· / c), if annotation then some (cells.map fun r => r.map (·.2)) else none⟩
      if diagonal then
        if h : a.numTopics = b.numTopics then
          .ok (finish [(List.finRange a.numTopics).map fun i => cell i (i.cast h)])
        else .error .assertion
      else .ok (finish ((List.finRange a.numTopics).map fun i => (List.finRange b.numTopics).map fun j => cell i j))

/-- `ConvergenceMetric.get_value` (`callbacks.py` 437-442): the sum of the result. -/
noncomputable def convergence (pick : Finset W → List W) (a b : Lda W n) (distance : String) (numWords nAnnTerms : Nat)
    (diagonal annotation normed : Bool) : Except Err ℝ :=
  (diff pick a b distance numWords nAnnTerms diagonal annotation normed).map fun r => r.z.flatten.sum

end Verif.LdaDiff
