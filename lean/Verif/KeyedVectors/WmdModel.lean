import Mathlib.Analysis.InnerProductSpace.PiL2
import Mathlib.Algebra.BigOperators.Group.Finset.Basic
import Mathlib.Data.List.Dedup

/-!
# Word mover's distance

`KeyedVectors.wmdistance` (`gensim/models/keyedvectors.py` 842-944).

Simplifications: tokens are an arbitrary type; numbers are exact reals; the temporary `Dictionary` is any
numbering of the distinct tokens of the two documents, iterated in any order (C01, C02 are about the real
one); the unit-normed vectors are an arbitrary function; `pyemd.emd` is the minimum transport cost.
-/

namespace Verif.Wmd

open Classical

variable {T : Type} {K : ℕ}

/-- What the method uses of the model: which tokens have a vector, the unit-normed vectors
(`self.get_vector(t, norm=True)`), and the numbering and iteration order of the temporary dictionary. -/
structure Env (T : Type) (K : ℕ) where
  /-- `token in self` -/
  known : T → Bool
  /-- `self.get_vector(token, norm=True)` -/
  vec : T → EuclideanSpace ℝ (Fin K)
  /-- the tokens of `Dictionary(documents=[document1, document2])`, by id -/
  tokens : List T → List T → List T
  /-- the order in which `dictionary.items()` iterates -/
  order : List (ℕ × T) → List (ℕ × T)

/-- The Euclidean distance of two tokens (`keyedvectors.py` 923-924). -/
noncomputable def tokDist (E : Env T K) (t u : T) : ℝ := ‖E.vec t - E.vec u‖

/-- `distance_matrix[i, j] = distance_matrix[j, i] = x` (`keyedvectors.py` 923). -/
noncomputable def setBoth (D : ℕ → ℕ → ℝ) (i j : ℕ) (x : ℝ) : ℕ → ℕ → ℝ :=
  fun a b => if (a = i ∧ b = j) ∨ (a = j ∧ b = i) then x else D a b

/-- The inner loop over the second document's tokens (`keyedvectors.py` 918-924). -/
noncomputable def fillRow (E : Env T K) (d2 : List T) (p : ℕ × T) :
    List (ℕ × T) → (ℕ → ℕ → ℝ) → ℕ → ℕ → ℝ
  | [], D => D
  | q :: qs, D =>
    if q.2 ∉ d2 ∨ D p.1 q.1 ≠ 0 then fillRow E d2 p qs D
    else fillRow E d2 p qs (setBoth D p.1 q.1 (tokDist E p.2 q.2))

/-- The outer loop over the first document's tokens (`keyedvectors.py` 914-924); `items` is the whole
dictionary. -/
noncomputable def fill (E : Env T K) (d1 d2 : List T) (items : List (ℕ × T)) :
    List (ℕ × T) → (ℕ → ℕ → ℝ) → ℕ → ℕ → ℝ
  | [], D => D
  | p :: ps, D =>
    if p.2 ∉ d1 then fill E d1 d2 items ps D
    else fill E d1 d2 items ps (fillRow E d2 p items D)

/-- `dictionary.items()`: pairs of id and token. -/
def itemsOf (tokens : List T) : List (ℕ × T) := tokens.zipIdx.map fun p => (p.2, p.1)

/-- `nbow` (`keyedvectors.py` 931-937): the share of each dictionary token in the document. -/
noncomputable def nbow (tokens doc : List T) (i : ℕ) : ℝ :=
  match tokens[i]? with
  | none => 0
  | some t => (doc.count t : ℝ) / doc.length

/-- A transport plan between two distributions over `0 … n-1`. -/
structure Flow (n : ℕ) (p q : ℕ → ℝ) (F : ℕ → ℕ → ℝ) : Prop where
  nonneg : ∀ i < n, ∀ j < n, 0 ≤ F i j
  out : ∀ i < n, (∑ j ∈ Finset.range n, F i j) = p i
  into : ∀ j < n, (∑ i ∈ Finset.range n, F i j) = q j

/-- `emd(d1, d2, distance_matrix)` of the `pyemd` library (`keyedvectors.py` 944): the least cost of a
transport plan. -/
noncomputable def emd (n : ℕ) (p q : ℕ → ℝ) (D : ℕ → ℕ → ℝ) : ℝ :=
  sInf {c | ∃ F, Flow n p q F ∧ c = ∑ i ∈ Finset.range n, ∑ j ∈ Finset.range n, F i j * D i j}

/-- `wmdistance` (`keyedvectors.py` 884-944); `⊤` is `float('inf')`. -/
noncomputable def wmdistance (E : Env T K) (document1 document2 : List T) : WithTop ℝ :=
  let d1 := document1.filter E.known
  let d2 := document2.filter E.known
  if d1 = [] ∨ d2 = [] then ⊤
  else
    let tokens := E.tokens d1 d2
    let n := tokens.length
    if n = 1 then (0 : ℝ)
    else
      let items := E.order (itemsOf tokens)
      let D := fill E d1 d2 items items (fun _ _ => 0)
      if (∑ i ∈ Finset.range n, ∑ j ∈ Finset.range n, D i j) = 0 then ⊤
      else emd n (nbow tokens d1) (nbow tokens d2) D

end Verif.Wmd
