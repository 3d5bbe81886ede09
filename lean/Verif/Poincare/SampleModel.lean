/-!
# Relations and negative samples (`build_vocab`, `_sample_negatives`, `NegativesBuffer`,
gensim/models/poincare.py)

Sets of node numbers are lists without repetition.  Random numbers are inputs: `rand k` is the `k`-th
array of uniform numbers, `choice` the answer of `np.random.choice`.
-/

namespace Verif.Poincare

variable {K : Type} [DecidableEq K]

/-- The vocabulary and the relations of a model. -/
structure Vocab (K : Type) where
  keys : List K
  counts : List Nat
  relations : List (Nat × Nat)
  nodeRelations : Nat → List Nat

/-- Models an empty model, gensim/models/poincare.py 150-152. -/
def Vocab.empty : Vocab K := { keys := [], counts := [], relations := [], nodeRelations := fun _ => [] }

/-- Models lines 213-219 of gensim/models/poincare.py for one item: count it. -/
def addItem (v : Vocab K) (item : K) : Vocab K :=
  if item ∈ v.keys then
    { v with counts := v.counts.set (v.keys.idxOf item) (v.counts.getD (v.keys.idxOf item) 0 + 1) }
  else { v with keys := v.keys ++ [item], counts := v.counts ++ [1] }

/-- Models lines 213-225 of gensim/models/poincare.py for one relation. -/
def addRelation (v : Vocab K) (r : K × K) : Vocab K :=
  let v := addItem (addItem v r.1) r.2
  let i := v.keys.idxOf r.1
  let j := v.keys.idxOf r.2
  { v with
    nodeRelations := fun k => if k = i then (if j ∈ v.nodeRelations i then v.nodeRelations i
                                             else v.nodeRelations i ++ [j]) else v.nodeRelations k
    relations := v.relations ++ [(i, j)] }

/-- Models `build_vocab`, gensim/models/poincare.py 207-229 (relations with two items). -/
def buildVocab (v : Vocab K) (rs : List (K × K)) : Vocab K := rs.foldl addRelation v

/-- Models `np.cumsum`, gensim/models/poincare.py 250. -/
def cumsum (counts : List Nat) : List Nat :=
  (List.range counts.length).map fun i => (counts.take (i + 1)).sum

/-- Models `np.searchsorted`: the number of entries below `x` in a non-decreasing table. -/
def searchsorted (table : List Nat) (x : Nat) : Nat := table.countP fun t => decide (t < x)

/-- Models `NegativesBuffer`, gensim/models/poincare.py 1357-1370. -/
structure Buffer where
  items : List Nat
  pos : Nat

/-- Models `num_items`, gensim/models/poincare.py 1372-1381. -/
def Buffer.numItems (b : Buffer) : Int := (b.items.length : Int) - b.pos

/-- Models `get_items`, gensim/models/poincare.py 1402-1405. -/
def Buffer.getItems (b : Buffer) (k : Nat) : List Nat × Buffer :=
  ((b.items.drop b.pos).take k, { b with pos := b.pos + k })

/-- The buffer and the number of arrays of random numbers used so far. -/
structure SampleState where
  buffer : Buffer
  used : Nat

/-- Models `_get_candidate_negatives`, gensim/models/poincare.py 262-270. -/
def candidates (counts : List Nat) (negative : Nat) (rand : Nat → List Nat) (st : SampleState) :
    List Nat × SampleState :=
  let st := if st.buffer.numItems < negative then
      { buffer := { items := (rand st.used).map (searchsorted (cumsum counts)), pos := 0 }
        used := st.used + 1 }
    else st
  let r := st.buffer.getItems negative
  (r.1, { st with buffer := r.2 })

/-- Models the condition for sampling again, gensim/models/poincare.py 301. -/
def again (indices related : List Nat) : Bool :=
  !decide indices.Nodup || indices.any fun i => decide (i ∈ related)

/-- Models the loop, gensim/models/poincare.py 298-304: `none` if it has not ended after `fuel`
candidates. -/
def resample (counts : List Nat) (negative : Nat) (rand : Nat → List Nat) (related : List Nat) :
    Nat → SampleState → Option (List Nat × SampleState)
  | 0, _ => none
  | fuel + 1, st =>
    let r := candidates counts negative rand st
    if again r.1 related then resample counts negative rand related fuel r.2 else some r

/-- What a call of `_sample_negatives` does. -/
inductive Sampled
  /-- it raises `ValueError` -/
  | error
  /-- it is still sampling -/
  | running
  /-- it returns these nodes -/
  | done (indices : List Nat) (st : SampleState)

/-- Models `_sample_negatives`, gensim/models/poincare.py 286-315. -/
def sampleNegatives (v : Vocab K) (negative : Nat) (rand : Nat → List Nat) (choice : List Nat)
    (fuel : Nat) (st : SampleState) (node : Nat) : Sampled :=
  let related := v.nodeRelations node
  if (v.keys.length : Int) - related.length < negative then Sampled.error
  else if 100 * related.length < v.keys.length then
    match resample v.counts negative rand related fuel st with
    | none => Sampled.running
    | some r => Sampled.done r.1 r.2
  else Sampled.done choice st

end Verif.Poincare
