import Verif.Poincare.BallModel

/-!
# Moving the vectors of a batch (`_handle_duplicates`, `_clip_vectors`, `_update_vectors_batch`,
gensim/models/poincare.py)

The array of vectors is a function from node numbers to vectors.  The gradients are arbitrary.
-/

namespace Verif.Poincare

variable {n : ℕ}

/-- The array of vectors. -/
abbrev Vectors (n : ℕ) := ℕ → Vec n

/-- numpy's `a[indices] = rows`: the rows are stored one after the other. -/
def fancySet (a : Vectors n) (indices : List ℕ) (rows : List (Vec n)) : Vectors n :=
  (indices.zip rows).foldl (fun a p => Function.update a p.1 p.2) a

/-- numpy's `a[indices] -= rows`: all differences are computed first, then stored. -/
noncomputable def fancySub (a : Vectors n) (indices : List ℕ) (rows : List (Vec n)) : Vectors n :=
  fancySet a indices (List.zipWith (fun i r => a i - r) indices rows)

/-- Models `node_dict[node_index]`, gensim/models/poincare.py 564-566: the positions of a node. -/
def positions (indices : List ℕ) (node : ℕ) : List ℕ :=
  (List.range indices.length).filter fun i => decide (indices[i]? = some node)

/-- Models `vector_updates[positions] = 0`. -/
noncomputable def zeroRows (updates : List (Vec n)) (ps : List ℕ) : List (Vec n) :=
  ps.foldl (fun us p => us.set p 0) updates

/-- Models the body of the loop, gensim/models/poincare.py 568-573. -/
noncomputable def mergeNode (indices : List ℕ) (updates : List (Vec n)) (node : ℕ) : List (Vec n) :=
  let ps := positions indices node
  if ps.length = 1 then updates
  else
    let sum := (ps.map fun p => updates.getD p 0).sum
    zeroRows (updates.set (ps.getLastD 0) sum) ps.dropLast

/-- Models `_handle_duplicates`, gensim/models/poincare.py 544-573; the keys of `Counter` are the
different nodes. -/
noncomputable def handleDuplicates (updates : List (Vec n)) (indices : List ℕ) : List (Vec n) :=
  indices.dedup.foldl (mergeNode indices) updates

/-- `np.sign` of a vector. -/
noncomputable def signVec (v : Vec n) : Vec n := WithLp.toLp 2 fun i => SignType.sign (v i)

/-- Models lines 383-384 for one row that is too long. -/
noncomputable def clipRow (eps : ℝ) (v : Vec n) : Vec n :=
  let w := ((1 - eps) / ‖v‖) • v
  w - eps • signVec w

open Classical in
/-- Models `_clip_vectors` for an array with several rows, gensim/models/poincare.py 378-385. -/
noncomputable def clipVectors (eps : ℝ) (rows : List (Vec n)) : List (Vec n) :=
  if ∀ v ∈ rows, ‖v‖ < 1 - eps then rows
  else rows.map fun v => if 1 - eps ≤ ‖v‖ then clipRow eps v else v

/-- Models lines 589-592 (and 597-600) of gensim/models/poincare.py: subtract the updates and clip. -/
noncomputable def applyUpdates (eps : ℝ) (a : Vectors n) (indices : List ℕ) (updates : List (Vec n)) :
    Vectors n :=
  let a := fancySub a indices (handleDuplicates updates indices)
  fancySet a indices (clipVectors eps (indices.map a))

/-- Models `_update_vectors_batch`, gensim/models/poincare.py 575-600; the updates are the scaled
gradients. -/
noncomputable def updateBatch (eps : ℝ) (a : Vectors n) (us : List ℕ × List (Vec n))
    (vs : List ℕ × List (Vec n)) : Vectors n :=
  applyUpdates eps (applyUpdates eps a us.1 us.2) vs.1 vs.2

end Verif.Poincare
