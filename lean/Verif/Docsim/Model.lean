import Mathlib.Tactic.Common

/-!
# Sharded similarity index (`gensim/similarities/docsim.py`)

`D` are documents as passed by the user, `V` the vectors stored in the index.  `prep` is the
conversion and normalisation of a document (docsim.py 399-408), `doclen` the number of entries it is
counted with (400, 402, 404), and `kept` the number of entries of a stored vector that survive the
conversion for a sparse shard (entries with absolute value above 1e-9, docsim.py 1167-1169,
matutils.py 402-426, 307-336).  Rounding to `float32` is not modelled.
-/

namespace Verif.Docsim

variable {D V : Type}

/-- What a document contributes. -/
structure Env (D V : Type) where
  prep : D → V
  doclen : D → Nat
  kept : V → Nat

/-- Models a `Shard`, gensim/similarities/docsim.py 93-116, 458-460: its length, its index (the rows)
and `num_nnz`. -/
structure Shard (V : Type) where
  len : Nat
  rows : List V
  nnz : Nat
deriving DecidableEq

/-- Models the state of `Similarity`, gensim/similarities/docsim.py 345-351, with the shard files on
disk (`files i` is the content of the file `shardid2filename(i)`, 416-433). -/
structure Sim (V : Type) where
  shards : List (Shard V)
  fresh : List V
  freshNnz : Nat
  files : List (List V)
deriving DecidableEq

/-- Models an empty index, gensim/similarities/docsim.py 350-351. -/
def Sim.empty : Sim V := { shards := [], fresh := [], freshNnz := 0, files := [] }

/-- Models `__len__`, gensim/similarities/docsim.py 356-358. -/
def Sim.length (s : Sim V) : Nat := s.fresh.length + (s.shards.map fun sh => sh.len).sum

/-- Writes file `i` (files are numbered consecutively from 0). -/
def writeFile (files : List (List V)) (i : Nat) (rows : List V) : List (List V) :=
  if i < files.length then files.set i rows else files ++ [rows]

/-- Models `close_shard`, gensim/similarities/docsim.py 435-462, with `Shard.__init__` (111-116)
writing the file.  The shard is sparse if its density is below 0.3; building a sparse shard fails
(`AssertionError`, matutils.py 143: `none`) unless the number of entries equals `fresh_nnz`. -/
def closeShard (e : Env D V) (numFeatures : Nat) (s : Sim V) : Option (Sim V) :=
  if s.fresh.isEmpty then some s
  else if 10 * s.freshNnz < 3 * (s.fresh.length * numFeatures) ∧
      (s.fresh.map e.kept).sum ≠ s.freshNnz then none
  else some
    { shards := s.shards ++ [{ len := s.fresh.length, rows := s.fresh, nnz := s.freshNnz }]
      fresh := []
      freshNnz := 0
      files := writeFile s.files s.shards.length s.fresh }

/-- Models `reopen_shard`, gensim/similarities/docsim.py 464-476 (`ValueError` with fresh
documents: `none`). -/
def reopenShard (s : Sim V) : Option (Sim V) :=
  match s.shards.getLast? with
  | none => none
  | some last =>
    if s.fresh.isEmpty then
      some { s with fresh := last.rows, freshNnz := last.nnz, shards := s.shards.dropLast }
    else none

/-- Models one turn of the loop of `add_documents`, gensim/similarities/docsim.py 398-412. -/
def addOne (e : Env D V) (numFeatures shardsize : Nat) (s : Sim V) (d : D) : Option (Sim V) :=
  let s' : Sim V :=
    { s with fresh := s.fresh ++ [e.prep d], freshNnz := s.freshNnz + e.doclen d }
  if shardsize ≤ s'.fresh.length then closeShard e numFeatures s' else some s'

/-- Models the first step of `add_documents`, gensim/similarities/docsim.py 394-397 (`min_ratio` is
1). -/
def reopenIfIncomplete (shardsize : Nat) (s : Sim V) : Option (Sim V) :=
  match s.shards.getLast? with
  | none => some s
  | some last => if last.len < shardsize then reopenShard s else some s

/-- Models `add_documents`, gensim/similarities/docsim.py 365-412. -/
def addDocuments (e : Env D V) (numFeatures shardsize : Nat) (s : Sim V) (docs : List D) :
    Option (Sim V) :=
  (reopenIfIncomplete shardsize s).bind fun s' => docs.foldlM (addOne e numFeatures shardsize) s'

/-- Models the search for the shard in `vector_by_id`, gensim/similarities/docsim.py 610-614: returns
`pos` and the last shard looked at. -/
def findShard (docpos : Int) : Int → List (Shard V) → Option (Shard V) → Int × Option (Shard V)
  | pos, [], last => (pos, last)
  | pos, sh :: rest, _ =>
    if docpos < pos + sh.len then (pos + sh.len, some sh)
    else findShard docpos (pos + sh.len) rest (some sh)

/-- Models `get_document_id`, gensim/similarities/docsim.py 165-186. -/
def Shard.getDocument (sh : Shard V) (pos : Int) : Option V :=
  if 0 ≤ pos ∧ pos < sh.len then sh.rows[pos.toNat]? else none

/-- Models the lookup of `vector_by_id` after `close_shard`, gensim/similarities/docsim.py 610-618
(`ValueError`: `none`). -/
def lookupVector (s : Sim V) (docpos : Int) : Option V :=
  match findShard docpos 0 s.shards none with
  | (_, none) => none
  | (pos, some sh) =>
    if docpos < 0 ∨ pos ≤ docpos then none
    else sh.getDocument (docpos - pos + sh.len)

/-- Models `vector_by_id`, gensim/similarities/docsim.py 582-618. -/
def vectorById (e : Env D V) (numFeatures : Nat) (s : Sim V) (docpos : Int) : Option V :=
  (closeShard e numFeatures s).bind fun s' => lookupVector s' docpos

/-- Models what `save` pickles after `close_shard`, gensim/similarities/docsim.py 711-749, 133-146:
the lengths and entry counts of the shards, without the rows. -/
def pickled (s : Sim V) : List (Nat × Nat) := s.shards.map fun sh => (sh.len, sh.nnz)

/-- Models loading a pickled index: shard `i` takes its rows from file `i` when first used
(`get_index`, gensim/similarities/docsim.py 151-163); a missing file fails (`none`). -/
def loadShards (files : List (List V)) : Nat → List (Nat × Nat) → Option (List (Shard V))
  | _, [] => some []
  | i, m :: ms => match files[i]? with
    | none => none
    | some rows => (loadShards files (i + 1) ms).map fun rest =>
        { len := m.1, rows := rows, nnz := m.2 } :: rest

/-- Models `Similarity.load` of what `save` wrote, with the shard files as they are now. -/
def loadIndex (files : List (List V)) (meta' : List (Nat × Nat)) : Option (Sim V) :=
  (loadShards files 0 meta').map fun shards =>
    { shards := shards, fresh := [], freshNnz := 0, files := files }

/-- Operations of a history: adding documents, or any operation that reads the index (query,
`vector_by_id`, iteration, `save`), which closes the current shard first (535, 609, 689, 746). -/
inductive Op (D : Type)
  | add (docs : List D)
  | read

/-- One operation. -/
def runOp (e : Env D V) (numFeatures shardsize : Nat) (s : Sim V) : Op D → Option (Sim V)
  | .add docs => addDocuments e numFeatures shardsize s docs
  | .read => closeShard e numFeatures s

/-- A history of operations from the empty index. -/
def runOps (e : Env D V) (numFeatures shardsize : Nat) (ops : List (Op D)) : Option (Sim V) :=
  ops.foldlM (runOp e numFeatures shardsize) Sim.empty

/-- All rows of the closed shards, in order. -/
def Sim.allRows (s : Sim V) : List V := (s.shards.map fun sh => sh.rows).flatten

end Verif.Docsim
