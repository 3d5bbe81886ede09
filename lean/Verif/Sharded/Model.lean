import Mathlib.Data.Nat.Basic
import Verif.Utils.ChunkModel

/-!
# Model of `gensim/corpora/sharded_corpus.py`

A row is a value of an arbitrary type `R`; `zero` is a row of zeros.  `files k` is the shard file number
`k`.  Rows are returned as stored; the conversions between dense, sparse and gensim rows are modelled in
`Verif.Sharded.FormatModel`.  `int(offset / shardsize)` is integer division (floats are exact below 2^53).
-/

namespace Verif.Sharded
open Verif.Chunk

variable {R : Type}

/-- the pickled attributes -/
structure Saved where
  nShards : Nat
  nDocs : Nat
  offsets : List Nat
  shardsize : Nat
deriving DecidableEq

/-- a ShardedCorpus and the files it uses -/
structure SC (R : Type) where
  files : List (List R)
  saved : Saved
  nShards : Nat
  nDocs : Nat
  offsets : List Nat
  shardsize : Nat
  /-- current_shard_n, current_shard, current_offset -/
  cur : Option (Nat × List R × Nat)
deriving DecidableEq

/-- run `f` after `m`, unless `m` raised; what `m` did to the object stays -/
def andThen {S X Y : Type} (m : Option X × S) (f : X → S → Option Y × S) : Option Y × S :=
  match m with
  | (none, s) => (none, s)
  | (some x, s) => f x s

/-- `l[i]` with Python's negative indices -/
def pyIndex (l : List R) (i : Int) : Option R :=
  if 0 ≤ i then l[i.toNat]? else if 0 ≤ (l.length : Int) + i then l[((l.length : Int) + i).toNat]? else none

/-- a bound of a Python slice, resolved against the length -/
def bound (n : Nat) (i : Int) : Nat := if 0 ≤ i then min i.toNat n else ((n : Int) + i).toNat

/-- `l[a:b]` -/
def pySlice (l : List R) (a b : Int) : List R := (l.take (bound l.length b)).drop (bound l.length a)

/-- models sharded_corpus.py:326-347 `save_shard` of the next shard -/
def saveShard (s : SC R) (shard : List R) : SC R :=
  { s with
    files := s.files ++ [shard]
    offsets := s.offsets ++ [s.offsets.getLastD 0 + shard.length]
    nDocs := s.nDocs + shard.length
    nShards := s.nShards + 1 }

/-- models sharded_corpus.py:755-770 `save` -/
def save (s : SC R) : SC R := { s with saved := ⟨s.nShards, s.nDocs, s.offsets, s.shardsize⟩ }

/-- models sharded_corpus.py:225-255 and 260-301: building from a corpus of rows -/
def build (shardsize : Nat) (rows : List R) : SC R :=
  save ((chunks shardsize rows).foldl saveShard ⟨[], ⟨0, 0, [], 0⟩, 0, 0, [0], shardsize, none⟩)

/-- models sharded_corpus.py:349-365 `load_shard` -/
def loadShard (n : Nat) (s : SC R) : Option Unit × SC R :=
  if s.cur.map (·.1) = some n then (some (), s)
  else match s.files[n]?, s.offsets[n]? with
    | some shard, some o => (some (), { s with cur := some (n, shard, o) })
    | _, _ => (none, s)

/-- models sharded_corpus.py:376-390 `shard_by_offset` -/
def shardByOffset (s : SC R) (offset : Int) : Option Nat :=
  if (s.nDocs : Int) ≤ offset then none else if offset < 0 then none else some (offset.toNat / s.shardsize)

/-- models sharded_corpus.py:392-397 `in_current`; `none`: IndexError -/
def inCurrent (s : SC R) (n curOff : Nat) (offset : Int) : Option Bool :=
  if (curOff : Int) ≤ offset then (s.offsets[n + 1]?).map (fun o : Nat => decide (offset < o)) else some false

/-- models sharded_corpus.py:399-409 `in_next`; `none`: IndexError -/
def inNext (s : SC R) (n : Nat) (offset : Int) : Option Bool :=
  if n = s.nShards then some false
  else match s.offsets[n + 1]? with
    | none => none
    | some o => if (o : Int) ≤ offset then (s.offsets[n + 2]?).map (fun o : Nat => decide (offset < o)) else some false

/-- `self.load_shard(self.shard_by_offset(offset))` -/
def loadFor (offset : Int) (s : SC R) : Option Unit × SC R :=
  match shardByOffset s offset with
  | none => (none, s)
  | some k => loadShard k s

/-- models sharded_corpus.py:540-551 `_ensure_shard` -/
def ensureShard (offset : Int) (s : SC R) : Option Unit × SC R :=
  match s.cur with
  | none => loadFor offset s
  | some (n, _, o) => match inCurrent s n o offset with
    | none => (none, s)
    | some true => (some (), s)
    | some false => match inNext s n offset with
      | none => (none, s)
      | some true => loadShard (n + 1) s
      | some false => loadFor offset s

/-- models sharded_corpus.py:553-557 `get_by_offset` -/
def getByOffset (offset : Int) (s : SC R) : Option R × SC R :=
  andThen (ensureShard offset s) (fun _ s => match s.cur with
    | none => (none, s)
    | some (_, shard, o) => (pyIndex shard (offset - o), s))

/-- the list comprehension of lines 568 and 575 -/
def getMany : List Int → SC R → Option (List R) × SC R
  | [], s => (some [], s)
  | i :: is, s => andThen (getByOffset i s) (fun r s => andThen (getMany is s) (fun rs s => (some (r :: rs), s)))

/-- models sharded_corpus.py:668-706 `__add_to_slice`; `res` is the result being built.
Simplified: numpy's broadcasting of a single row is an error here; lengths agree whenever the metadata
fits the files. -/
def addToSlice (sparse : Bool) (shard res : List R) (rstart rstop start stop : Int) : Option (List R) :=
  if rstop - rstart ≠ stop - start then none
  else
    let part := pySlice shard start stop
    if sparse then
      if (res.length : Int) ≠ rstart then none else some (res ++ part)
    else if part.length ≠ bound res.length rstop - bound res.length rstart then none
    else some (res.take (bound res.length rstart) ++ part ++ res.drop (bound res.length rstart + part.length))

/-- models sharded_corpus.py:640-648, `k` shards from `n` on -/
def middle (sparse : Bool) : Nat → Nat → List R → Int → SC R → Option (List R × Int) × SC R
  | 0, _, res, rstop, s => (some (res, rstop), s)
  | k + 1, n, res, rstop, s => andThen (loadShard n s) (fun _ s => match s.cur with
    | none => (none, s)
    | some (_, shard, _) =>
      match addToSlice sparse shard res rstop (rstop + s.shardsize) 0 s.shardsize with
      | none => (none, s)
      | some res => middle sparse k (n + 1) res (rstop + s.shardsize) s)

/-- models sharded_corpus.py:608-660: a slice over several shards -/
def manyShards (sparse : Bool) (zero : R) (first last : Nat) (start stop : Int) (s : SC R) :
    Option (List R) × SC R :=
  match s.cur with
  | none => (none, s)
  | some (n, shard, o) => match s.offsets[n + 1]? with
    | none => (none, s)
    | some o' =>
      if stop < start then (none, s)
      else match addToSlice sparse shard (if sparse then [] else List.replicate (stop - start).toNat zero)
          0 (o' - start) (start - o) ((o' : Int) - o) with
        | none => (none, s)
        | some res => andThen (middle sparse (last - (first + 1)) (first + 1) res (o' - start) s) (fun r s =>
          andThen (loadShard last s) (fun _ s => match s.cur with
            | none => (none, s)
            | some (_, shard, o) =>
              (addToSlice sparse shard r.1 r.2 (r.2 + (stop - o)) 0 (stop - o), s)))

/-- models sharded_corpus.py:592-596 -/
def lastShard (s : SC R) (stop : Int) : Option Nat :=
  if stop = s.nDocs then some (s.nShards - 1) else shardByOffset s stop

/-- models sharded_corpus.py:583-660, `self[start:stop]` -/
def getSlice (sparse : Bool) (zero : R) (start stop : Int) (s : SC R) : Option (List R) × SC R :=
  if (s.nDocs : Int) < stop then (none, s)
  else match shardByOffset s start, lastShard s stop with
    | some first, some last => andThen (loadShard first s) (fun _ s =>
      if first = last then match s.cur with
        | none => (none, s)
        | some (_, shard, o) => (some (pySlice shard (start - o) (stop - o)), s)
      else manyShards sparse zero first last start stop s)
    | _, _ => (none, s)

/-- models sharded_corpus.py:430-454: the new shards, `k` of them from number `i` on, and their ends -/
def resizeLoop (sparse : Bool) (zero : R) (size : Nat) : Nat → Nat → SC R → Option (List (List R) × List Nat) × SC R
  | 0, _, s => (some ([], []), s)
  | k + 1, i, s =>
    let stop := min (size * i + size) s.nDocs
    andThen (getSlice sparse zero ((size * i : Nat) : Int) stop s) (fun rows s =>
      andThen (resizeLoop sparse zero size k (i + 1) s) (fun r s => (some (rows :: r.1, stop :: r.2), s)))

/-- models sharded_corpus.py:411-482 `resize_shards`, without operating system failures -/
def resize (sparse : Bool) (zero : R) (size : Nat) (s : SC R) : Option Unit × SC R :=
  if size = 0 then (none, s)
  else
    let n := s.nDocs / size + (if s.nDocs % size ≠ 0 then 1 else 0)
    andThen (resizeLoop sparse zero size n 0 s) (fun r s =>
      (some (), { s with files := r.1, nShards := n, offsets := 0 :: r.2, shardsize := size, cur := none }))

/-- models sharded_corpus.py:772-777 `load` -/
def load (s : SC R) : SC R :=
  ⟨s.files, s.saved, s.saved.nShards, s.saved.nDocs, s.saved.offsets, s.saved.shardsize, none⟩

/-- models sharded_corpus.py:225-244 and 303-324: the constructor on existing files -/
def clone (shardsize : Nat) (s : SC R) : SC R := { load s with shardsize := shardsize }

/-- what a user may do with a ShardedCorpus; `iter` is a whole iteration, sharded_corpus.py:747-753 -/
inductive Op where
  | get (i : Int)
  | many (is : List Int)
  | iter
  | slice (start stop : Int)
  | resize (size : Nat)
  | reset
  | save
  | load
  | clone (size : Nat)

/-- one operation: the rows returned (`none`: an exception) and the object afterwards -/
def step (sparse : Bool) (zero : R) (op : Op) (s : SC R) : Option (List R) × SC R :=
  match op with
  | .get i => andThen (getByOffset i s) (fun r s => (some [r], s))
  | .many is => getMany is s
  | .iter => getMany ((List.range s.nDocs).map Int.ofNat) s
  | .slice a b => getSlice sparse zero a b s
  | .resize n => andThen (resize sparse zero n s) (fun _ s => (some [], s))
  | .reset => (some [], { s with cur := none })
  | .save => (some [], save s)
  | .load => (some [], load s)
  | .clone n => (some [], clone n s)

/-- the results of a history of operations -/
def run (sparse : Bool) (zero : R) : List Op → SC R → List (Option (List R))
  | [], _ => []
  | op :: ops, s => (step sparse zero op s).1 :: run sparse zero ops (step sparse zero op s).2

end Verif.Sharded
