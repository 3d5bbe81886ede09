import Mathlib.Algebra.Field.Rat
import Mathlib.Algebra.Order.Ring.Rat
import Verif.Matutils.SparseModel
import Verif.Sharded.Model

/-!
# Model of the formats of `gensim/corpora/sharded_corpus.py`

The model of `Verif.Sharded.Model` moves rows between files and answers; here the rows are vectors, the
shard files are numpy arrays or csr matrices, and the answers are converted as `_getitem_format` does.
A csr matrix is represented by its rows in full; all csr matrices of the code are made from arrays, so their
stored entries are the non-zero ones.  All shard files are always of one kind: they are all written by the
constructor or all written by `resize_shards`.
-/

namespace Verif.Sharded
open Verif.Matutils

/-- a vector -/
abbrev Row := List ℚ

/-- a document in gensim's format -/
abbrev Bow := List (Nat × ℚ)

/-- what `corpus[...]` returns -/
inductive Out where
  /-- a one-dimensional array -/
  | vec (r : Row)
  /-- a two-dimensional array -/
  | mat (rows : List Row)
  /-- a csr matrix -/
  | csr (rows : List Row)
  /-- a one-dimensional array of csr matrices of one row -/
  | objs (rows : List Row)
  /-- a gensim document -/
  | bow (d : Bow)
  /-- a generator of gensim documents -/
  | bows (ds : List Bow)
deriving DecidableEq

/-- the attributes sparse_serialization, sparse_retrieval and gensim, sharded_corpus.py:235-238 -/
structure Cfg where
  ser : Bool
  ret : Bool
  gensim : Bool
deriving DecidableEq

/-- the stored entries of a row of a csr matrix -/
def nonzero (r : Row) : Bow := r.zipIdx.filterMap (fun p => if p.1 = 0 then none else some (p.2, p.1))

/-- models sharded_corpus.py:721-735 `_getitem_sparse2gensim`.  The generator of an array of at least one row
raises when it is asked for a document (an array has no `indices`); that is an error here. -/
def sparse2gensim : Out → Option Out
  | .csr rows => some (.bows (rows.map nonzero))
  | .vec r => if r.length = 0 then some (.bows []) else none
  | .mat rows => if rows.length = 0 then some (.bows []) else none
  | _ => none

/-- models sharded_corpus.py:737-744 `_getitem_dense2gensim`; `eps` is the threshold of `full2sparse`.
`full2sparse` of a csr matrix or of csr matrices raises. -/
def dense2gensim (eps : ℚ) : Out → Option Out
  | .vec r => some (.bow (full2sparse eps r))
  | .mat rows => some (.bows (rows.map (full2sparse eps)))
  | .csr rows => if rows.length = 0 then some (.bows []) else none
  | _ => none

/-- `numpy.array(x.todense())`: only sparse matrices have `todense` -/
def toDense : Out → Option Out
  | .csr rows => some (.mat rows)
  | _ => none

/-- `sparse.csr_matrix(x)`: a one-dimensional array becomes a matrix of one row -/
def toCsr : Out → Option Out
  | .vec r => some (.csr [r])
  | .mat rows => some (.csr rows)
  | .csr rows => some (.csr rows)
  | _ => none

/-- models sharded_corpus.py:708-719 `_getitem_format` and the same decisions in lines 570-579 -/
def format (eps : ℚ) (c : Cfg) (x : Out) : Option Out :=
  if c.ser then
    if c.gensim then sparse2gensim x else if !c.ret then toDense x else some x
  else
    if c.gensim then dense2gensim eps x else if c.ret then toCsr x else some x

/-- a ShardedCorpus with its formats; `csr`: the shard files are csr matrices -/
structure FC where
  sc : SC Row
  csr : Bool
  dim : Nat
  cfg : Cfg
  savedCfg : Cfg
deriving DecidableEq

/-- what numpy and scipy do with shards of the wrong kind, left open: `slice`, the result of stacking arrays
under a csr matrix; `resize`, resizing when the shards are not of the kind `sparse_serialization` says -/
structure Odd where
  slice : Cfg → List Row → Option Out
  resize : Nat → FC → Option Unit × FC

/-- the features a source corpus advertises, sharded_corpus.py:498-509 -/
structure Feat where
  dim : Option Nat
  dictionary : Option Nat
  nOut : Option Nat
  numTerms : Option Nat

/-- a source corpus: a plain one, or a TransformedCorpus with its transformation and its corpus -/
inductive Src where
  | plain (f : Feat)
  | transformed (f : Feat) (obj corpus : Src)

/-- the first feature found -/
def Feat.first (f : Feat) : Option Nat := (((f.dim).or f.dictionary).or f.nOut).or f.numTerms

/-- models sharded_corpus.py:495-535 `_guess_n_features`; `arg` is the argument `dim`, `none`: TypeError.
The warnings are not modelled. -/
def guess (arg : Option Nat) : Src → Option Nat
  | .plain f => match f.first with
    | some n => some n
    | none => if arg = some 0 then none else arg
  | .transformed f obj corpus => match f.first with
    | some n => some n
    | none => match guess arg obj with
      | some n => some n
      | none => guess arg corpus

/-- models sharded_corpus.py:287-292: the vectors of the documents; `none`: IndexError.  `current_shard[i][ids]
= weights` is what `sparse2full` does.  Simplified: ids are not negative. -/
def rowsOf (dim : Nat) (docs : List Bow) : Option (List Row) := docs.mapM (fun d => sparse2full d dim)

/-- models sharded_corpus.py:225-301: building from a corpus.  The shards written before an exception are not
modelled. -/
def fbuild (size : Nat) (arg : Option Nat) (src : Src) (c : Cfg) (docs : List Bow) : Option FC :=
  match guess arg src with
  | none => none
  | some dim => match rowsOf dim docs with
    | none => none
    | some rows => some ⟨build size rows, c.ser, dim, c, c⟩

/-- a row of a shard: `get_by_offset` returns an array of one dimension or a csr matrix of one row -/
def oneRow (csr : Bool) (r : Row) : Out := if csr then .csr [r] else .vec r

/-- a slice of a shard -/
def someRows (csr : Bool) (rows : List Row) : Out := if csr then .csr rows else .mat rows

/-- the state of the rows replaced -/
def put {X : Type} (s : FC) (r : Option X × SC Row) : Option X × FC := (r.1, { s with sc := r.2 })

/-- models sharded_corpus.py:662-666: `corpus[i]` -/
def fget (eps : ℚ) (i : Int) (s : FC) : Option Out × FC :=
  andThen (put s (getByOffset i s.sc)) (fun r s => (format eps s.cfg (oneRow s.csr r), s))

/-- models sharded_corpus.py:567-575: the rows of a list of offsets.  `sparse.vstack` needs sparse blocks and at
least one; `numpy.array` of csr matrices is an array of objects, and of nothing an empty vector. -/
def gather (ser csr : Bool) (rows : List Row) : Option Out :=
  if ser then
    if rows.length = 0 then none else if csr then some (.csr rows) else none
  else
    if rows.length = 0 then some (.vec []) else if csr then some (.objs rows) else some (.mat rows)

/-- models sharded_corpus.py:564-581: `corpus[[i, j, ...]]` -/
def fmany (eps : ℚ) (is : List Int) (s : FC) : Option Out × FC :=
  andThen (put s (getMany is s.sc)) (fun rows s => ((gather s.cfg.ser s.csr rows).bind (format eps s.cfg), s))

/-- models sharded_corpus.py:747-753: a whole iteration.  The documents yielded before an exception are not
modelled. -/
def fiter (eps : ℚ) : List Int → FC → Option (List Out) × FC
  | [], s => (some [], s)
  | i :: is, s => andThen (fget eps i s) (fun o s => andThen (fiter eps is s) (fun os s => (some (o :: os), s)))

/-- the rows of a slice are in more than one shard -/
def crosses (s : SC Row) (start stop : Int) : Bool := decide (shardByOffset s start ≠ lastShard s stop)

/-- the first shard of a slice is loaded and copying from it raises -/
def failFirst (start : Int) (s : SC Row) : Option Out × SC Row :=
  match shardByOffset s start with
  | none => (none, s)
  | some first => andThen (loadShard first s) (fun _ s => (none, s))

/-- models sharded_corpus.py:583-660: `corpus[start:stop]`.  A csr matrix cannot be copied into an array; what
stacking arrays under a csr matrix gives is left open. -/
def fslice (odd : Odd) (eps : ℚ) (start stop : Int) (s : FC) : Option Out × FC :=
  if s.csr ≠ s.cfg.ser ∧ crosses s.sc start stop then
    if s.cfg.ser then
      andThen (put s (getSlice s.cfg.ser (List.replicate s.dim 0) start stop s.sc))
        (fun rows s => (odd.slice s.cfg rows, s))
    else put s (failFirst start s.sc)
  else
    andThen (put s (getSlice s.cfg.ser (List.replicate s.dim 0) start stop s.sc))
      (fun rows s => (format eps s.cfg (someRows s.csr rows), s))

/-- models sharded_corpus.py:411-482 `resize_shards`.  The new shards are what `self[start:stop]` returns: a
generator of documents cannot be pickled, and otherwise the files become what retrieval gives. -/
def fresize (odd : Odd) (eps : ℚ) (size : Nat) (s : FC) : Option Unit × FC :=
  if size = 0 then (none, s)
  else if s.cfg.gensim ∧ 0 < s.sc.nDocs then
    (none, (fslice odd eps 0 (min size s.sc.nDocs : Nat) s).2)
  else if s.csr ≠ s.cfg.ser then odd.resize size s
  else
    andThen (put s (resize s.cfg.ser (List.replicate s.dim 0) size s.sc))
      (fun _ s => (some (), { s with csr := s.cfg.ret }))

/-- what a user may do with a ShardedCorpus -/
inductive FOp where
  | get (i : Int)
  | many (is : List Int)
  | iter
  | slice (start stop : Int)
  | resize (size : Nat)
  | reset
  | save
  | load
  /-- the constructor on existing files -/
  | reopen (size : Nat) (c : Cfg)
  | setRetrieval (b : Bool)
  | setGensim (b : Bool)

/-- one operation.  `load` gives back the pickled formats (sharded_corpus.py:755-777), the constructor on existing
files keeps its own arguments (lines 235-238 and 303-324). -/
def fstep (odd : Odd) (eps : ℚ) (op : FOp) (s : FC) : Option (List Out) × FC :=
  match op with
  | .get i => andThen (fget eps i s) (fun o s => (some [o], s))
  | .many is => andThen (fmany eps is s) (fun o s => (some [o], s))
  | .iter => fiter eps ((List.range s.sc.nDocs).map Int.ofNat) s
  | .slice a b => andThen (fslice odd eps a b s) (fun o s => (some [o], s))
  | .resize n => andThen (fresize odd eps n s) (fun _ s => (some [], s))
  | .reset => (some [], { s with sc := { s.sc with cur := none } })
  | .save => (some [], { s with sc := save s.sc, savedCfg := s.cfg })
  | .load => (some [], { s with sc := load s.sc, cfg := s.savedCfg })
  | .reopen n c => (some [], { s with sc := clone n s.sc, cfg := c })
  | .setRetrieval b => (some [], { s with cfg := { s.cfg with ret := b } })
  | .setGensim b => (some [], { s with cfg := { s.cfg with gensim := b } })

/-- the results of a history of operations -/
def frun (odd : Odd) (eps : ℚ) : List FOp → FC → List (Option (List Out))
  | [], _ => []
  | op :: ops, s => (fstep odd eps op s).1 :: frun odd eps ops (fstep odd eps op s).2

end Verif.Sharded
