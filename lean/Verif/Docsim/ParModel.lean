import Mathlib.Algebra.Order.Field.Basic
import Mathlib.Algebra.Order.Ring.Rat
import Mathlib.Tactic.Positivity
import Mathlib.Tactic.Linarith

/-!
# Model of querying the shards of an index in parallel (`gensim/similarities/docsim.py` 213-228, 478-501)
-/

namespace Verif.Docsim.Par

/-- a Python number: integers and floats of the same value are told apart -/
inductive Num where
  | int (z : ℤ)
  | float (q : ℚ)

/-- the value, as `==` and `<` see it -/
def Num.val : Num → ℚ
  | .int z => z
  | .float q => q

/-- `a / b` of two integers is a float (`b ≠ 0`) -/
def trueDiv (a b : ℤ) : Num := .float ((a : ℚ) / b)

/-- `1 + x` keeps the type of `x` -/
def onePlus : Num → Num
  | .int z => .int (1 + z)
  | .float q => .float (1 + q)

inductive Err where
  | value
deriving DecidableEq

/-- models `list(pool.imap(f, args, chunksize))` of the standard library: for `chunksize == 1` the tasks are
sent one by one; a value below 1 is refused; otherwise they are cut into pieces with `islice(args, chunksize)`,
which raises `ValueError` for anything but an integer.  The results come in the order of the arguments. -/
def imap {α β : Type} (f : α → β) (args : List α) (chunksize : Num) : Except Err (List β) :=
  if chunksize.val = 1 then .ok (args.map f)
  else if chunksize.val < 1 then .error .value
  else
    match chunksize with
    | .int _ => .ok (args.map f)
    | .float _ => .error .value

/-- models docsim.py:492-501 `query_shards`; `parallel` is the module variable `PARALLEL_SHARDS` (0 is `False`) -/
def queryShards {Q S R : Type} (queryShard : Q × S → R) (parallel : Nat) (query : Q) (shards : List S) :
    Except Err (List R) :=
  if 1 < parallel then
    imap queryShard (shards.map fun s => (query, s)) (onePlus (trueDiv shards.length parallel))
  else .ok ((shards.map fun s => (query, s)).map queryShard)

end Verif.Docsim.Par
