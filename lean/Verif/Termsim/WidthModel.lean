import Verif.Termsim.Model

/-!
# The width of the counters of a term similarity matrix (`gensim/similarities/termsim.py`)
-/

namespace Verif.Termsim
open Verif

/-- models termsim.py:143-167 `_shortest_uint_dtype`: the number of bits of the type -/
def shortestUint (maxValue : Int) : Nat :=
  if maxValue < 2 ^ 8 then 8
  else if maxValue < 2 ^ 16 then 16
  else if maxValue < 2 ^ 32 then 32
  else 64

variable {K : Type} [Field K] [LinearOrder K] [IsStrictOrderedRing K]

/-- models termsim.py:231-239 `populate_buffers` with the counter of the column in an unsigned type of `bits` bits
(termsim.py:205-207): adding one to the largest value gives zero. -/
def populateW (bits : Nat) (cfg : Cfg K) (st : St K) (t1 t2 : Nat) (sim : K) : St K :=
  { populate cfg st t1 t2 sim with nz := fun c => if c = t1 then (st.nz c + 1) % 2 ^ bits else st.nz c }

/-- models termsim.py:269-276 with counters of a fixed width -/
def rowStepW (bits : Nat) (cfg : Cfg K) (t1 : Nat) (st : St K) (row : Nat × K) : Option (St K) :=
  match cellFull cfg st t1 row.1 row.2 with
  | none => none
  | some true => some st
  | some false =>
    if cfg.symmetric then
      match cellFull cfg st row.1 t1 row.2 with
      | none => none
      | some true => some st
      | some false => some (populateW bits cfg (populateW bits cfg st t1 row.1 row.2) row.1 t1 row.2)
    else some (populateW bits cfg st t1 row.1 row.2)

/-- models termsim.py:247-276 with counters of a fixed width -/
def columnStepW (bits : Nat) (cfg : Cfg K) (index : Nat → Nat → List (Nat × K)) (st : St K) (col : Nat × Nat) :
    Option (St K) :=
  if cfg.limit = 0 then some (addDiagonal st col.2)
  else
    let numRows := cfg.limit - st.nz col.1
    let mostSimilar := if 0 < numRows then index col.1 numRows else []
    match sortRows cfg mostSimilar with
    | none => none
    | some rows => rows.foldlM (rowStepW bits cfg col.1) (addDiagonal st col.2)

/-- models termsim.py:170-288 with the counters of the type chosen by `_shortest_uint_dtype` -/
def createSourceW (cfg : Cfg K) (index : Nat → Nat → List (Nat × K)) : Option (List (Nat × Nat × K)) :=
  if cfg.ids.isEmpty then none
  else
    match columns cfg with
    | none => none
    | some cols =>
      (cols.zipIdx.foldlM (columnStepW (shortestUint cfg.limit) cfg index) St.init).map fun st => st.entries

end Verif.Termsim
