import Verif.Py.Dict
import Verif.Py.Sort
import Mathlib.Algebra.Order.Field.Basic
import Mathlib.Algebra.Order.Group.Abs

/-!
# Building a term similarity matrix (`gensim/similarities/termsim.py`)

Similarities are numbers of an ordered field; rounding is not modelled.  Terms are represented by
their dictionary ids: `index t topn` is what `index.most_similar(dictionary[t], topn)` yields, with
the terms outside the dictionary dropped (lines 258-262).
-/

namespace Verif.Termsim
open Verif

variable {K : Type} [Field K] [LinearOrder K] [IsStrictOrderedRing K]

/-- The arguments of `_create_source`, gensim/similarities/termsim.py 170: the ids of the dictionary,
`tfidf.idfs` if a TF-IDF model is given, and the options.  `limit` is `nonzero_limit` (`None` is the
number of ids; negative values act like 0). -/
structure Cfg (K : Type) where
  ids : List Nat
  idfs : Option (PyDict Nat K)
  symmetric : Bool
  dominant : Bool
  limit : Nat

/-- The buffers and counters of `_create_source`, gensim/similarities/termsim.py 207-219.  An entry is
(column, row, value). -/
structure St (K : Type) where
  entries : List (Nat × Nat × K)
  nz : Nat → Nat
  sum : Nat → K
  assigned : List (Nat × Nat)

/-- Models `cell_full`, gensim/similarities/termsim.py 221-229 (`none`: the assertion fails). -/
def cellFull (cfg : Cfg K) (st : St K) (t1 t2 : Nat) (sim : K) : Option Bool :=
  if cfg.dominant = true ∧ 1 ≤ st.sum t1 + |sim| then some true
  else if cfg.limit < st.nz t1 then none
  else if st.nz t1 = cfg.limit then some true
  else some (cfg.symmetric && decide ((t1, t2) ∈ st.assigned))

/-- Models `populate_buffers`, gensim/similarities/termsim.py 231-239. -/
def populate (cfg : Cfg K) (st : St K) (t1 t2 : Nat) (sim : K) : St K :=
  { entries := st.entries ++ [(t1, t2, sim)]
    nz := fun c => if c = t1 then st.nz c + 1 else st.nz c
    sum := if cfg.dominant then fun c => if c = t1 then st.sum c + |sim| else st.sum c else st.sum
    assigned := if cfg.symmetric then (t1, t2) :: st.assigned else st.assigned }

/-- Models one turn of the inner loop, gensim/similarities/termsim.py 269-276. -/
def rowStep (cfg : Cfg K) (t1 : Nat) (st : St K) (row : Nat × K) : Option (St K) :=
  match cellFull cfg st t1 row.1 row.2 with
  | none => none
  | some true => some st
  | some false =>
    if cfg.symmetric then
      match cellFull cfg st row.1 t1 row.2 with
      | none => none
      | some true => some st
      | some false => some (populate cfg (populate cfg st t1 row.1 row.2) row.1 t1 row.2)
    else some (populate cfg st t1 row.1 row.2)

/-- The order of the sort key of `tfidf_sort_key`, gensim/similarities/termsim.py 191-195. -/
def idfLe (d : PyDict Nat K) (a b : Nat) : Bool :=
  let ia := d.getD a 0
  let ib := d.getD b 0
  decide (ib < ia ∨ ia = ib ∧ a ≤ b)

/-- Models the sorting of the rows, gensim/similarities/termsim.py 264-267 (an id without idf raises
`KeyError`: `none`). -/
def sortRows (cfg : Cfg K) (rows : List (Nat × K)) : Option (List (Nat × K)) :=
  match cfg.idfs with
  | none => some (pySort (fun p q => decide (p.1 < q.1 ∨ p.1 = q.1 ∧ p.2 ≤ q.2)) rows)
  | some d =>
    if rows.all fun p => d.contains p.1 then some (pySort (fun p q => idfLe d p.1 q.1) rows)
    else none

/-- Models the columns in the order they are visited, gensim/similarities/termsim.py 197-203 (the
assertion on the largest id: `none`). -/
def columns (cfg : Cfg K) : Option (List Nat) :=
  match cfg.idfs with
  | none => some (pySort (fun a b => decide (a ≤ b)) cfg.ids)
  | some d =>
    if d.keys.max? = some (cfg.ids.length - 1) then some (pySort (idfLe d) d.keys) else none

/-- The diagonal entry written first for the column with number `num`,
gensim/similarities/termsim.py 248-250. -/
def addDiagonal (st : St K) (num : Nat) : St K :=
  { st with entries := st.entries ++ [(num, num, 1)] }

/-- Models one turn of the outer loop, gensim/similarities/termsim.py 247-276. -/
def columnStep (cfg : Cfg K) (index : Nat → Nat → List (Nat × K)) (st : St K) (col : Nat × Nat) :
    Option (St K) :=
  if cfg.limit = 0 then some (addDiagonal st col.2)
  else
    let numRows := cfg.limit - st.nz col.1
    let mostSimilar := if 0 < numRows then index col.1 numRows else []
    match sortRows cfg mostSimilar with
    | none => none
    | some rows => rows.foldlM (rowStep cfg col.1) (addDiagonal st col.2)

/-- The empty buffers. -/
def St.init : St K := { entries := [], nz := fun _ => 0, sum := fun _ => 0, assigned := [] }

/-- Models `_create_source`, gensim/similarities/termsim.py 170-288, up to the entries passed to
`coo_matrix`; an empty dictionary raises (`none`). -/
def createSource (cfg : Cfg K) (index : Nat → Nat → List (Nat × K)) : Option (List (Nat × Nat × K)) :=
  if cfg.ids.isEmpty then none
  else
    match columns cfg with
    | none => none
    | some cols => (cols.zipIdx.foldlM (columnStep cfg index) St.init).map fun st => st.entries

/-- The value of the matrix at a row and a column: `coo_matrix(...).tocsc()` adds up entries at the
same place. -/
def cellVal (entries : List (Nat × Nat × K)) (r c : Nat) : K :=
  ((entries.filter fun e => decide (e.1 = c ∧ e.2.1 = r)).map fun e => e.2.2).sum

/-- Models `np.frombuffer(data_buffer, dtype)`, gensim/similarities/termsim.py 214-219, 278: the
number of values read, from the item size of the buffer and of the requested dtype. -/
def frombufferLen (bufItem dtypeItem n : Nat) : Nat := bufItem * n / dtypeItem

end Verif.Termsim
