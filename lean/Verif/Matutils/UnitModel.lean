import Verif.Matutils.NormModel

/-!
# Model of `gensim/matutils.py`: `unitvec` on scipy matrices, what it does to its argument, and `return_norm`

A scipy matrix is the list of its stored entries, whether it is in the CSR format, and whether its entries are
integers.  Numbers are real numbers (no rounding).
-/

namespace Verif.Matutils
open Verif

/-- A scipy sparse vector: the stored entries in order of position (explicitly stored zeros are allowed). Simplified:
no position is stored twice (`tocsr` would add such entries up for some formats). -/
structure Sp where
  csr : Bool
  integer : Bool
  entries : List (Nat × ℝ)

/-- What a call of `unitvec` leaves behind: the returned vector, the returned length (with `return_norm`), and the
argument of the caller. -/
structure UnitCall (α : Type) where
  out : α
  length : ℝ
  arg : α

/-- models matutils.py:720-725, the length of a scipy matrix from its stored entries -/
noncomputable def storedLen (norm : Norm) (entries : List (Nat × ℝ)) : ℝ :=
  match norm with
  | .l1 => pySum (entries.map fun p => |p.2|)
  | .l2 => √(pySum (entries.map fun p => p.2 ^ 2))
  | .unique => entries.length

/-- models matutils.py:718-736 `unitvec` on a scipy matrix. `tocsr` returns the matrix itself if it is in that format
already, `astype` always makes a new one, and `/=` by a number multiplies the stored numbers in place. -/
noncomputable def unitvecScipy (norm : Norm) (v : Sp) : UnitCall Sp :=
  let len := storedLen norm v.entries
  if 0 < len then
    let scaled : Sp := ⟨true, false, v.entries.map fun p => (p.1, p.2 * (1 / len))⟩
    ⟨scaled, len, if v.csr && !v.integer then scaled else v⟩
  else ⟨⟨true, v.integer, v.entries⟩, 1, v⟩

/-- models matutils.py:739-760 with `return_norm`, on a dense vector -/
noncomputable def unitvecDenseLen (norm : Norm) (vec : List ℝ) : List ℝ × ℝ :=
  let len := denseLen norm vec
  if 0 < len then (vec.map (fun x => (1 / len) * x), len) else (vec, 1)

/-- models matutils.py:762-781 with `return_norm`, on the gensim sparse format -/
noncomputable def unitvecSparseLen (norm : Norm) (vec : List (Nat × ℝ)) : Option (List (Nat × ℝ) × ℝ) :=
  match vec with
  | [] => some ([], 1)
  | vec =>
    let len := sparseLen norm vec
    if 0 < len then some (retNormalized vec len, len) else none

end Verif.Matutils
