import Mathlib.Data.List.Dedup
import Verif.Dictionary.Model

/-! Specification vocabulary for the Dictionary properties: plain counting over documents, and what
a user reads off a dictionary. Nothing here mentions how the dictionary computes anything. -/

namespace Verif.Dictionary
open Verif PyDict

variable {τ : Type} [LinearOrder τ]

/-- the number of documents that contain `w` -/
def docFreq (docs : List (List τ)) (w : τ) : Nat := (docs.filter (fun doc => decide (w ∈ doc))).length

/-- the number of occurrences of `w` in all the documents -/
def collFreq (docs : List (List τ)) (w : τ) : Nat := (docs.map (fun doc => doc.count w)).sum

/-- the number of (document, distinct word of the document) pairs -/
def nnz (docs : List (List τ)) : Nat := (docs.map (fun doc => doc.dedup.length)).sum

/-- the total number of tokens -/
def positions (docs : List (List τ)) : Nat := (docs.map List.length).sum

/-- `d.token2id.get(w)` -/
def idOf (d : Dct τ) (w : τ) : Option Nat := get? d.token2id w

/-- `d.dfs.get(d.token2id[w])`, `none` when either lookup fails -/
def dfOf (d : Dct τ) (w : τ) : Option Nat := (idOf d w).bind (fun i => get? d.dfs i)

/-- `d.cfs.get(d.token2id[w])`, `none` when either lookup fails -/
def cfOf (d : Dct τ) (w : τ) : Option Nat := (idOf d w).bind (fun i => get? d.cfs i)

/-- `w in d.token2id` -/
def known (d : Dct τ) (w : τ) : Prop := (idOf d w).isSome = true

instance (d : Dct τ) (w : τ) : Decidable (known d w) := by unfold known; infer_instance

end Verif.Dictionary
