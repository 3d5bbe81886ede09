/-!
# Model of unpacking matrices of n-gram vectors (`gensim/models/fasttext.py` 646-654, 1201-1283)

A matrix is the list of its rows, of any type `α`; `hash2index` is the list of the items of the dictionary.
-/

namespace Verif.FastText.Unpack

variable {α : Type}

inductive Err where
  | assertion
  | index
deriving DecidableEq

/-- models fasttext.py:1280-1281 `assert h != i; m[[h, i]] = m[[i, h]]` -/
def swapRows (m : List α) (h i : Nat) : Except Err (List α) :=
  if h = i then .error .assertion
  else
    match m[h]?, m[i]? with
    | some a, some b => .ok ((m.set h b).set i a)
    | _, _ => .error .index

/-- models fasttext.py:1279-1281: the loop over `swap.items()` -/
def swapAll (m : List α) : List (Nat × Nat) → Except Err (List α)
  | [] => .ok m
  | p :: ps =>
    match swapRows m p.1 p.2 with
    | .error e => .error e
    | .ok m => swapAll m ps

/-- models fasttext.py:1277-1278: the items of `swap`; the second comprehension has other keys than the first, so
`update` appends -/
def swapList (orig : Nat) (hash2index : List (Nat × Nat)) : List (Nat × Nat) :=
  (hash2index.filter fun p => decide (p.1 < p.2) && decide (p.2 < orig)) ++ hash2index.filter fun p => decide (orig ≤ p.1)

/-- models fasttext.py:1247-1283 `_unpack`; `pad n` are the `n` new rows: random (1201-1206 `_pad_random`) or `fill` -/
def unpack (m : List α) (numRows : Nat) (hash2index : List (Nat × Nat)) (pad : Nat → List α) : Except Err (List α) :=
  if m.length = numRows then .ok m
  else if m.length < numRows then swapAll (m ++ pad (numRows - m.length)) (swapList m.length hash2index)
  else .error .assertion

/-- models fasttext.py:646-654 `_pad_ones`: the row of lock factors, prolonged by ones; `one` is the number one -/
def padOnes (one : α) (m : List α) (newLen : Nat) : Option (List α) :=
  if newLen < m.length then none else some (m ++ List.replicate (newLen - m.length) one)

end Verif.FastText.Unpack
