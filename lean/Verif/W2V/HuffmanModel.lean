import Mathlib.Data.List.Perm.Basic

/-!
# Model of the Huffman coding of `gensim/models/word2vec.py` (`_build_heap`, `_assign_binary_codes`)

`heapq` is not modelled: a pop returns some item that no remaining item is smaller than, whichever it is
when several have the smallest count.
-/

namespace Verif.W2V

/-- models word2vec.py:2134-2136 `Heapitem`: a leaf has no children -/
inductive HTree where
  | leaf (count index : Nat)
  | node (count index : Nat) (left right : HTree)
deriving DecidableEq

def HTree.count : HTree → Nat
  | .leaf c _ => c
  | .node c _ _ _ => c

def HTree.index : HTree → Nat
  | .leaf _ i => i
  | .node _ i _ _ => i

/-- `heapq.heappop` (`__lt__` compares counts, word2vec.py:2135-2136): `t` is popped from `h`, `r` remains -/
def Pop (h : List HTree) (t : HTree) (r : List HTree) : Prop :=
  h.Perm (t :: r) ∧ ∀ x ∈ r, t.count ≤ x.count

/-- models word2vec.py:2140: one leaf per word -/
def leaves (counts : List Nat) : List HTree := counts.zipIdx.map (fun p => .leaf p.1 p.2)

/-- models word2vec.py:2142-2147: iterations `i ..< n - 1` of the loop lead from the heap `h` to `h'` -/
inductive HBuild (n : Nat) : Nat → List HTree → List HTree → Prop
  | stop {i h} : n - 1 ≤ i → HBuild n i h h
  | step {i h t1 r1 t2 r2 h'} : i < n - 1 → Pop h t1 r1 → Pop r1 t2 r2 →
      HBuild n (i + 1) (.node (t1.count + t2.count) (i + n) t1 t2 :: r2) h' → HBuild n i h h'

/-- models word2vec.py:2174-2190: the stack loop; the result lists the (word index, code, point) stored.
`none`: the fuel ran out, or a leaf was taken for an inner node. -/
def assignLoop (n : Nat) : Nat → List (HTree × List Bool × List Nat) → Option (List (Nat × List Bool × List Nat))
  | _, [] => some []
  | 0, _ => none
  | fuel + 1, (t, codes, points) :: stack =>
    if t.index < n then (assignLoop n fuel stack).map ((t.index, codes, points) :: ·)
    else
      match t with
      | .leaf _ _ => none
      | .node _ i l r =>
        assignLoop n fuel ((r, codes ++ [true], points ++ [i - n]) :: (l, codes ++ [false], points ++ [i - n]) :: stack)

/-- models word2vec.py:2165-2190: the codes read off the heap (an empty heap stores nothing) -/
def assignCodes (n : Nat) : List HTree → Option (List (Nat × List Bool × List Nat))
  | [] => some []
  | t :: _ => assignLoop n (2 * n) [(t, [], [])]

end Verif.W2V
