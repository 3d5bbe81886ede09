import Mathlib.Order.Defs.LinearOrder
import Verif.Py.Dict
import Verif.Py.Sort

/-!
# Model of `gensim/corpora/dictionary.py`: class `Dictionary`

Tokens are an arbitrary linearly ordered type `τ` (Python `str` with `<`).
Python exceptions are `none`.  Bytes tokens (decoded on the fly) are not modelled.
-/

namespace Verif.Dictionary

open Verif PyDict

/-- models gensim/corpora/dictionary.py:69-76, the attributes of a `Dictionary`. -/
structure Dct (τ : Type) where
  token2id : PyDict τ Nat
  id2token : PyDict Nat τ
  cfs : PyDict Nat Nat
  dfs : PyDict Nat Nat
  numDocs : Nat
  numPos : Nat
  numNnz : Nat
deriving Repr, DecidableEq

variable {τ : Type} [LinearOrder τ]

/-- models dictionary.py:69-76, `Dictionary()` -/
def empty : Dct τ := ⟨[], [], [], [], 0, 0, 0⟩

/-- models dictionary.py:139, `len(self)` -/
def Dct.len (d : Dct τ) : Nat := d.token2id.length

/-- `[f(x) for x in l]` where `f` may raise -/
def mapOpt {α β : Type} (f : α → Option β) : List α → Option (List β)
  | [] => some []
  | x :: xs => match f x with
    | none => none
    | some y => match mapOpt f xs with
      | none => none
      | some ys => some (y :: ys)

/-- models gensim/utils.py:1385-1402, `revdict` -/
def revdict (t : PyDict τ Nat) : PyDict Nat τ := ofPairs (t.map (fun p => (p.2, p.1)))

/-- models dictionary.py:100-103: rebuild the reverse map if its size differs -/
def refresh (d : Dct τ) : Dct τ :=
  if d.id2token.length ≠ d.token2id.length then { d with id2token := revdict d.token2id } else d

/-- models dictionary.py:81-104, `self[tokenid]`; `none` is `KeyError` -/
def getitem (d : Dct τ) (i : Nat) : Dct τ × Option τ := (refresh d, get? (refresh d).id2token i)

/-- models dictionary.py:242-244, the `(word, frequency)` counter -/
def counter (doc : List τ) : PyDict τ Nat :=
  doc.foldl (fun c w => set c w (getD c w 0 + 1)) []

/-- models dictionary.py:248, `sorted(x for x in counter.items() if x[0] not in token2id)`.
Words are distinct, so the tuple comparison is the comparison of words. -/
def missing (t : PyDict τ Nat) (c : PyDict τ Nat) : List (τ × Nat) :=
  pySort (fun a b => decide (a.1 ≤ b.1)) (c.filter (fun x => !contains t x.1))

/-- models dictionary.py:250-253 -/
def addMissing (t : PyDict τ Nat) (ms : List (τ × Nat)) : PyDict τ Nat :=
  ms.foldl (fun t p => set t p.1 t.length) t

/-- models dictionary.py:254, `{token2id[w]: freq for w, freq in counter.items() if w in token2id}` -/
def bowDict (t : PyDict τ Nat) (c : PyDict τ Nat) : PyDict Nat Nat :=
  ofPairs (c.filterMap (fun p => (get? t p.1).map (fun i => (i, p.2))))

/-- models dictionary.py:261-263 (one of the two frequency tables):
`tbl[id] = tbl.get(id, 0) + inc` for every result item -/
def bump (inc : Nat → Nat) (tbl : PyDict Nat Nat) (r : PyDict Nat Nat) : PyDict Nat Nat :=
  r.foldl (fun tbl p => set tbl p.1 (getD tbl p.1 0 + inc p.2)) tbl

/-- models dictionary.py:206-270 with `allow_update=False`: the returned vector.
`sorted(result.items())`: ids are distinct, so the comparison is by id. -/
def bow (d : Dct τ) (doc : List τ) : List (Nat × Nat) :=
  pySort (fun a b => decide (a.1 ≤ b.1)) (bowDict d.token2id (counter doc))

/-- models dictionary.py:268, the `missing` part returned with `return_missing=True` -/
def bowMissing (d : Dct τ) (doc : List τ) : List (τ × Nat) := missing d.token2id (counter doc)

/-- models dictionary.py:206-270 with `allow_update=True`: the new dictionary state -/
def update (d : Dct τ) (doc : List τ) : Dct τ :=
  let c := counter doc
  let t := addMissing d.token2id (missing d.token2id c)
  let r := bowDict t c
  { d with
    token2id := t
    numDocs := d.numDocs + 1
    numPos := d.numPos + (values c).sum
    numNnz := d.numNnz + r.length
    cfs := bump (fun f => f) d.cfs r
    dfs := bump (fun _ => 1) d.dfs r }

/-- models dictionary.py:206-270, the whole of `doc2bow`: new state, vector, missing words -/
def doc2bow (d : Dct τ) (doc : List τ) (allowUpdate : Bool) :
    Dct τ × List (Nat × Nat) × List (τ × Nat) :=
  if allowUpdate then
    let d' := update d doc
    (d', bow d' doc, bowMissing d doc)
  else (d, bow d doc, bowMissing d doc)

/-- models dictionary.py:272-304, `doc2idx` -/
def doc2idx (d : Dct τ) (doc : List τ) (unknown : Int) : List Int :=
  doc.map (fun w => match get? d.token2id w with | some i => (i : Int) | none => unknown)

/-- models dictionary.py:460, `dict(zip(sorted(token2id.values()), range(len(token2id))))` -/
def idmap (t : PyDict τ Nat) : PyDict Nat Nat :=
  ofPairs ((pySort (fun a b => decide (a ≤ b)) (values t)).zip (List.range t.length))

/-- models dictionary.py:455-466, `compactify`; `none` is the `KeyError` of `idmap[tokenid]` -/
def compactify (d : Dct τ) : Option (Dct τ) := do
  let m := idmap d.token2id
  let t ← mapOpt (fun p => (get? m p.2).map (fun i => (p.1, i))) d.token2id
  let dfs ← mapOpt (fun p => (get? m p.1).map (fun i => (i, p.2))) d.dfs
  let cfs ← mapOpt (fun p => (get? m p.1).map (fun i => (i, p.2))) d.cfs
  some { d with token2id := ofPairs t, id2token := [], dfs := ofPairs dfs, cfs := ofPairs cfs }

/-- models dictionary.py:411-453, `filter_tokens`, first for `bad_ids`, then for `good_ids` -/
def filterTokens (d : Dct τ) (bad good : Option (List Nat)) : Option (Dct τ) :=
  let d1 := match bad with
    | none => d
    | some b => { d with
        token2id := d.token2id.filter (fun p => !decide (p.2 ∈ b))
        cfs := d.cfs.filter (fun p => !decide (p.1 ∈ b))
        dfs := d.dfs.filter (fun p => !decide (p.1 ∈ b)) }
  let d2 := match good with
    | none => d1
    | some g => { d1 with
        token2id := d1.token2id.filter (fun p => decide (p.2 ∈ g))
        cfs := d1.cfs.filter (fun p => decide (p.1 ∈ g))
        dfs := d1.dfs.filter (fun p => decide (p.1 ∈ g)) }
  compactify d2

/-- stable `sort(key=key, reverse=True)`: equal keys keep their order -/
def sortDesc (key : Nat → Nat) (l : List Nat) : List Nat :=
  pySort (fun a b => decide (key b ≤ key a)) l

/-- Sorting with `key=self.dfs.get` compares `None` with an `int` (TypeError) if some id has no
document frequency and there are at least two elements. -/
def dfsKeyRaises (d : Dct τ) (l : List Nat) : Bool :=
  decide (2 ≤ l.length) && l.any (fun v => !contains d.dfs v)

/-- models dictionary.py:348-375, `filter_extremes`.  `noAboveAbs` is the integer
`int(no_above * self.num_docs)` (line 348); taking it as an arbitrary integer makes the model
independent of floating point.  `keepTokens = []` stands for `None`.  `keep_n` is non-negative.
Line 366 looks up every dropped id (it may raise `KeyError`). -/
def filterExtremes (d : Dct τ) (noBelow noAboveAbs : Int) (keepN : Option Nat)
    (keepTokens : List τ) : Option (Dct τ) :=
  let inRange := fun v : Nat =>
    decide (noBelow ≤ ((getD d.dfs v 0 : Nat) : Int)) && decide (((getD d.dfs v 0 : Nat) : Int) ≤ noAboveAbs)
  let good : Option (List Nat) :=
    if keepTokens ≠ [] then
      let keepIds := keepTokens.filterMap (fun w => get? d.token2id w)
      some (sortDesc (fun v => if v ∈ keepIds then d.numDocs else getD d.dfs v 0)
        ((values d.token2id).filter (fun v => inRange v || decide (v ∈ keepIds))))
    else
      let g := (values d.token2id).filter inRange
      if dfsKeyRaises d g then none else some (sortDesc (fun v => getD d.dfs v 0) g)
  match good with
  | none => none
  | some g =>
    let g := match keepN with
      | none => g
      | some n => g.take n
    if ((values d.token2id).filter (fun v => !decide (v ∈ g))).all
        (fun i => (getitem d i).2.isSome) then
      filterTokens d none (some g)
    else none

/-- models dictionary.py:377-409, `filter_n_most_frequent` (`remove_n ≥ 0`) -/
def filterNMostFrequent (d : Dct τ) (removeN : Nat) : Option (Dct τ) :=
  if dfsKeyRaises d (values d.token2id) then none else
  let b := (sortDesc (fun v => getD d.dfs v 0) (values d.token2id)).take removeN
  if b.all (fun i => (getitem d i).2.isSome) then filterTokens d (some b) none else none

/-- models dictionary.py:164-204, `add_documents`, `docno` counting from the given start -/
def addDocumentsFrom (pruneAt : Option Nat) : Nat → Dct τ → List (List τ) → Option (Dct τ)
  | _, d, [] => some d
  | docno, d, doc :: docs =>
    let pruned := if docno % 10000 = 0 then
        match pruneAt with
        | some k => if d.len > k then filterExtremes d 0 d.numDocs (some k) [] else some d
        | none => some d
      else some d
    match pruned with
    | none => none
    | some d => addDocumentsFrom pruneAt (docno + 1) (update d doc) docs

/-- models dictionary.py:164-204, `add_documents(documents, prune_at)` -/
def addDocuments (d : Dct τ) (docs : List (List τ)) (pruneAt : Option Nat) : Option (Dct τ) :=
  addDocumentsFrom pruneAt 0 d docs

/-- models dictionary.py:566-578, the loop of `merge_with` over `other.items()`;
`odfs` is `other.dfs` (empty when `other` has none: the exception is swallowed) -/
def mergeLoop (odfs : PyDict Nat Nat) :
    List (Nat × τ) → Dct τ × PyDict Nat Nat → Dct τ × PyDict Nat Nat
  | [], s => s
  | (oid, tok) :: items, (d, old2new) =>
    let (d, newId) := match get? d.token2id tok with
      | some i => (d, i)
      | none =>
        let i := d.token2id.length
        ({ d with token2id := set d.token2id tok i, dfs := set d.dfs i 0 }, i)
    let old2new := set old2new oid newId
    let d := match get? d.dfs newId, get? odfs oid with
      | some a, some b => { d with dfs := set d.dfs newId (a + b) }
      | _, _ => d
    mergeLoop odfs items (d, old2new)

/-- `other.items()` of a `Dictionary` (`Mapping.items`): ids in `token2id` order with `other[id]` -/
def items (o : Dct τ) : Option (List (Nat × τ)) :=
  mapOpt (fun i => (getitem o i).2.map (fun w => (i, w))) (values o.token2id)

/-- models dictionary.py:528-587, `merge_with` for a `Dictionary` argument: the merged dictionary
and the old-id to new-id map of the returned `VocabTransform` -/
def mergeWith (d o : Dct τ) : Option (Dct τ × PyDict Nat Nat) :=
  match items o with
  | none => none
  | some its =>
    let (d', m) := mergeLoop o.dfs its (d, [])
    some ({ d' with numDocs := d'.numDocs + o.numDocs, numNnz := d'.numNnz + o.numNnz,
                    numPos := d'.numPos + o.numPos }, m)

/-- models dictionary.py:528-587, `merge_with` for a plain `dict` of id to token
(no statistics: lines 576-578 and 583-584 swallow the exceptions) -/
def mergeWithPlain (d : Dct τ) (o : PyDict Nat τ) : Dct τ × PyDict Nat Nat :=
  mergeLoop [] o (d, [])

/-- models gensim/models/__init__.py:52-61, `VocabTransform.__getitem__` on one vector
(`sorted` of pairs with distinct or equal ids: compared lexicographically) -/
def vocabTransform (old2new : PyDict Nat Nat) (v : List (Nat × Nat)) : List (Nat × Nat) :=
  pySort (fun a b => decide (a.1 < b.1) || (decide (a.1 = b.1) && decide (a.2 ≤ b.2)))
    (v.filterMap (fun p => (get? old2new p.1).map (fun i => (i, p.2))))

/-- Every state some sequence of calls can lead to, starting from `Dictionary()`. -/
inductive Reachable : Dct τ → Prop
  | empty : Reachable empty
  | update {d} (doc : List τ) : Reachable d → Reachable (update d doc)
  | addDocuments {d d'} (docs : List (List τ)) (pruneAt : Option Nat) :
      Reachable d → addDocuments d docs pruneAt = some d' → Reachable d'
  | filterTokens {d d'} (bad good : Option (List Nat)) :
      Reachable d → filterTokens d bad good = some d' → Reachable d'
  | filterExtremes {d d'} (nb na : Int) (keepN : Option Nat) (keep : List τ) :
      Reachable d → filterExtremes d nb na keepN keep = some d' → Reachable d'
  | filterNMostFrequent {d d'} (n : Nat) :
      Reachable d → filterNMostFrequent d n = some d' → Reachable d'
  | compactify {d d'} : Reachable d → compactify d = some d' → Reachable d'
  | lookup {d} (i : Nat) : Reachable d → Reachable (getitem d i).1
  | mergeWith {d o d' m} :
      Reachable d → Reachable o → mergeWith d o = some (d', m) → Reachable d'
  | mergeWithPlain {d} (o : PyDict Nat τ) :
      Reachable d → Reachable (mergeWithPlain d o).1

end Verif.Dictionary
