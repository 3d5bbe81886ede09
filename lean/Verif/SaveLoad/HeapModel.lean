import Verif.SaveLoad.Model

/-!
# Model of `gensim/utils.py`: `SaveLoad` objects that share other objects

In `Verif.SaveLoad.Model` objects form a tree.  Here an attribute may hold a reference to an object,
and several attributes may hold the same one, or objects may refer back to each other.  Objects are
numbered; a heap gives the dictionary of every object.  Files, failing writes and the bookkeeping
attributes are those of `Verif.SaveLoad.Model`.  Pickling keeps identities: the unpickled objects are the
heap as it was when it was pickled.  Recursion deeper than the interpreter allows raises
`RecursionError`: the depth left is the first argument.
-/

namespace Verif.SaveLoad.Heap
open Verif PyDict Verif.SaveLoad

/-- the value of an attribute: a leaf, or the number of a `SaveLoad` object -/
inductive HVal (P A : Type)
  | leaf (l : Leaf P A)
  | ref (i : Nat)
deriving DecidableEq

/-- all objects, by number -/
abbrev Heap (N P A : Type) := Nat → Obj N (HVal P A)

variable {N P A : Type} [DecidableEq N]

/-- the leaf a value is, if it is one -/
def hLeaf : HVal P A → Option (Leaf P A)
  | .leaf l => some l
  | .ref _ => none

/-- replace one object -/
def upd (h : Heap N P A) (i : Nat) (o : Obj N (HVal P A)) : Heap N P A := fun j => if j = i then o else h j

/-- what `_save_specials` returns, utils.py:656: the objects and what to set on each of them -/
abbrev Restores (N P A : Type) := List (Nat × PyDict N (HVal P A))

/-- models utils.py:599-605, the loop over the attributes that hold `SaveLoad` objects (`hasattr`,
line 602); `child` is `_save_specials` of an object; `none`: it raised.  The loop runs over the
dictionary as it is when the loop begins. -/
def hChildren (child : List N → Nat → Heap N P A → World N P A →
      Heap N P A × World N P A × Option (Restores N P A)) (fname : List N) :
    PyDict N (HVal P A) → Heap N P A → World N P A →
      Heap N P A × World N P A × Option (List N × Restores N P A)
  | [], h, w => (h, w, some ([], []))
  | (_, .leaf _) :: rest, h, w => hChildren child fname rest h w
  | (k, .ref j) :: rest, h, w =>
    match child (fname ++ [k]) j h w with
    | (h, w, none) => (h, w, none)
    | (h, w, some rs) =>
      match hChildren child fname rest h w with
      | (h, w, none) => (h, w, none)
      | (h, w, some (ks, rs')) => (h, w, some (k :: ks, rs ++ rs'))

/-- models utils.py:554-656, `_save_specials` of object `i`: the heap and the world it leaves, and the
restores (`none`: it raised) -/
def hSave (big : Leaf P A → Bool) (ig : List N) : Nat → Option (List N) → List N → Nat →
    Heap N P A → World N P A → Heap N P A × World N P A × Option (Restores N P A)
  | 0, _, _, _, h, w => (h, w, none)
  | n + 1, sep, fname, i, h, w =>
    let aside := putAside (sepNames hLeaf big sep (h i).attrs ++ ig) (h i).attrs
    match hChildren (hSave big ig n none) fname aside.1 (upd h i { h i with attrs := aside.1 }) w with
    | (h, w, none) => (h, w, none)
    | (h, w, some (recs, rs)) =>
      match storeAll hLeaf ig fname aside.2 w with
      | (w, none) => (upd h i { h i with attrs := setAll (h i).attrs aside.2 }, w, none)
      | (w, some (nps, scs, igs)) =>
        (upd h i ⟨some ⟨nps, scs, igs, recs⟩, (h i).attrs⟩, w, some (rs ++ [(i, aside.2)]))

/-- models utils.py:546-551: `setattr` on every object, for everything that was put aside -/
def restore (h : Heap N P A) (rs : Restores N P A) : Heap N P A :=
  rs.foldl (fun h r => upd h r.1 { h r.1 with attrs := setAll (h r.1).attrs r.2 }) h

/-- models utils.py:512-552, `_smart_save`: the heap in memory afterwards, the world, and the heap as it
was pickled (`none`: the call raised) -/
def hSmartSave (big : Leaf P A → Bool) (ig : List N) (depth : Nat) (sep : Option (List N))
    (fname : List N) (i : Nat) (h : Heap N P A) (w : World N P A) :
    Heap N P A × World N P A × Option (Heap N P A) :=
  match hSave big ig depth sep fname i h w with
  | (h', w', none) => (h', w', none)
  | (h', w', some rs) =>
    if w'.budget = 0 then (restore h' rs, w', none)
    else (restore h' rs, { w' with budget := w'.budget - 1 }, some h')

/-- models utils.py:450-454, the loop over the attributes that hold `SaveLoad` objects; `none`: a
missing attribute, or an exception -/
def hLoadChildren (child : List N → Nat → Heap N P A → Option (Heap N P A)) (fname : List N) (i : Nat) :
    List N → Heap N P A → Option (Heap N P A)
  | [], h => some h
  | k :: ks, h => match get? (h i).attrs k with
    | some (.ref j) => match child (fname ++ [k]) j h with
      | none => none
      | some h => hLoadChildren child fname i ks h
    | _ => none

/-- models utils.py:456-492, setting the attributes of one object that are not `SaveLoad` objects -/
def loadLeaves (files : PyDict (List N × Nat) (Leaf P A)) (fname : List N) (b : Book N)
    (attrs : PyDict N (HVal P A)) : Option (PyDict N (HVal P A)) :=
  match readAll (fun k => (readArr files (fname ++ [k], 0)).map (fun x => .leaf (.arr x))) b.numpys attrs with
  | none => none
  | some a => match readAll (fun k => (readSp files (fname ++ [k])).map .leaf) b.scipys a with
    | none => none
    | some a => some (b.ignoreds.foldl (fun a k => set a k (.leaf .none)) a)

/-- models utils.py:427-492, `_load_specials` of object `i` -/
def hLoad (files : PyDict (List N × Nat) (Leaf P A)) : Nat → List N → Nat → Heap N P A →
    Option (Heap N P A)
  | 0, _, _, _ => none
  | n + 1, fname, i, h =>
    match (h i).book with
    | none => some h
    | some b => match hLoadChildren (hLoad files n) fname i b.recs h with
      | none => none
      | some h => match loadLeaves files fname b (h i).attrs with
        | none => none
        | some a => some (upd h i { h i with attrs := a })

end Verif.SaveLoad.Heap
