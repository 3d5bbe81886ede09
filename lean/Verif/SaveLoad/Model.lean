import Verif.Py.Dict

/-!
# Model of `gensim/utils.py`: class `SaveLoad`

An object is its `__dict__`: an insertion-ordered dictionary from attribute names to values.  A value
is a leaf (`None`, a plain picklable value, a numpy array, a scipy csr/csc matrix) or another
`SaveLoad` object.  `Val n` are the values in which objects are nested at most `n` deep; everything
is defined and proved for all `n`.  Objects form a tree; objects
reachable through two attributes are in `Verif.SaveLoad.HeapModel`.  The bookkeeping attributes `__numpys`, `__scipys`, `__ignoreds`,
`__recursive_saveloads` are a separate field.  Attributes are instance attributes (`delattr` on a
class attribute is not modelled).

Files: the arrays saved separately, under the path of attribute names (`'.'.join(...)`; attribute
names contain no dot) and a part number (0: the `.npy`/`.npz` file of an array; 1, 2, 3: data, indptr,
indices of a sparse matrix; 4: the pickled sparse matrix without arrays).  The compressed variant
writes the three parts of a sparse matrix in one call; the model always uses three.
A failing write is modelled by a budget: the number of writes that still succeed.
-/

namespace Verif.SaveLoad
open Verif PyDict

/-- a value that is not a `SaveLoad` object -/
inductive Leaf (P A : Type)
  | none
  | plain (p : P)
  | arr (a : A)
  | sp (shape : P) (data indptr indices : A)
deriving DecidableEq

/-- the bookkeeping attributes, utils.py:647-650 -/
structure Book (N : Type) where
  numpys : List N
  scipys : List N
  ignoreds : List N
  recs : List N
deriving DecidableEq

/-- a `SaveLoad` object -/
structure Obj (N V : Type) where
  book : Option (Book N)
  attrs : PyDict N V
deriving DecidableEq

/-- values with objects nested at most `n` deep -/
def Val (N P A : Type) : Nat → Type
  | 0 => Leaf P A
  | n + 1 => Leaf P A ⊕ Obj N (Val N P A n)

variable {N P A : Type} [DecidableEq N]

/-- the leaf a value is, if it is one -/
def asLeaf : (n : Nat) → Val N P A n → Option (Leaf P A)
  | 0, l => some l
  | _ + 1, .inl l => some l
  | _ + 1, .inr _ => Option.none

/-- a leaf as a value -/
def ofLeaf : (n : Nat) → Leaf P A → Val N P A n
  | 0, l => l
  | _ + 1, l => .inl l

/-- the separately stored files and the number of writes that still succeed -/
structure World (N P A : Type) where
  files : PyDict (List N × Nat) (Leaf P A)
  budget : Nat

/-- write one file; `none`: the write raises -/
def World.write (w : World N P A) (key : List N × Nat) (c : Leaf P A) : Option (World N P A) :=
  if w.budget = 0 then Option.none else some ⟨set w.files key c, w.budget - 1⟩

/-- what the loop at utils.py:609-645 does with an attribute put aside -/
inductive Kind (P A : Type)
  | numpy (a : A)
  | scipy (shape : P) (data indptr indices : A)
  | ignored

/-- models utils.py:610,619,643: the kind of an attribute put aside -/
def kindOf (ig : List N) (k : N) (v : Option (Leaf P A)) : Kind P A :=
  match v with
  | some (.arr a) => if k ∉ ig then .numpy a else .ignored
  | some (.sp p d i j) => if k ∉ ig then .scipy p d i j else .ignored
  | _ => .ignored

/-- models utils.py:614-642, storing one attribute (the sparse matrix's arrays are set to `None`
and back around the last write, lines 635-642: no lasting effect); the second component is the world
after the writes that succeeded, and whether all did -/
def storeOne (fname : List N) (k : N) (q : Kind P A) (w : World N P A) : World N P A × Bool :=
  match q with
  | .ignored => (w, true)
  | .numpy a => match w.write (fname ++ [k], 0) (.arr a) with
    | Option.none => (w, false)
    | some w => (w, true)
  | .scipy p d i j => match w.write (fname ++ [k], 1) (.arr d) with
    | Option.none => (w, false)
    | some w => match w.write (fname ++ [k], 2) (.arr i) with
      | Option.none => (w, false)
      | some w => match w.write (fname ++ [k], 3) (.arr j) with
        | Option.none => (w, false)
        | some w => match w.write (fname ++ [k], 4) (.plain p) with
          | Option.none => (w, false)
          | some w => (w, true)

section generic
variable {V : Type}

/-- models utils.py:592-597: attributes are moved from the object to `asides` -/
def putAside (names : List N) (attrs : PyDict N V) : PyDict N V × PyDict N V :=
  names.foldl (fun s k => match get? s.1 k with
    | some v => (erase s.1 k, set s.2 k v)
    | Option.none => s) (attrs, [])

/-- models utils.py:653-654 and 549-551: `setattr` for everything in `asides` -/
def setAll (attrs asides : PyDict N V) : PyDict N V := asides.foldl (fun a p => set a p.1 p.2) attrs

/-- change the value of one attribute in place -/
def liftAt (k : N) (f : V → V) (attrs : PyDict N V) : PyDict N V :=
  attrs.map (fun p => if p.1 = k then (p.1, f p.2) else p)

/-- what restoring a child object does, as seen from the parent: the attribute and the change -/
abbrev Restore (N V : Type) := List (N × (V → V))

/-- models utils.py:599-605, the loop over the attributes that are `SaveLoad` objects.  `child` is
`_save_specials` of a value (`none`: not a `SaveLoad` object); its results are the value as it is left
in memory, the world, and the restores (`none`: it raised, and so does the loop). -/
def saveChildren (child : List N → V → World N P A → Option (V × World N P A × Option (List (V → V))))
    (fname : List N) :
    PyDict N V → World N P A → PyDict N V × World N P A × Option (List N × Restore N V)
  | [], w => ([], w, some ([], []))
  | (k, v) :: rest, w =>
    match child (fname ++ [k]) v w with
    | Option.none =>
      let r := saveChildren child fname rest w
      ((k, v) :: r.1, r.2.1, r.2.2)
    | some (v', w', Option.none) => ((k, v') :: rest, w', Option.none)
    | some (v', w', some rs) =>
      let r := saveChildren child fname rest w'
      ((k, v') :: r.1, r.2.1, r.2.2.map (fun q => (k :: q.1, rs.map (fun f => (k, f)) ++ q.2)))

/-- models utils.py:607-645, the loop storing what was put aside: the world and, unless a write
raised, the lists `numpys`, `scipys`, `ignoreds` -/
def storeAll (leaf : V → Option (Leaf P A)) (ig : List N) (fname : List N) :
    PyDict N V → World N P A → World N P A × Option (List N × List N × List N)
  | [], w => (w, some ([], [], []))
  | (k, v) :: rest, w =>
    let q := kindOf ig k (leaf v)
    match storeOne fname k q w with
    | (w, false) => (w, Option.none)
    | (w, true) =>
      let r := storeAll leaf ig fname rest w
      (r.1, r.2.map (fun t => match q with
        | .numpy _ => (k :: t.1, t.2.1, t.2.2)
        | .scipy .. => (t.1, k :: t.2.1, t.2.2)
        | .ignored => (t.1, t.2.1, k :: t.2.2)))

/-- models utils.py:582-590: the attributes to store separately, those given or the big arrays -/
def sepNames (leaf : V → Option (Leaf P A)) (big : Leaf P A → Bool) (sep : Option (List N))
    (attrs : PyDict N V) : List N :=
  match sep with
  | some s => s
  | Option.none => keys (attrs.filter (fun p => (leaf p.2).elim false big))

/-- models utils.py:554-656, `_save_specials`: the object as it is left in memory, the world, and the
restores for this object's dictionary (`none`: it raised) -/
def saveObj (child : List N → V → World N P A → Option (V × World N P A × Option (List (V → V))))
    (leaf : V → Option (Leaf P A)) (big : Leaf P A → Bool) (ig : List N)
    (sep : Option (List N)) (fname : List N) (o : Obj N V) (w : World N P A) :
    Obj N V × World N P A × Option (List (PyDict N V → PyDict N V)) :=
  let aside := putAside (sepNames leaf big sep o.attrs ++ ig) o.attrs
  match saveChildren child fname aside.1 w with
  | (attrs, w, Option.none) => ({ o with attrs := attrs }, w, Option.none)
  | (attrs, w, some (recs, rr)) =>
    match storeAll leaf ig fname aside.2 w with
    | (w, Option.none) => ({ o with attrs := setAll attrs aside.2 }, w, Option.none)
    | (w, some (nps, scs, igs)) =>
      (⟨some ⟨nps, scs, igs, recs⟩, attrs⟩, w,
        some (rr.map (fun p => liftAt p.1 p.2) ++ [fun a => setAll a aside.2]))

end generic

/-- apply a change to the dictionary of an object value -/
def onObj {n : Nat} (f : PyDict N (Val N P A n) → PyDict N (Val N P A n)) :
    Val N P A (n + 1) → Val N P A (n + 1)
  | .inl l => .inl l
  | .inr o => .inr { o with attrs := f o.attrs }

/-- models utils.py:554-656 on a value (children are called with `separately=None`, line 605);
`none`: the value has no `_save_specials` -/
def saveVal (big : Leaf P A → Bool) (ig : List N) : (n : Nat) → List N → Val N P A n → World N P A →
    Option (Val N P A n × World N P A × Option (List (Val N P A n → Val N P A n)))
  | 0, _, _, _ => Option.none
  | _ + 1, _, .inl _, _ => Option.none
  | n + 1, fname, .inr o, w =>
    let r := saveObj (saveVal big ig n) (asLeaf n) big ig Option.none fname o w
    some (.inr r.1, r.2.1, r.2.2.map (fun fs => fs.map onObj))

/-- models utils.py:512-552, `_smart_save`: the object in memory after the call, the world, and the
pickled object (`none`: the call raised).  `setattr` on the way out is lines 546-551. -/
def smartSave (big : Leaf P A → Bool) (ig : List N) (sep : Option (List N)) {n : Nat} (fname : List N)
    (o : Obj N (Val N P A n)) (w : World N P A) :
    Obj N (Val N P A n) × World N P A × Option (Obj N (Val N P A n)) :=
  match saveObj (saveVal big ig n) (asLeaf n) big ig sep fname o w with
  | (o', w', Option.none) => (o', w', Option.none)
  | (o', w', some rs) =>
    let restored := { o' with attrs := rs.foldl (fun a f => f a) o'.attrs }
    if w'.budget = 0 then (restored, w', Option.none)
    else (restored, { w' with budget := w'.budget - 1 }, some o')

/-! ## Loading -/

section generic
variable {V : Type}

/-- models utils.py:450-454: `_load_specials` of the listed attributes, in place; `none`: a missing
attribute or an exception -/
def updAll (g : N → V → Option V) : List N → PyDict N V → Option (PyDict N V)
  | [], a => some a
  | k :: ks, a => match get? a k with
    | Option.none => Option.none
    | some v => match g k v with
      | Option.none => Option.none
      | some u => updAll g ks (set a k u)

/-- models utils.py:456-487: attributes set from files; `none`: missing file -/
def readAll (h : N → Option V) : List N → PyDict N V → Option (PyDict N V)
  | [], a => some a
  | k :: ks, a => match h k with
    | Option.none => Option.none
    | some u => readAll h ks (set a k u)

/-- `np.load` of an array file -/
def readArr (files : PyDict (List N × Nat) (Leaf P A)) (key : List N × Nat) : Option A :=
  match get? files key with
  | some (.arr a) => some a
  | _ => Option.none

/-- models utils.py:472-484, a sparse matrix from its parts -/
def readSp (files : PyDict (List N × Nat) (Leaf P A)) (f : List N) : Option (Leaf P A) :=
  match get? files (f, 4), readArr files (f, 1), readArr files (f, 2), readArr files (f, 3) with
  | some (.plain p), some d, some i, some j => some (.sp p d i j)
  | _, _, _, _ => Option.none

/-- models utils.py:427-492, `_load_specials` -/
def loadObj (child : List N → V → Option V) (mk : Leaf P A → V)
    (files : PyDict (List N × Nat) (Leaf P A)) (fname : List N) (o : Obj N V) : Option (Obj N V) :=
  match o.book with
  | Option.none => some o
  | some b =>
    match updAll (fun k v => child (fname ++ [k]) v) b.recs o.attrs with
    | Option.none => Option.none
    | some a => match readAll (fun k => (readArr files (fname ++ [k], 0)).map (fun x => mk (.arr x))) b.numpys a with
      | Option.none => Option.none
      | some a => match readAll (fun k => (readSp files (fname ++ [k])).map mk) b.scipys a with
        | Option.none => Option.none
        | some a => some { o with attrs := b.ignoreds.foldl (fun a k => set a k (mk .none)) a }

end generic

/-- models utils.py:427-492 on a value -/
def loadVal (files : PyDict (List N × Nat) (Leaf P A)) : (n : Nat) → List N → Val N P A n →
    Option (Val N P A n)
  | 0, _, _ => Option.none
  | _ + 1, _, .inl _ => Option.none
  | n + 1, fname, .inr o => (loadObj (loadVal files n) (ofLeaf n) files fname o).map .inr

/-- models utils.py:390-425, `load`: `main` is the unpickled object -/
def load (files : PyDict (List N × Nat) (Leaf P A)) {n : Nat} (fname : List N)
    (main : Obj N (Val N P A n)) : Option (Obj N (Val N P A n)) :=
  loadObj (loadVal files n) (ofLeaf n) files fname main

end Verif.SaveLoad
