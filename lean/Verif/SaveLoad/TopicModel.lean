import Verif.SaveLoad.Model

/-!
# Saving and loading topic models (`LdaModel.save`/`load`, `LdaState.load`, gensim/models/ldamodel.py,
`LsiModel.save`/`load`, gensim/models/lsimodel.py, `TfidfModel.load`, gensim/models/tfidfmodel.py)

A topic model is a `SaveLoad` object one of whose attributes (`state` or `projection`) is a `SaveLoad`
object that is stored in files of its own.  File names are lists of names joined by dots; names ending in
`.gz` and `.bz2` (where `smart_extension` puts the ending last) are not modelled.
-/

namespace Verif.SaveLoad
open Verif PyDict

variable {P A : Type} {n : Nat}

/-- The disk: the arrays stored separately with the number of writes that still succeed, and the pickled
objects: models, their parts and dictionaries. -/
structure Disk (P A : Type) (n : Nat) where
  world : World String P A
  models : PyDict (List String) (Obj String (Val String P A (n + 1)))
  parts : PyDict (List String) (Obj String (Val String P A n))
  dicts : PyDict (List String) (Val String P A (n + 1))

/-- An object as a value of an attribute. -/
def ofObj (s : Obj String (Val String P A n)) : Val String P A (n + 1) := .inr s

/-- Models `self.state.save(utils.smart_extension(fname, '.state'))` unless it is `None`,
gensim/models/ldamodel.py 1577-1578, and the same for `projection`, gensim/models/lsimodel.py 755-756.
The last component: no exception was raised. -/
def savePart (big : Leaf P A → Bool) (part : String) (fname : List String)
    (o : Obj String (Val String P A (n + 1))) (d : Disk P A n) :
    Obj String (Val String P A (n + 1)) × Disk P A n × Bool :=
  match get? o.attrs part with
  | some (.inl .none) => (o, d, true)
  | some (.inr s) =>
    match smartSave big [] none (fname ++ [part]) s d.world with
    | (s', w, none) => ({ o with attrs := set o.attrs part (ofObj s') }, { d with world := w }, false)
    | (s', w, some main) => ({ o with attrs := set o.attrs part (ofObj s') },
        { d with world := w, parts := set d.parts (fname ++ [part]) main }, true)
  | _ => (o, d, false)

/-- Models `utils.pickle(self.id2word, …)`, gensim/models/ldamodel.py 1580-1581. -/
def saveDict (fname : List String) (ignore : List String) (o : Obj String (Val String P A (n + 1)))
    (d : Disk P A n) : Disk P A n × Bool :=
  if "id2word" ∈ ignore then (d, true)
  else match get? o.attrs "id2word" with
    | none => (d, false)
    | some v =>
      if d.world.budget = 0 then (d, false)
      else ({ d with world := { d.world with budget := d.world.budget - 1 }
                     dicts := set d.dicts (fname ++ ["id2word"]) v }, true)

/-- Models `super().save(fname, ignore=…, separately=…)`. -/
def saveMain (big : Leaf P A → Bool) (ignore : List String) (sep : Option (List String))
    (fname : List String) (o : Obj String (Val String P A (n + 1))) (d : Disk P A n) :
    Obj String (Val String P A (n + 1)) × Disk P A n × Bool :=
  match smartSave big ignore sep fname o d.world with
  | (o', w, none) => (o', { d with world := w }, false)
  | (o', w, some main) =>
    (o', { d with world := w, models := set d.models fname main }, true)

/-- Models the choice whether a prior is stored separately, gensim/models/ldamodel.py 1597-1603:
`several a` means that the array does not have one dimension.  (After `__init__` the priors are never
strings.) -/
def separatePrior (several : A → Bool) (o : Obj String (Val String P A (n + 1))) (name : String) :
    List String :=
  match get? o.attrs name with
  | some (.inl (.arr a)) => if several a then [name] else []
  | _ => []

/-- Models the attributes stored separately, gensim/models/ldamodel.py 1595-1611. -/
def ldaSeparately (several : A → Bool) (o : Obj String (Val String P A (n + 1)))
    (sep : Option (List String)) : List String :=
  ["expElogbeta", "sstats"] ++ separatePrior several o "alpha" ++ separatePrior several o "eta"
    ++ sep.getD []

/-- Models `LdaModel.save`, gensim/models/ldamodel.py 1577-1612; `ignore` and `separately` are lists of
non-empty names. -/
def ldaSave (big : Leaf P A → Bool) (several : A → Bool) (ignore : List String)
    (sep : Option (List String)) (fname : List String) (o : Obj String (Val String P A (n + 1)))
    (d : Disk P A n) : Obj String (Val String P A (n + 1)) × Disk P A n × Bool :=
  match savePart big "state" fname o d with
  | (o, d, false) => (o, d, false)
  | (o, d, true) =>
    match saveDict fname ignore o d with
    | (d, false) => (o, d, false)
    | (d, true) =>
      saveMain big (["state", "dispatcher", "id2word"] ++ ignore) (some (ldaSeparately several o sep))
        fname o d

/-- Models `if not hasattr(result, name): result.name = value`. -/
def withDefault {V : Type} (name : String) (v : V) (attrs : PyDict String V) : PyDict String V :=
  if name ∈ keys attrs then attrs else set attrs name v

/-- Models loading the part inside of `try`, gensim/models/ldamodel.py 1661-1664 and
gensim/models/lsimodel.py 794-797; `fix` is what the class of the part does on loading. -/
def loadPart (part : String) (fix : PyDict String (Val String P A n) → PyDict String (Val String P A n))
    (fname : List String) (d : Disk P A n) (o : Obj String (Val String P A (n + 1))) :
    Obj String (Val String P A (n + 1)) :=
  match get? d.parts (fname ++ [part]) with
  | none => o
  | some main =>
    match load d.world.files (fname ++ [part]) main with
    | none => o
    | some s => { o with attrs := set o.attrs part (ofObj { s with attrs := fix s.attrs }) }

/-- Models `SaveLoad.load(fname)`; `none`: an exception. -/
def loadMain (fname : List String) (d : Disk P A n) : Option (Obj String (Val String P A (n + 1))) :=
  match get? d.models fname with
  | none => none
  | some main => load d.world.files fname main

/-- Models the defaults of attributes that earlier versions did not store, gensim/models/ldamodel.py
1647-1660. -/
def ldaDefaults (random float64 : P) (o : Obj String (Val String P A (n + 1))) :
    Obj String (Val String P A (n + 1)) :=
  let attrs := withDefault "random_state" (ofLeaf (n + 1) (.plain random)) o.attrs
  { o with attrs := withDefault "dtype" (ofLeaf (n + 1) (.plain float64)) attrs }

/-- Models `LdaModel.load`, gensim/models/ldamodel.py 1644-1677, with `LdaState.load`, 302-309;
`random` and `float64` are the defaults. -/
def ldaLoad (random float64 : P) (fname : List String) (d : Disk P A n) :
    Option (Obj String (Val String P A (n + 1))) :=
  match loadMain fname d with
  | none => none
  | some o =>
    let o := loadPart "state" (withDefault "dtype" (ofLeaf n (.plain float64))) fname d
      (ldaDefaults random float64 o)
    match get? d.dicts (fname ++ ["id2word"]) with
    | none => some o
    | some v => some { o with attrs := set o.attrs "id2word" v }

/-- Models `LsiModel.save`, gensim/models/lsimodel.py 755-757; an argument `ignore` is given twice to
`SaveLoad.save`, which raises `TypeError`. -/
def lsiSave (big : Leaf P A → Bool) (ignore : Option (List String)) (sep : Option (List String))
    (fname : List String) (o : Obj String (Val String P A (n + 1))) (d : Disk P A n) :
    Obj String (Val String P A (n + 1)) × Disk P A n × Bool :=
  match savePart big "projection" fname o d with
  | (o, d, false) => (o, d, false)
  | (o, d, true) =>
    match ignore with
    | some _ => (o, d, false)
    | none => saveMain big ["projection", "dispatcher"] sep fname o d

/-- Models `LsiModel.load`, gensim/models/lsimodel.py 791-798. -/
def lsiLoad (fname : List String) (d : Disk P A n) : Option (Obj String (Val String P A (n + 1))) :=
  match loadMain fname d with
  | none => none
  | some o => some (loadPart "projection" id fname d o)

/-- Models `TfidfModel.load`, gensim/models/tfidfmodel.py 422-435, after `SaveLoad.load`. -/
def tfidfUpgrade {V : Type} (none slope : V) (attrs : PyDict String V) : PyDict String V :=
  withDefault "smartirs" none (withDefault "slope" slope (withDefault "pivot" none attrs))

end Verif.SaveLoad
