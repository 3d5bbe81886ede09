import Verif.Py.Dict
import Mathlib.Data.Rat.Floor
import Mathlib.Logic.Function.Basic

/-!
# Loading models of earlier versions

`gensim/models/keyedvectors.py`: `_load_specials` (239-259), `_upconvert_old_vocab` (261-272),
`allocate_vecattrs` (274-305), `set_vecattr` (308-329), `get_vecattr` (331-349), `get_index` (386-399),
the `vocab` property (646-657), `_upconvert_old_d2vkv` (1693-1712).
`gensim/models/word2vec.py`: `_load_specials` (1917-1953).
`gensim/models/fasttext.py`: `_load_specials` of the model (628-634) and the checks in that of its vectors
(994-1011).

Reading the pickle and the arrays stored beside it is modelled in `Verif/SaveLoad`; here an object is what
is in its `__dict__` after that.
-/

namespace Verif.Upgrade
open Verif PyDict

/-- The exceptions. -/
inductive Err | attr | type | key | index
deriving DecidableEq, Repr

/-! ### Word vectors -/

/-- The key of a vector: a string or an integer. -/
inductive Key
  | str (s : String)
  | int (z : Int)
deriving DecidableEq, Repr

/-- The value of an attribute of a word: an `int`, a `float` or another object (the array `code`, say). -/
inductive Val
  | int (z : Int)
  | float (q : ℚ)
  | obj (n : Nat)
deriving DecidableEq, Repr

/-- The element types of the arrays of attributes. -/
inductive Ty | int | float | obj
deriving DecidableEq, Repr

/-- `type(val)` as the element type of an array (keyedvectors.py:287-292): `int` is 64 bit, everything but
numbers is `object`. -/
def Val.ty : Val → Ty
  | .int _ => .int
  | .float _ => .float
  | .obj _ => .obj

/-- The elements of `np.zeros(n, dtype=t)`; those of an array of objects are the integer 0. -/
def Ty.zero : Ty → Val
  | .int => .int 0
  | .float => .float 0
  | .obj => .int 0

/-- An array of attributes. -/
structure Arr where
  ty : Ty
  vals : List Val
deriving DecidableEq, Repr

/-- An entry of the old `vocab`: its `__dict__`. -/
abbrev OldV := PyDict String Val

/-- The attributes of a `KeyedVectors` object; `none`: there is no such attribute. `index_to_key` may
be there and be `None`. `R` is the type of the rows. -/
structure KV (R : Type) where
  doctags : Bool
  indexToKey : Option (Option (List Key))
  index2word : Option (List Key)
  index2entity : Option (List Key)
  vectors : Option (List R × Nat)
  syn0 : Option (List R × Nat)
  vectorSize : Option Nat
  norms : Option (Option (List ℚ))
  expandos : Option (PyDict String Arr)
  keyToIndex : Option (PyDict Key Int)
  vocab : Option (PyDict Key OldV)

variable {R : Type}

/-- models keyedvectors.py:297-305: one attribute of `allocate_vecattrs`, for arrays of length `n`.
`np.issubdtype` is equality for the types considered here. -/
def allocate (n : Nat) (e : PyDict String Arr) (attr : String) (t : Ty) : Except Err (PyDict String Arr) :=
  match e.get? attr with
  | none => .ok (e.set attr ⟨t, List.replicate n t.zero⟩)
  | some p =>
    if t ≠ p.ty then .error .type
    else if p.vals.length = n then .ok e
    else .ok (e.set attr ⟨p.ty, p.vals.take n ++ List.replicate (n - p.vals.length) p.ty.zero⟩)

/-- models keyedvectors.py:386-399: `get_index(key)` without a default. -/
def getIndex (m : PyDict Key Int) (l : List Key) (k : Key) : Except Err Nat :=
  let v := m.getD k (-1)
  if 0 ≤ v then .ok v.toNat
  else match k with
    | .int z => if 0 ≤ z ∧ z < l.length then .ok z.toNat else .error .key
    | .str _ => .error .key

/-- models keyedvectors.py:308-329: `set_vecattr`. -/
def setVecattr (m : PyDict Key Int) (l : List Key) (e : PyDict String Arr) (k : Key) (attr : String) (v : Val) :
    Except Err (PyDict String Arr) := do
  let e ← allocate l.length e attr v.ty
  let i ← getIndex m l k
  match e.get? attr with
  | none => .error .key
  | some a => if i < a.vals.length then .ok (e.set attr ⟨a.ty, a.vals.set i v⟩) else .error .index

/-- models keyedvectors.py:331-349: `get_vecattr`. -/
def getVecattr (m : PyDict Key Int) (l : List Key) (e : PyDict String Arr) (k : Key) (attr : String) :
    Except Err Val := do
  let i ← getIndex m l k
  match e.get? attr with
  | none => .error .key
  | some a => match a.vals[i]? with
    | none => .error .index
    | some v => .ok v

/-- models keyedvectors.py:268-269: the attributes of one entry, stored at its index. -/
def setAttrs (m : PyDict Key Int) (l : List Key) (i : Int) :
    List (String × Val) → PyDict String Arr → Except Err (PyDict String Arr)
  | [], e => .ok e
  | (a, v) :: rest, e => do
    let e ← setVecattr m l e (.int i) a v
    setAttrs m l i rest e

/-- models keyedvectors.py:265-269: the loop over the old vocabulary. An index that is not an integer is not
considered. -/
def upVocab (l : List Key) :
    List (Key × OldV) → PyDict Key Int → PyDict String Arr → Except Err (PyDict Key Int × PyDict String Arr)
  | [], m, e => .ok (m, e)
  | (k, v) :: rest, m, e =>
    match v.get? "index" with
    | some (.int i) => do
      let m := m.set k i
      let e ← setAttrs m l i v e
      upVocab l rest m e
    | _ => .error .attr

/-- models `astype(np.uint32)` of one element: truncated and reduced modulo `2 ^ 32`. -/
def toUint32 : Val → Except Err Val
  | .int z => .ok (.int (z % 2 ^ 32))
  | .float q => .ok (.int ((if 0 ≤ q then ⌊q⌋ else ⌈q⌉) % 2 ^ 32))
  | .obj _ => .error .type

/-- models keyedvectors.py:270-272. -/
def castSample (e : PyDict String Arr) : Except Err (PyDict String Arr) :=
  match e.get? "sample_int" with
  | none => .ok e
  | some a => do
    let vs ← a.vals.mapM toUint32
    .ok (e.set "sample_int" ⟨.int, vs⟩)

/-- models keyedvectors.py:261-272: `_upconvert_old_vocab`. Without `vocab` the value is `None`, which has no
`keys`. If `index_to_key` is `None` the first attribute fails with a `TypeError`. -/
def upconvertVocab (s : KV R) : Except Err (KV R) :=
  match s.vocab with
  | none => .error .attr
  | some vocab =>
    match s.indexToKey, s.expandos with
    | some (some l), some e => do
      let (m, e) ← upVocab l vocab [] e
      let e ← castSample e
      .ok { s with vocab := none, keyToIndex := some m, expandos := some e }
    | some none, some e =>
      match vocab with
      | [] => do
        let e ← castSample e
        .ok { s with vocab := none, keyToIndex := some [], expandos := some e }
      | _ => .error .type
    | _, _ => .error .attr

/-- models keyedvectors.py:1693-1712, `_upconvert_old_d2vkv`: its first statement assigns to `vocab`, which is a
property whose setter raises (646-657), so that nothing of the rest is executed. -/
def upconvertD2v (_ : KV R) : Except Err (KV R) := .error .attr

/-- models keyedvectors.py:245-247. The default of the first `pop` is itself a `pop`. -/
def fixKeys (s : KV R) : KV R :=
  match s.indexToKey with
  | some _ => s
  | none =>
    { s with
      indexToKey := some (match s.index2word with | some l => some l | none => s.index2entity)
      index2word := none, index2entity := none }

/-- models keyedvectors.py:248-251. Without `syn0` the value is `None`, which has no `shape`. -/
def fixVectors (s : KV R) : Except Err (KV R) :=
  match s.vectors with
  | some _ => .ok s
  | none =>
    match s.syn0 with
    | some v => .ok { s with vectors := some v, syn0 := none, vectorSize := some v.2 }
    | none => .error .attr

/-- models keyedvectors.py:239-259: `_load_specials`. -/
def loadKV (s : KV R) : Except Err (KV R) := do
  let s ← if s.doctags then upconvertD2v s else .ok s
  let s := fixKeys s
  let s ← fixVectors s
  let s := { s with norms := some (s.norms.getD none), expandos := some (s.expandos.getD []) }
  match s.keyToIndex with
  | some _ => .ok s
  | none => upconvertVocab s

/-! ### Word2Vec models -/

/-- The attributes of a model other than `wv`, `vocabulary` and `trainables`. -/
abbrev Attrs (α : Type) := String → Option α

/-- A model: its attributes, the old helper objects if there are any, and whether its word vectors exist with
the attributes that are looked at: `index_to_key`, `vectors` and `vectors_lockf`. -/
structure Mdl (α : Type) where
  attrs : Attrs α
  vocabulary : Option (Attrs α)
  trainables : Option (Attrs α)
  wvIndex : Bool
  wvVectors : Bool
  wvLockf : Bool

/-- The values that occur in the conversion: `None`, 0, 0.75, a new generator for a seed, the table of
negative sampling for an exponent (of the counts in `wv`), and Python's truth of a value. -/
structure Consts (α : Type) where
  none : α
  zero : α
  threeQuarters : α
  rng : α → α
  cumTable : α → α
  truthy : α → Bool

variable {α : Type}

/-- `setattr(self, a, v)` -/
def put (f : Attrs α) (a : String) (v : α) : Attrs α := Function.update f a (some v)

/-- `del self.a` of an attribute that is there. -/
def del (f : Attrs α) (a : String) : Attrs α := Function.update f a none

/-- `if not hasattr(self, a): self.a = v` -/
def dflt (f : Attrs α) (a : String) (v : α) : Attrs α := if (f a).isSome then f else put f a v

/-- `self.a` -/
def attr (f : Attrs α) (a : String) : Except Err α :=
  match f a with
  | some v => .ok v
  | none => .error .attr

/-- models word2vec.py:1943: attributes that must be in `vocabulary`. -/
def vocabNames : List String := ["max_vocab_size", "min_count", "sample", "sorted_vocab", "null_word", "raw_vocab"]

/-- models word2vec.py:1947. -/
def trainNames : List String := ["hashfxn", "layer1_size", "seed", "syn1neg", "syn1"]

/-- models word2vec.py:1943-1944: every attribute is taken over; a missing one is an `AttributeError`. -/
def takeAll (src : Attrs α) : List String → Attrs α → Except Err (Attrs α)
  | [], f => .ok f
  | a :: as, f => do
    let v ← attr src a
    takeAll src as (put f a v)

/-- models word2vec.py:1947-1949: every attribute that is there is taken over. -/
def takeSome (src : Attrs α) : List String → Attrs α → Attrs α
  | [], f => f
  | a :: as, f => takeSome src as (match src a with | some v => put f a v | none => f)

/-- models word2vec.py:1923-1924: the table of negative sampling. -/
def cumStep (c : Consts α) (wvIndex : Bool) (f : Attrs α) : Except Err (Attrs α) := do
  let n ← attr f "negative"
  if c.truthy n && wvIndex then
    let x ← attr f "ns_exponent"
    .ok (put f "cum_table" (c.cumTable x))
  else .ok f

/-- models word2vec.py:1931-1933: the generator. -/
def randomStep (c : Consts α) (f : Attrs α) : Except Err (Attrs α) :=
  if (f "random").isSome then .ok f
  else do
    let s ← attr f "seed"
    .ok (put f "random" (c.rng s))

/-- models word2vec.py:1934-1936: both counters are set if the first one is missing. -/
def countStep (c : Consts α) (f : Attrs α) : Attrs α :=
  if (f "train_count").isSome then f else put (put f "train_count" c.zero) "total_train_time" c.zero

/-- models word2vec.py:1937-1939: `iter` was renamed. -/
def epochsStep (f : Attrs α) : Except Err (Attrs α) :=
  if (f "epochs").isSome then .ok f
  else do
    let i ← attr f "iter"
    .ok (del (put f "epochs" i) "iter")

/-- models word2vec.py:1950-1952: `syn1` is deleted if it is there. -/
def dropSyn1 (f : Attrs α) : Attrs α := if (f "syn1").isSome then del f "syn1" else f

/-- models word2vec.py:1942-1945. -/
def vocabStep (v : Option (Attrs α)) (f : Attrs α) : Except Err (Attrs α) :=
  match v with
  | some v => takeAll v vocabNames f
  | none => .ok f

/-- models word2vec.py:1946-1953. -/
def trainStep (t : Option (Attrs α)) (f : Attrs α) : Attrs α :=
  match t with
  | some t => dropSyn1 (takeSome t trainNames f)
  | none => f

/-- models word2vec.py:1917-1953: `_load_specials`. `vectors_lockf` of the word vectors is set if it is
missing and there are vectors. -/
def load (c : Consts α) (s : Mdl α) : Except Err (Mdl α) := do
  let f := dflt s.attrs "ns_exponent" c.threeQuarters
  let f ← cumStep c s.wvIndex f
  let f := dflt f "corpus_count" c.none
  let f := dflt f "corpus_total_words" c.none
  let lockf := s.wvLockf || s.wvVectors
  let f ← randomStep c f
  let f := countStep c f
  let f ← epochsStep f
  let f := dflt f "max_final_vocab" c.none
  let f ← vocabStep s.vocabulary f
  let f := trainStep s.trainables f
  .ok { s with attrs := f, vocabulary := none, trainables := none, wvLockf := lockf }

/-- models word2vec.py:1875-1880 together with `SaveLoad`: saving leaves out `cum_table`, which is `None` after
reading the file and before `_load_specials`. -/
def saved (c : Consts α) (s : Mdl α) : Mdl α := { s with attrs := put s.attrs "cum_table" c.none }

/-! ### fastText models -/

/-- models fasttext.py:628-634: `bucket` is moved to the word vectors (`b`: their attribute). -/
def moveBucket (f : Attrs α) (b : Option α) : Attrs α × Option α :=
  match f "bucket" with
  | some v => (del f "bucket", some v)
  | none => (f, b)

/-- What is looked at in the word vectors of a fastText model before anything is computed: `compatible_hash`,
whether the two arrays exist, and the number of dimensions of their lock factors. -/
structure FtKV where
  compatibleHash : Option Bool
  vocab : Bool
  ngrams : Bool
  vocabLockf : Option Nat
  ngramsLockf : Option Nat
deriving DecidableEq, Repr

/-- models fasttext.py:1003-1011 for one of the arrays: `ones(1)` if missing or of more than one dimension. -/
def fixLockf (arr : Bool) (lockf : Option Nat) : Except Err Nat :=
  match (if lockf.isNone && arr then some 1 else lockf) with
  | none => .error .attr
  | some d => .ok (if 1 < d then 1 else d)

/-- models fasttext.py:994-1011. The order of the statements matters only for which error is raised. -/
def loadFt (s : FtKV) : Except Err FtKV :=
  if s.compatibleHash ≠ some true then .error .type
  else do
    let a ← fixLockf s.vocab s.vocabLockf
    let b ← fixLockf s.ngrams s.ngramsLockf
    .ok { s with vocabLockf := some a, ngramsLockf := some b }

end Verif.Upgrade
