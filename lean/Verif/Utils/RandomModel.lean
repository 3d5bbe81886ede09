/-!
# Model of the random generators of the models (`gensim/utils.py` `get_random_state`, and where they are used)

`G` is the type of the states of a generator, `draw` takes a number of type `R` from it.  Generators are shared by
reference, so a world maps references to states.
-/

namespace Verif.Random

variable {G R S : Type}

/-- the global generator of `np.random`, or a `RandomState` someone has created -/
inductive Ref where
  | global
  | own (n : Nat)
deriving DecidableEq

/-- what is passed as `random_state`: `None`, the module `np.random`, an integer, a `RandomState`, namely the one that
object `k` uses (hdpmodel.py:914; a `RandomState` of the user is an object too), or something else (for example a
`np.random.Generator`) -/
inductive Seed where
  | none
  | module
  | int (n : Int)
  | state (k : Nat)
  | other

/-- the states of all generators, and how many `RandomState`s have been created -/
structure Gens (G : Type) where
  get : Ref → G
  made : Nat

def Gens.set (gs : Gens G) (r : Ref) (g : G) : Gens G := ⟨fun q => if q = r then g else gs.get q, gs.made⟩

/-- `np.random.RandomState(…)` -/
def Gens.new (gs : Gens G) (g : G) : Gens G × Ref :=
  (⟨fun q => if q = .own gs.made then g else gs.get q, gs.made + 1⟩, .own gs.made)

/-- models utils.py:79-85 `get_random_state`; `none` is the `ValueError`; `seeded n` is the state of `RandomState(n)` -/
def getRandomState (seeded : Int → G) (refOf : Nat → Option Ref) (gs : Gens G) : Seed → Option (Gens G × Ref)
  | .none => some (gs, .global)
  | .module => some (gs, .global)
  | .int n => some (gs.new (seeded n))
  | .state k => (refOf k).map fun r => (gs, r)
  | .other => Option.none

/-- the objects, each with its state and its generator -/
structure World (G S : Type) where
  gens : Gens G
  objs : Nat → Option (S × Ref)

def World.put (w : World G S) (i : Nat) (o : S × Ref) : Nat → Option (S × Ref) := fun j => if j = i then some o else w.objs j

/-- what can happen: an object is constructed (ldamodel.py:471, atmodel.py:292, hdpmodel.py:347, nmf.py:192,
translation_matrix.py:226, and with an integer always word2vec.py:379, poincare.py:167; the constructor draws initial
values); a method of it is called, which may draw from its generator; it is stored and loaded as a new object, with a
copy of its generator's state; somebody draws from or seeds the global generator (lsimodel.py:923, 955;
fasttext.py:1256-1257) -/
inductive Op (G S : Type) where
  | create (i : Nat) (seed : Seed) (init : G → S × G)
  | call (i : Nat) (f : S → G → S × G)
  | reload (i j : Nat)
  | global (f : G → G)

/-- an operation on an object that does not exist, or with a seed that is refused, changes nothing -/
def stepOp (seeded : Int → G) (w : World G S) : Op G S → World G S
  | .create i seed init =>
    match getRandomState seeded (fun k => (w.objs k).map Prod.snd) w.gens seed with
    | none => w
    | some (gs, r) => ⟨gs.set r (init (gs.get r)).2, w.put i ((init (gs.get r)).1, r)⟩
  | .call i f =>
    match w.objs i with
    | none => w
    | some (s, r) => ⟨w.gens.set r (f s (w.gens.get r)).2, w.put i ((f s (w.gens.get r)).1, r)⟩
  | .reload i j =>
    match w.objs i with
    | none => w
    | some (s, r) => ⟨(w.gens.new (w.gens.get r)).1, w.put j (s, (w.gens.new (w.gens.get r)).2)⟩
  | .global f => ⟨w.gens.set .global (f (w.gens.get .global)), w.objs⟩

def run (seeded : Int → G) (ops : List (Op G S)) (w : World G S) : World G S := ops.foldl (stepOp seeded) w

/-! ## Latent Dirichlet allocation -/

/-- `n` numbers from a generator -/
def drawN (draw : G → R × G) : Nat → G → List R × G
  | 0, g => ([], g)
  | n + 1, g => ((draw g).1 :: (drawN draw n (draw g).2).1, (drawN draw n (draw g).2).2)

/-- models ldamodel.py:658: inference on a chunk starts with `len(chunk) * num_topics` drawn numbers; `infer` is the
rest of `inference`, 661-720 -/
def inference {D A : Type} (draw : G → R × G) (numTopics : Nat) (infer : S → List D → List R → A) (s : S) (chunk : List D)
    (g : G) : A × G :=
  (infer s chunk (drawN draw (chunk.length * numTopics) g).1, (drawN draw (chunk.length * numTopics) g).2)

/-- models ldamodel.py:1151-1163 `show_topics`: all topics, or, if fewer are asked for, a choice for which `num_topics`
numbers are drawn -/
def showTopics (draw : G → R × G) (numTopics : Nat) (asked : Int) (g : G) : Option (List R) × G :=
  if asked < 0 ∨ asked ≥ numTopics then (none, g) else (some (drawN draw numTopics g).1, (drawN draw numTopics g).2)

/-- models ldamodel.py:1093-1096 in `bound`: with `gamma` given nothing is inferred -/
def boundDoc {D A : Type} (draw : G → R × G) (numTopics : Nat) (infer : S → List D → List R → A) (s : S) (doc : D)
    (gamma : Option A) (g : G) : A × G :=
  match gamma with
  | none => inference draw numTopics infer s [doc] g
  | some a => (a, g)

/-- models ldamulticore.py:274 and 314-341 `worker_e_step`: every worker process starts with a copy of the model, and
so of its generator; `jobs` says which worker took which chunk, in the order they were taken.  The results in this
order, and the generators of the workers; the generator of the model is not used. -/
def multicore {D A : Type} (draw : G → R × G) (numTopics : Nat) (infer : S → List D → List R → A) (s : S) :
    List (Nat × List D) → (Nat → G) → List A × (Nat → G)
  | [], gs => ([], gs)
  | (w, chunk) :: jobs, gs =>
    let r := inference draw numTopics infer s chunk (gs w)
    let rest := multicore draw numTopics infer s jobs (fun v => if v = w then r.2 else gs v)
    (r.1 :: rest.1, rest.2)

/-! ## Word2Vec and its kin -/

/-- the two kinds of generators of numpy: only `RandomState` has `randint` -/
inductive Kind where
  | randomState
  | generator
deriving DecidableEq

/-- models word2vec.py:379 `self.random` of a new model and 1931-1933: of a loaded model without one -/
def loadedKind (stored : Option Kind) : Kind := stored.getD .generator

/-- models word2vec_inner.pyx:491-492, 569, 665 (the same in doc2vec_inner.pyx:273, 368, 500 and
fasttext_inner.pyx:422, 604): training on a batch; `randint` draws; `none` is the `AttributeError` of a generator
without it.  The seed of the negative samples, if there is one, and the windows. -/
def batchDraws (draw : G → Nat × G) (kind : Kind) (seedNeeded : Bool) (window words : Nat) (g : G) :
    Option ((Option Nat × List Nat) × G) :=
  match kind with
  | .generator => none
  | .randomState =>
    let a := draw g
    let b := draw a.2
    let g' := if seedNeeded then b.2 else g
    some ((if seedNeeded then some (2 ^ 24 * (a.1 % 2 ^ 24) + b.1 % 2 ^ 24) else none,
      (drawN draw words g').1.map (· % window)), (drawN draw words g').2)

/-- models word2vec_inner.pyx:491-492 together with word2vec_corpusfile.pyx:226-228: training from a file takes its
windows from `next_random`, which is set only for negative sampling or downsampling; `memory` is what the
uninitialised variable holds otherwise -/
def fileSeed (draw : G → Nat × G) (seedNeeded : Bool) (memory : Nat) (g : G) : Nat × G :=
  if seedNeeded then
    (2 ^ 24 * ((draw g).1 % 2 ^ 24) + (draw (draw g).2).1 % 2 ^ 24, (draw (draw g).2).2)
  else (memory, g)

/-- models word2vec_inner.pyx:154-157 `random_int32`: the number and the next state -/
def randomInt32 (x : Nat) : Nat × Nat := (x / 2 ^ 16, (x * 25214903917 + 11) % 2 ^ 48)

/-- models word2vec_corpusfile.pyx:227-228: the reduced windows -/
def fileWindows (window : Nat) : Nat → Nat → List Nat
  | 0, _ => []
  | n + 1, x => (randomInt32 x).1 % window :: fileWindows window n (randomInt32 x).2

end Verif.Random
