import Verif.Doc2Vec.TagsModel
import Verif.W2V.OnlineModel

/-!
# The settings of Doc2Vec, building its vocabulary, sharing it and looking vectors up (gensim/models/doc2vec.py)
-/

namespace Verif.Doc2Vec.Life
open Verif PyDict W2V

/-- The arguments of `Doc2Vec` that choose the kind of training; `cbowMean` is a keyword that is passed on to `Word2Vec`. -/
structure Args where
  dm : Nat
  dmMean : Option Nat
  dbowWords : Nat
  dmConcat : Nat
  dmTagCount : Nat
  window : Nat
  vectorSize : Nat
  cbowMean : Option Nat

/-- The attributes; `none` is an attribute that is not set. -/
structure Attrs where
  sg : Option Nat
  cbowMean : Option Nat
  dbowWords : Nat
  dmConcat : Nat
  dmTagCount : Nat
  layer1 : Option Nat
  nullWord : Option Nat

/-- Models `Doc2Vec.__init__`, gensim/models/doc2vec.py 277-285: what is set before the constructor of `Word2Vec` is called. -/
def initDoc (a : Args) : Attrs :=
  { sg := none, cbowMean := a.dmMean, dbowWords := a.dbowWords, dmConcat := a.dmConcat, dmTagCount := a.dmTagCount,
    layer1 := if a.dm ≠ 0 ∧ a.dmConcat ≠ 0 then some ((a.dmTagCount + 2 * a.window) * a.vectorSize) else none, nullWord := none }

/-- Models `Word2Vec.__init__`, gensim/models/word2vec.py 374, 384, 396 and 408-409: `cbow_mean=1` unless given, and the size of the layer
only if it is not set. -/
def initWord (sg : Nat) (cbowMean : Option Nat) (nullWord vectorSize : Nat) (x : Attrs) : Attrs :=
  { x with sg := some sg, cbowMean := some (cbowMean.getD 1), nullWord := some nullWord, layer1 := some (x.layer1.getD vectorSize) }

/-- Models `Doc2Vec.__init__`, gensim/models/doc2vec.py 275-303, without a corpus. -/
def init (a : Args) : Attrs := initWord ((1 + a.dm) % 2) a.cbowMean a.dmConcat a.vectorSize (initDoc a)

/-- The functions that train a document: `train_document_dbow`, `train_document_dm_concat` and `train_document_dm`. -/
inductive Mode
  | dbow (words : Bool)
  | concat
  | dm (mean : Bool)
deriving DecidableEq

/-- Models the choice in `_do_train_job`, gensim/models/doc2vec.py 417-431; whether words are trained and whether the context is averaged
are read in the functions themselves. -/
def mode (x : Attrs) : Mode :=
  if x.sg.getD 0 ≠ 0 then .dbow (x.dbowWords ≠ 0)
  else if x.dmConcat ≠ 0 then .concat
  else .dm (x.cbowMean.getD 0 ≠ 0)

/-! ### The life of a model -/

variable {κ V : Type} [DecidableEq κ]

/-- The vocabulary and weights of the words, the index of the tags and the vectors of the documents. -/
structure Model (κ V : Type) where
  words : Weights κ V
  tags : Index κ
  dv : List V

/-- A model without vocabulary. -/
def Model.empty : Model κ V := ⟨Weights.empty, ⟨[], [], [], []⟩, []⟩

/-- Models `init_weights`, gensim/models/doc2vec.py 336-339, for the vectors of the documents, or `Word2Vec.update_weights`, which does
nothing with them (gensim/models/word2vec.py 819-858). -/
def docWeights (freshDoc : Nat → V) (update : Bool) (tags : Index κ) (dv : List V) : Option (List V) :=
  if update then some dv else prepVectors freshDoc tags.indexToKey.length dv

/-- Models `Doc2Vec.build_vocab`, gensim/models/doc2vec.py 872-881, with `scan_vocab` 1038-1049.  `docs` are the lengths and the tags of the
documents, `b.raw` the counts of their words; `none` is an exception. -/
def buildVocab (argsort : List Nat → List Nat) (fresh freshDoc : Nat → V) (zero : V) (m : Model κ V) (docs : List (Nat × List (Tag κ)))
    (b : Build κ) : Option (Model κ V) :=
  let tags := store m.tags (scan docs)
  (buildFull argsort fresh zero m.words b).bind fun w => (docWeights freshDoc b.update tags m.dv).map fun dv => ⟨w, tags, dv⟩

/-- Models `Doc2Vec.build_vocab_from_freq`, gensim/models/doc2vec.py 915-931; `b.raw` are the given frequencies. -/
def buildVocabFromFreq (argsort : List Nat → List Nat) (fresh freshDoc : Nat → V) (zero : V) (m : Model κ V) (b : Build κ) : Option (Model κ V) :=
  (buildFull argsort fresh zero m.words b).bind fun w => (docWeights freshDoc b.update m.tags m.dv).map fun dv => ⟨w, m.tags, dv⟩

/-- Models `reset_from`, gensim/models/doc2vec.py 356-364, with `init_weights` 336-339 and gensim/models/word2vec.py 831-839.  That the
dictionaries are shared afterwards is not modelled. -/
def resetFrom (fresh freshDoc : Nat → V) (zero : V) (m other : Model κ V) : Option (Model κ V) :=
  (prepVectors fresh other.words.wv.i2k.length m.words.vectors).bind fun vs =>
    (docWeights freshDoc false other.tags m.dv).map fun dv =>
      ⟨⟨other.words.wv, vs, List.replicate other.words.wv.i2k.length zero⟩, other.tags, dv⟩

/-- Models `doctag_indexes` of `_do_train_job`, gensim/models/doc2vec.py 414. -/
def doctagIndexes (m : Model κ V) (tags : List (Tag κ)) : List Nat := tags.filterMap (rowOf m.tags)

/-- Models `_do_train_job`, gensim/models/doc2vec.py 411-432: every document is given to the function of the mode with the rows of its tags;
`train` says how many words it trains.  The words trained and the raw words. -/
def doTrainJob (x : Attrs) (m : Model κ V) (train : Mode → List κ → List Nat → Nat) (job : List (List κ × List (Tag κ))) : Nat × Nat :=
  (job.foldl (fun tally doc => tally + train (mode x) doc.1 (doctagIndexes m doc.2)) 0, (job.map fun doc => doc.1.length).sum)

/-- Models `tag in self.wv` and the index, gensim/models/keyedvectors.py 386-399 and 551-563, for the words. -/
def wordIndex (wv : WV κ) : Tag κ → Option Nat
  | .str k => wv.k2i.get? k
  | .int i => if 0 ≤ i ∧ i < wv.i2k.length then some i.toNat else none

/-- Models `Doc2Vec.__getitem__` for one key, gensim/models/doc2vec.py 665-668; `none` is an exception. -/
def getItem (m : Model κ V) (t : Tag κ) : Option V :=
  match wordIndex m.words.wv t with
  | none => (rowOf m.tags t).bind fun r => m.dv[r]?
  | some i => m.words.vectors[i]?

/-- Models `Doc2Vec.__getitem__` for several keys, gensim/models/doc2vec.py 669; `vstack` of nothing raises. -/
def getItems (m : Model κ V) (ts : List (Tag κ)) : Option (List V) := if ts = [] then none else ts.mapM (getItem m)

/-- Models the condition of the second warning of `_scan_vocab`, gensim/models/doc2vec.py 986. -/
def warnsExcess (docs : List (Nat × List (Tag κ))) : Bool := decide ((scan docs).maxInt > (docs.length : Int))

end Verif.Doc2Vec.Life
