import Verif.Phrases.Model
import Mathlib.Analysis.SpecialFunctions.Log.Basic

/-!
# Scoring, arguments and loading of phrase models (gensim/models/phrases.py)

Scores are real numbers, `⊥` is `NEGATIVE_INFINITY`.
-/

namespace Verif.Phrases
open Verif PyDict Text

/-- The exceptions. -/
inductive PErr
  | zeroDivision
  | value
  | type
  | attribute
  | unicode
deriving DecidableEq, Repr

/-- Models `original_scorer`, gensim/models/phrases.py 118-121; `minCount` is positive, and the difference may be
negative. -/
noncomputable def defaultScorer (worda wordb bigram lenVocab minCount _corpusWords : ℕ) : WithBot ℝ :=
  let denom := worda * wordb
  if denom = 0 then ⊥ else (((bigram : ℝ) - minCount) / denom * lenVocab : ℝ)

/-- Models `npmi_scorer`, gensim/models/phrases.py 155-167. -/
noncomputable def npmiScorer (worda wordb bigram _lenVocab minCount corpusWords : ℕ) : Except PErr (WithBot ℝ) :=
  if minCount ≤ bigram then
    if corpusWords = 0 then .error .zeroDivision
    else
      let pa : ℝ := worda / corpusWords
      let pb : ℝ := wordb / corpusWords
      let pab : ℝ := bigram / corpusWords
      if pa * pb = 0 then .error .zeroDivision
      else if pab = 0 then .ok ⊥
      else if Real.log pab = 0 then .error .zeroDivision
      else .ok ((Real.log (pab / (pa * pb)) / -Real.log pab : ℝ) : WithBot ℝ)
  else .ok ⊥

/-- The scoring of a `Phrases` model by `npmi_scorer`; that it raises nothing is a theorem. -/
noncomputable def npmiScoring (worda wordb bigram lenVocab minCount corpusWords : ℕ) : WithBot ℝ :=
  match npmiScorer worda wordb bigram lenVocab minCount corpusWords with
  | .ok s => s
  | .error _ => ⊥

/-! ## Arguments -/

/-- The argument `scoring`: a text, a function with some parameters, or anything else. -/
inductive ScoringArg
  | text (s : Str)
  | fn (params : List Str)
  | other
deriving DecidableEq

/-- The parameters a scoring function must have, gensim/models/phrases.py 544-546. -/
def scoringParams : List Str :=
  ["worda_count".toList, "wordb_count".toList, "bigram_count".toList, "len_vocab".toList, "min_count".toList,
    "corpus_word_count".toList]

/-- Models the checks of `Phrases.__init__`, gensim/models/phrases.py 524-567.  `other` leaves the attribute unset, which
is noticed when it is pickled. -/
def checkArgs (minCount : ℤ) (threshold : ℚ) (scoring : ScoringArg) : Except PErr Unit :=
  if minCount ≤ 0 then .error .value
  else if threshold ≤ 0 ∧ scoring = .text "default".toList then .error .value
  else if scoring = .text "npmi".toList ∧ (threshold < -1 ∨ threshold > 1) then .error .value
  else
    match scoring with
    | .text s => if s = "default".toList ∨ s = "npmi".toList then .ok () else .error .value
    | .fn params => if scoringParams.all (fun p => params.contains p) then .ok () else .error .value
    | .other => .error .attribute

/-! ## Sentences and corpora -/

/-- An item of an input: a word, or a sentence. -/
inductive Item
  | word (w : Str)
  | sent (ws : List Str)
deriving DecidableEq

/-- An input: something that can be read again and again, or an iterator. -/
inductive Obj
  | seq (items : List Item)
  | iter (items : List Item)
deriving DecidableEq

/-- Reading an input to its end: what is read, and what it is afterwards. -/
def Obj.read : Obj → List Item × Obj
  | .seq l => (l, .seq l)
  | .iter l => (l, .iter [])

/-- Models `_is_single`, gensim/models/phrases.py 188-203: `itertools.chain([peek], obj_iter)` is an iterator of all
items. -/
def isSingle : Obj → Bool × Obj
  | .seq [] => (true, .seq [])
  | .iter [] => (true, .iter [])
  | .seq (.word w :: r) => (true, .iter (.word w :: r))
  | .iter (.word w :: r) => (true, .iter (.word w :: r))
  | .iter (.sent s :: r) => (false, .iter (.sent s :: r))
  | .seq (.sent s :: r) => (false, .seq (.sent s :: r))

/-! ## Loading -/

/-- A key of an old or new dictionary. -/
inductive Key
  | str (s : Str)
  | bytes (b : List UInt8)
  | tuple (parts : List (List UInt8))
deriving DecidableEq

/-- A value of `phrasegrams`: a score, or a count and a score. -/
inductive GramVal (S : Type)
  | score (s : S)
  | pair (n : ℕ) (s : S)
deriving DecidableEq

/-- A stored scoring function. -/
inductive Scoring
  | original
  | npmi
  | custom (n : ℕ)
  | text (s : Str)
deriving DecidableEq

/-- A stored `Phrases` or `FrozenPhrases`; `none` is a missing attribute. -/
structure Saved (S : Type) where
  phrasegrams : Option (PyDict Key (GramVal S))
  scoring : Option Scoring
  commonTerms : Option (List Key)
  connectorWords : Option (List Key)
  corpusWords : Option ℕ
  vocab : Option (PyDict Key ℕ)
  delim : Key
deriving DecidableEq

/-- `delimiter.join(parts)` of byte strings. -/
def joinBytes (d : List UInt8) : List (List UInt8) → List UInt8
  | [] => []
  | [p] => p
  | p :: ps => p ++ d ++ joinBytes d ps

/-- `str(model.delimiter.join(key), encoding='utf8')`, gensim/models/phrases.py 362 and 367: anything but a tuple of
byte strings joined by a byte string is a TypeError.  `dec` decodes UTF-8. -/
def joinKey (dec : List UInt8 → Option Str) (delim key : Key) : Except PErr Key :=
  match delim, key with
  | .bytes d, .tuple parts =>
    match dec (joinBytes d parts) with
    | some s => .ok (.str s)
    | none => .error .unicode
  | _, _ => .error .type

/-- `str(key, encoding='utf8')`. -/
def decodeKey (dec : List UInt8 → Option Str) : Key → Except PErr Key
  | .bytes b =>
    match dec b with
    | some s => .ok (.str s)
    | none => .error .unicode
  | _ => .error .type

/-- `val[1]`; a value that is not a tuple cannot be indexed. -/
def second {S : Type} : GramVal S → Except PErr (GramVal S)
  | .pair _ s => .ok (.score s)
  | .score _ => .error .type

/-- Models the first dictionary comprehension, gensim/models/phrases.py 361-364. -/
def upgradePairs {S : Type} (dec : List UInt8 → Option Str) (delim : Key) :
    PyDict Key (GramVal S) → PyDict Key (GramVal S) → Except PErr (PyDict Key (GramVal S))
  | [], r => .ok r
  | (k, v) :: rest, r =>
    match joinKey dec delim k with
    | .error e => .error e
    | .ok k' =>
      match second v with
      | .error e => .error e
      | .ok v' => upgradePairs dec delim rest (set r k' v')

/-- Models the second dictionary comprehension, gensim/models/phrases.py 366-369: it puts the first key and the first
score for each entry. -/
def upgradeTuples {S : Type} (dec : List UInt8 → Option Str) (delim component : Key) (score : GramVal S) :
    PyDict Key (GramVal S) → PyDict Key (GramVal S) → Except PErr (PyDict Key (GramVal S))
  | [], r => .ok r
  | _ :: rest, r =>
    match joinKey dec delim component with
    | .error e => .error e
    | .ok k' => upgradeTuples dec delim component score rest (set r k' score)

/-- Models gensim/models/phrases.py 356-372. -/
def upgradeGrams {S : Type} (dec : List UInt8 → Option Str) (x : Saved S) : Except PErr (Saved S) :=
  match x.phrasegrams with
  | none => .ok x
  | some [] => .ok x
  | some ((component, score) :: rest) =>
    match score, component with
    | .pair _ _, _ =>
      match upgradePairs dec x.delim ((component, score) :: rest) [] with
      | .error e => .error e
      | .ok g => .ok { x with phrasegrams := some g }
    | .score _, .tuple _ =>
      match upgradeTuples dec x.delim component score ((component, score) :: rest) [] with
      | .error e => .error e
      | .ok g => .ok { x with phrasegrams := some g }
    | .score _, _ => .ok x

/-- Models gensim/models/phrases.py 375-391. -/
def upgradeScoring {S : Type} (x : Saved S) : Except PErr (Saved S) :=
  match x.scoring with
  | none => .ok { x with scoring := some .original }
  | some (.text s) =>
    if s = "default".toList then .ok { x with scoring := some .original }
    else if s = "npmi".toList then .ok { x with scoring := some .npmi }
    else .error .value
  | some _ => .ok x

/-- Models gensim/models/phrases.py 394-402. -/
def upgradeTerms {S : Type} (x : Saved S) : Saved S :=
  match x.commonTerms with
  | some t => { x with connectorWords := some t, commonTerms := none }
  | none => { x with connectorWords := some [] }

/-- Models gensim/models/phrases.py 404-407. -/
def upgradeCount {S : Type} (x : Saved S) : Saved S :=
  match x.corpusWords with
  | none => { x with corpusWords := some 0 }
  | some _ => x

/-- Models the loop over the words, gensim/models/phrases.py 415-417. -/
def decodeVocab (dec : List UInt8 → Option Str) : PyDict Key ℕ → PyDict Key ℕ → Except PErr (PyDict Key ℕ)
  | [], r => .ok r
  | (k, n) :: rest, r =>
    match decodeKey dec k with
    | .error e => .error e
    | .ok k' => decodeVocab dec rest (set r k' n)

/-- `isinstance(key, str)`. -/
def Key.isStr : Key → Bool
  | .str _ => true
  | _ => false

/-- Models gensim/models/phrases.py 410-418. -/
def upgradeVocab {S : Type} (dec : List UInt8 → Option Str) (x : Saved S) : Except PErr (Saved S) :=
  match x.vocab with
  | none => .ok x
  | some [] => .ok x
  | some ((k, n) :: rest) =>
    if k.isStr then .ok x
    else
      match decodeVocab dec ((k, n) :: rest) [] with
      | .error e => .error e
      | .ok v => .ok { x with vocab := some v }

/-- Models gensim/models/phrases.py 419-420. -/
def upgradeDelim {S : Type} (dec : List UInt8 → Option Str) (x : Saved S) : Except PErr (Saved S) :=
  if x.delim.isStr then .ok x
  else
    match decodeKey dec x.delim with
    | .error e => .error e
    | .ok d => .ok { x with delim := d }

/-- Models `load`, gensim/models/phrases.py 353-421, of an unpickled object. -/
def loadPhrases {S : Type} (dec : List UInt8 → Option Str) (x : Saved S) : Except PErr (Saved S) :=
  match upgradeGrams dec x with
  | .error e => .error e
  | .ok x =>
    match upgradeScoring x with
    | .error e => .error e
    | .ok x =>
      match upgradeVocab dec (upgradeCount (upgradeTerms x)) with
      | .error e => .error e
      | .ok x => upgradeDelim dec x

end Verif.Phrases
