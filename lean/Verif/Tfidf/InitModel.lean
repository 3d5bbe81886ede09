import Verif.Tfidf.Model

/-!
# Model of the construction of `TfidfModel` (`gensim/models/tfidfmodel.py`)
-/

namespace Verif.Tfidf
open Verif PyDict Matutils

/-- what the constructor may raise: `ValueError` for a bad code, `AttributeError` (a method of `None`), `KeyError` (a
term without a frequency), `ZeroDivisionError` -/
inductive InitErr
  | value | attr | key | zeroDiv
deriving DecidableEq, Repr

/-- A corpus argument: the documents it yields, and whether it has a length (a list has, a generator has not; Python
takes an object without a length for true). -/
structure CorpusArg where
  hasLen : Bool
  docs : List (List (Nat × ℝ))

/-- the arguments of the constructor, `id2word` aside; `normalize` is `True` (`unit`) or `False` (`plain`) -/
structure Args (τ : Type) where
  corpus : Option CorpusArg
  dictionary : Option (Dictionary.Dct τ)
  wlocal : List ℝ → Option (List ℝ)
  wglobal : Nat → Nat → ℝ
  normalize : Bool
  smartirs : Option (List Char)
  pivot : Option ℝ
  slope : ℝ

/-- the model after construction; `stats` is `none` if nothing was counted -/
structure Built where
  stats : Option Stats
  wlocal : List ℝ → Option (List ℝ)
  wglobal : Nat → Nat → ℝ
  normalizer : Normalizer
  pivot : Option ℝ
  slope : ℝ
  termLens : Option (PyDict Nat Nat)

/-- `bool(corpus)` (tfidfmodel.py:381, 391) -/
def CorpusArg.truthy (c : CorpusArg) : Bool := !c.hasLen || !c.docs.isEmpty

/-- the dictionary if it counts as one (tfidfmodel.py:377): one without tokens has the length 0, which is false -/
def Args.dict {τ : Type} (a : Args τ) : Option (Dictionary.Dct τ) := a.dictionary.filter fun d => !d.token2id.isEmpty

/-- the corpus if it counts as one (tfidfmodel.py:391) -/
def Args.corp {τ : Type} (a : Args τ) : Option CorpusArg := a.corpus.filter CorpusArg.truthy

/-- models tfidfmodel.py:376-396: the statistics -/
noncomputable def initStats {τ : Type} (a : Args τ) (wglobal : Nat → Nat → ℝ) : Option Stats :=
  match a.dict with
  | some d => some (fromDictionary wglobal d)
  | none => a.corp.map fun c => train wglobal c.docs

/-- models tfidfmodel.py:387: the lengths of the tokens; `initialize` does not set them -/
def initLens {τ : Type} (len : τ → Nat) (a : Args τ) : Option (PyDict Nat Nat) :=
  a.dict.map fun d => d.token2id.map fun p => (p.2, len p.1)

/-- models tfidfmodel.py:412-414, the pivot of the code `b`. `dictionary.keys()` is called on what the caller passed:
`None` has no keys, an empty dictionary has none to look up. -/
noncomputable def bytePivot {τ : Type} (len : τ → Nat) (a : Args τ) (numDocs : Nat) : Except InitErr ℝ :=
  match a.dictionary with
  | none => .error .attr
  | some d =>
    match Dictionary.mapOpt (fun i => (get? d.cfs i).bind fun f => (get? ((initLens len a).getD []) i).map fun l =>
        (f : ℝ) * ((l : ℝ) + 1)) (values d.token2id) with
    | none => .error .key
    | some l => if numDocs = 0 then .error .zeroDiv else .ok (1 * pySum l / (numDocs : ℝ))

/-- models tfidfmodel.py:398-414: the pivot, for the third letter of the code -/
noncomputable def initPivot {τ : Type} (len : τ → Nat) (a : Args τ) (stats : Option Stats) (c : Char) :
    Except InitErr (Option ℝ) :=
  match a.pivot with
  | some p => .ok (some p)
  | none =>
    if c = 'u' ∨ c = 'b' then
      match stats with
      | none => .ok none
      | some s =>
        if c = 'u' then
          if s.numDocs = 0 then .error .zeroDiv else .ok (some (1 * (s.numNnz : ℝ) / (s.numDocs : ℝ)))
        else (bytePivot len a s.numDocs).map some
    else .ok none

/-- models tfidfmodel.py:363-414 `TfidfModel.__init__` -/
noncomputable def construct {τ : Type} (len : τ → Nat) (a : Args τ) : Except InitErr Built :=
  match a.smartirs with
  | none => .ok ⟨initStats a a.wglobal, a.wlocal, a.wglobal, if a.normalize then .unit else .plain, a.pivot, a.slope,
      initLens len a⟩
  | some code =>
    match resolveWeights code with
    | some [tf, df, n] =>
      let stats := initStats a (smartGlobal df)
      match initPivot len a stats n with
      | .error e => .error e
      | .ok p => .ok ⟨stats, smartLocal tf, smartGlobal df, .smart n, p, a.slope, initLens len a⟩
    | _ => .error .value

/-- models tfidfmodel.py:472-548 `__getitem__` on one vector, for any constructed model: `self.idfs` is `None` if
nothing was counted, which raises as soon as there is a term to look up. -/
noncomputable def Built.getitem (b : Built) (eps : ℝ) (bow : List (Nat × ℝ)) : Option (List (Nat × ℝ)) :=
  match b.stats with
  | some s => transform ⟨s, b.wlocal, b.normalizer, b.pivot, b.slope, b.termLens⟩ eps bow
  | none => (b.wlocal (bow.map Prod.snd)).bind fun tfs =>
      if (bow.map Prod.fst).zip tfs = [] then
        transform ⟨⟨0, 0, [], []⟩, b.wlocal, b.normalizer, b.pivot, b.slope, b.termLens⟩ eps bow
      else none

end Verif.Tfidf
