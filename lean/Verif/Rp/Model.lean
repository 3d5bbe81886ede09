import Mathlib.Algebra.BigOperators.Fin
import Verif.Matutils.SparseModel
import Verif.Matutils.NormModel

/-!
# Model of the random projections and the normalisation model

Models `/repo/gensim/models/rpmodel.py` and `/repo/gensim/models/normmodel.py`. Numbers are reals (the code rounds to
`float32`). The random bits are a parameter.
-/

namespace Verif.Rp

open Verif Verif.Matutils

/-- What can be raised. -/
inductive Err | attribute | value | index | type | assertion
  deriving DecidableEq, Repr

/-- A mapping from ids to words: one given by the user (its ids), or the `FakeDict` made from a corpus. -/
inductive Id2Word
  | user (ids : List Nat)
  | fake (numTerms : Nat)
  deriving DecidableEq

/-- `utils.get_max_id(corpus) + 1` (`utils.py` 711-733, 821). -/
def numTermsOf (corpus : List (List (Nat × ℝ))) : Nat :=
  corpus.foldl (fun m doc => doc.foldl (fun m p => max m (p.1 + 1)) m) 0

/-- `RpModel` (`rpmodel.py` 50-69, 96-103). The projection has one row of signs per topic: `true` is `+1`. -/
structure Model where
  id2word : Option Id2Word
  numTopics : Nat
  /-- `num_terms` and `projection`, absent before `initialize`. -/
  matrix : Option ((n : Nat) × (Fin numTopics → Fin n → Bool))

/-- `RpModel.initialize` (`rpmodel.py` 83-107). `bits` is what `np.random.binomial(1, 0.5, shape)` draws, for any shape; a
drawn 1 becomes -1. Iterating over a `FakeDict` raises `ValueError` past its last id (`utils.py` 757-760). -/
def initModel (m : Model) (corpus : List (List (Nat × ℝ))) (bits : (n : Nat) → Fin m.numTopics → Fin n → Bool) :
    Except Err Model :=
  match m.id2word with
  | none =>
    let n := numTermsOf corpus
    .ok { m with id2word := some (.fake n), matrix := some ⟨n, fun t i => !bits n t i⟩ }
  | some (.user ids) =>
    let n := if ids = [] then 0 else 1 + ids.foldl max 0
    .ok { m with matrix := some ⟨n, fun t i => !bits n t i⟩ }
  | some (.fake n) =>
    if n = 0 then .ok { m with matrix := some ⟨0, fun t i => !bits 0 t i⟩ }
    else .error .value

/-- `RpModel.__init__` (`rpmodel.py` 50-69). -/
def construct (corpus : Option (List (List (Nat × ℝ)))) (id2word : Option (List Nat)) (numTopics : Nat)
    (bits : (n : Nat) → Fin numTopics → Fin n → Bool) : Except Err Model :=
  let m : Model := ⟨id2word.map .user, numTopics, none⟩
  match corpus with
  | none => .ok m
  | some c => initModel m c bits

/-- `+1` or `-1`. -/
def sgn (b : Bool) : ℝ := if b then 1 else -1

/-- `np.dot(self.projection, vec / sqrt(num_topics))` (`rpmodel.py` 146-148). -/
noncomputable def project {k n : Nat} (signs : Fin k → Fin n → Bool) (x : Fin n → ℝ) : Fin k → ℝ :=
  fun t => ∑ i, sgn (signs t i) * (x i / Real.sqrt k)

/-- `RpModel.__getitem__` for one document (`rpmodel.py` 138-152). `np.allclose(v, 0.0)` holds when `|v| ≤ 1e-8`. -/
noncomputable def getitem (m : Model) (doc : List (Nat × ℝ)) : Except Err (List (Nat × ℝ)) :=
  match m.matrix with
  | none => .error .attribute
  | some ⟨n, signs⟩ =>
    match sparse2full doc n with
    | none => .error .index
    | some full =>
      let v := project signs fun i => full.getD i 0
      .ok ((List.finRange m.numTopics).filterMap fun t =>
        open Classical in if ¬ |v t| ≤ 1 / 100000000 then some (t.val, v t) else none)

/-! ### `NormModel` -/

/-- `NormModel` (`normmodel.py` 45-52): the norm (`none`: a name `unitvec` does not know), and `num_docs`, `num_nnz`, `norms`
if there was a corpus. -/
structure NormModel where
  norm : Option Norm
  stats : Option (Nat × Nat × List (List (Nat × ℝ)))

/-- `unitvec(bow, self.norm)` (`matutils.py` 713-715, 762-781). -/
noncomputable def normalize (norm : Option Norm) (bow : List (Nat × ℝ)) : Except Err (List (Nat × ℝ)) :=
  match norm with
  | none => .error .value
  | some nm =>
    match unitvecSparse nm bow with
    | none => .error .assertion
    | some r => .ok r

/-- `NormModel.__init__` and `calc_norm` (`normmodel.py` 45-80). -/
noncomputable def normConstruct (corpus : Option (List (List (Nat × ℝ)))) (norm : Option Norm) : Except Err NormModel :=
  match corpus with
  | none => .ok ⟨norm, none⟩
  | some c => do
    let norms ← c.mapM (normalize norm)
    return ⟨norm, some (c.length, (c.map List.length).sum, norms)⟩

/-- `str(model)` (`normmodel.py` 54-55): what is printed. -/
def normStr (m : NormModel) : Except Err (Nat × Nat) :=
  match m.stats with
  | none => .error .attribute
  | some (docs, nnz, _) => .ok (docs, nnz)

/-- `NormModel.__getitem__` (`normmodel.py` 98-113) for a document. -/
noncomputable def normGetitem (m : NormModel) (bow : List (Nat × ℝ)) : Except Err (List (Nat × ℝ)) := normalize m.norm bow

/-- `NormModel.__getitem__` for a corpus, with norm `l1` or `l2`: `unitvec` takes the corpus for a vector. A first document of two
entries passes for an entry (`matutils.py` 770-774) and its second entry is no number. -/
def normGetitemCorpus (corpus : List (List (Nat × ℝ))) : Except Err (List (List (Nat × ℝ))) :=
  match corpus with
  | [] => .ok []
  | first :: _ => if first.length = 2 then .error .type else .error .value

end Verif.Rp
