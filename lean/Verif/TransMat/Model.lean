import Mathlib.Data.Real.Sqrt
import Mathlib.Algebra.BigOperators.Fin
import Verif.Py.Dict

/-!
# Model of the translation matrix

Models `/repo/gensim/models/translation_matrix.py`: spaces, training, translation (plain and globally corrected) and
the back-mapping variant. Numbers are reals. `np.linalg.lstsq`, `np.argsort`, the iteration order of Python
sets and the random choice are parameters. A zero vector has no normalised form (numpy gives NaN); the theorems
assume that the vectors used are not zero.
-/

namespace Verif.TransMat

open Verif

/-- What can be raised. -/
inductive Err | key | value | index | runtime | axis
  deriving DecidableEq, Repr

abbrev Vec (d : Nat) := Fin d → ℝ

/-- A linear map, applied to rows: `np.dot(row, matrix)`. -/
abbrev Mat (d e : Nat) := Fin d → Fin e → ℝ

/-- The part of `KeyedVectors` that is used: `index_to_key` and `vectors`. -/
structure KV (W : Type) (d : Nat) where
  keys : List W
  vectors : List (Vec d)

variable {W : Type} [DecidableEq W] {d e : Nat}

/-- `lang_vec.vectors[lang_vec.get_index(item)]` (`translation_matrix.py` 154, 159); `get_index` raises `KeyError`. -/
def rowOf (kv : KV W d) (w : W) : Except Err (Vec d) :=
  match kv.keys.idxOf? w with
  | none => .error .key
  | some i =>
    match kv.vectors[i]? with
    | none => .error .index
    | some v => .ok v

/-- `Space` (`translation_matrix.py` 108-127): the rows and their words. -/
structure Space (W : Type) (d : Nat) where
  mat : List (Vec d)
  index2word : List W

/-- `word2index` (`translation_matrix.py` 125-127): the last position of a word counts. -/
def word2index (s : Space W d) : PyDict W Nat := PyDict.ofPairs s.index2word.zipIdx

/-- `Space.build` (`translation_matrix.py` 146-161); `lexicon` is what the loop iterates over. -/
def build (kv : KV W d) (lexicon : Option (List W)) : Except Err (Space W d) :=
  let words := lexicon.getD kv.keys
  (words.mapM (rowOf kv)).map fun mat => ⟨mat, words⟩

/-- The dot product. -/
def dot (v w : Vec d) : ℝ := ∑ k, v k * w k

/-- One row of `Space.normalize` (`translation_matrix.py` 165). -/
noncomputable def unit (v : Vec d) : Vec d := fun k => v k / Real.sqrt (dot v v)

/-- `Space.normalize` (`translation_matrix.py` 163-165). Without rows there is no second axis to sum over and numpy raises
`AxisError`. -/
noncomputable def normalize (s : Space W d) : Except Err (Space W d) :=
  if s.mat = [] then .error .axis else .ok { s with mat := s.mat.map unit }

/-- `np.dot(v, matrix)` for one row. -/
def mul (v : Vec d) (m : Mat d e) : Vec e := fun j => ∑ k, v k * m k j

/-- `zip(*word_pairs)` unpacked into two names (`translation_matrix.py` 245): `zip` stops at the shortest row. -/
def unzip (rows : List (List W)) : Except Err (List W × List W) :=
  match (rows.map List.length).min? with
  | some 2 => .ok (rows.filterMap fun r => r[0]?, rows.filterMap fun r => r[1]?)
  | _ => .error .value

/-- `space.mat[[space.word2index[item] for item in words], :]` (`translation_matrix.py` 253-254). -/
def rowsFor (s : Space W d) (words : List W) : Except Err (List (Vec d)) :=
  words.mapM fun w =>
    match (word2index s).get? w with
    | none => .error .key
    | some i =>
      match s.mat[i]? with
      | none => .error .index
      | some v => .ok v

/-- `TranslationMatrix.train` (`translation_matrix.py` 245-256). `ord` lists the elements of a Python set. -/
noncomputable def train (ord : List W → List W) (lstsq : List (Vec d) → List (Vec e) → Mat d e) (src : KV W d) (tgt : KV W e)
    (rows : List (List W)) : Except Err (Mat d e) := do
  let (sw, tw) ← unzip rows
  let ss ← build src (some (ord sw))
  let ts ← build tgt (some (ord tw))
  let ss ← normalize ss
  let ts ← normalize ts
  let m1 ← rowsFor ss sw
  let m2 ← rowsFor ts tw
  return lstsq m1 m2

/-- The constructor (`translation_matrix.py` 231-234) with word pairs: only the first pair is checked. -/
noncomputable def construct (ord : List W → List W) (lstsq : List (Vec d) → List (Vec e) → Mat d e) (src : KV W d)
    (tgt : KV W e) (rows : List (List W)) : Except Err (Mat d e) :=
  match rows with
  | [] => .error .index
  | r :: _ => if r.length ≠ 2 then .error .value else train ord lstsq src tgt rows

/-- `apply_transmat` (`translation_matrix.py` 277). -/
def applyTransmat (m : Mat d e) (s : Space W d) : Space W e := ⟨s.mat.map fun v => mul v m, s.index2word⟩

/-- The words of the source space (`translation_matrix.py` 325-336). `choose` is `random_state.choice`. -/
def spaceWords (ord : List W → List W) (choose : List W → Nat → List W) (src : KV W d) (gc : Bool)
    (sampleNum : Option Int) (words : List W) : Except Err (List W) :=
  if gc then
    match sampleNum with
    | none => .error .runtime
    | some n =>
      let lexicon := ord src.keys
      let addition := min n ((lexicon.length : Int) - words.length)
      let pool := lexicon.filter fun w => w ∉ words
      if addition < 0 then .error .value
      else if pool = [] ∧ addition ≠ 0 then .error .value
      else .ok (ord (words ++ choose pool addition.toNat))
  else .ok words

/-- `sim_matrix` (`translation_matrix.py` 347): minus the products, one row for each target word. -/
noncomputable def simMatrix (target mapped : Space W e) : List (List ℝ) :=
  target.mat.map fun t => mapped.mat.map fun s => - dot t s

/-- `np.argsort(np.argsort(row))` (`translation_matrix.py` 351). -/
noncomputable def ranks (srt : List ℝ → List Nat) (row : List ℝ) : List Nat := srt ((srt row).map fun n : Nat => (n : ℝ))

/-- The scores that are sorted (`translation_matrix.py` 350-354). -/
noncomputable def scores (srt : List ℝ → List Nat) (gc : Bool) (sim : List (List ℝ)) : List (List ℝ) :=
  if gc then sim.map fun row => List.zipWith (fun (r : Nat) s => (r : ℝ) + s) (ranks srt row) row
  else sim

/-- One column of a matrix. -/
noncomputable def column (m : List (List ℝ)) (i : Nat) : List ℝ := m.map fun row => row.getD i 0

/-- `translate` (`translation_matrix.py` 304-365), after the defaults are filled in. -/
noncomputable def translate (ord : List W → List W) (choose : List W → Nat → List W) (srt : List ℝ → List Nat)
    (m : Mat d e) (src : KV W d) (tgt : KV W e) (words : List W) (topn : Nat) (gc : Bool) (sampleNum : Option Int) :
    Except Err (PyDict W (List W)) := do
  let lexicon ← spaceWords ord choose src gc sampleNum words
  let source ← build src (some lexicon)
  let target ← build tgt none
  let source ← normalize source
  let target ← normalize target
  let mapped := applyTransmat m source
  let sc := scores srt gc (simMatrix target mapped)
  words.foldlM (fun out w => do
    let found ← (List.range topn).mapM fun j =>
      match (word2index source).get? w with
      | none => Except.error Err.key
      | some i =>
        match (srt (column sc i))[j]? with
        | none => .error .index
        | some p =>
          match target.index2word[p]? with
          | none => .error .index
          | some t => .ok t
    return out.set w found) []

/-- `BackMappingTranslationMatrix.train` (`translation_matrix.py` 438-442): from target to source. `sv` and `tv` are
the flattened tag vectors of the documents. -/
def backTrain (lstsq : List (Vec e) → List (Vec d) → Mat e d) (docs : List (Vec d × Vec e)) : Mat e d :=
  lstsq (docs.map Prod.snd) (docs.map Prod.fst)

/-- `infer_vector` (`translation_matrix.py` 458). -/
def inferVector (m : Mat e d) (v : Vec e) : Vec d := mul v m

end Verif.TransMat
