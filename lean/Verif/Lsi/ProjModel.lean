import Mathlib.Data.Matrix.Block
import Mathlib.Data.Real.Basic
import Mathlib.LinearAlgebra.Matrix.Trace

/-!
# Merging decompositions (gensim/models/lsimodel.py `Projection`)

Arithmetic is real.  QR and singular value decomposition are those of a library.  All projections have the
same number `m` of terms, so the check for a mismatch is not modelled.
-/

namespace Verif.Lsi
open Matrix

/-- The result of a QR decomposition. -/
structure Qr (ρ κ : Type) where
  n : ℕ
  q : Matrix ρ (Fin n) ℝ
  r : Matrix (Fin n) κ ℝ

/-- The result of a singular value decomposition. -/
structure Svd (ρ κ : Type) where
  n : ℕ
  u : Matrix ρ (Fin n) ℝ
  s : Fin n → ℝ
  vt : Matrix (Fin n) κ ℝ

/-- The library: `matutils.qr_destroy` and `scipy.linalg.svd(_, full_matrices=False)`. -/
structure Linalg where
  qr : ∀ {ρ κ : Type} [Fintype ρ] [Fintype κ], Matrix ρ κ ℝ → Qr ρ κ
  svd : ∀ {ρ κ : Type} [Fintype ρ] [Fintype κ], Matrix ρ κ ℝ → Svd ρ κ

/-- Models a non-empty `Projection`, gensim/models/lsimodel.py 152-214: `n` columns `u` and their values. -/
structure Proj (m : ℕ) where
  n : ℕ
  u : Matrix (Fin m) (Fin n) ℝ
  s : Fin n → ℝ

/-- Models `rel_spectrum`, gensim/models/lsimodel.py 100. -/
noncomputable def relSpectrum {n : ℕ} (s : Fin n → ℝ) (i : Fin n) : ℝ :=
  |1 - ∑ j with j ≤ i, s j / ∑ j, s j|

/-- Models `clip_spectrum`, gensim/models/lsimodel.py 80-105, for positive `k`.  If all values are 0 the
spectrum is nan, and no comparison holds. -/
noncomputable def clipSpectrum {n : ℕ} (s : Fin n → ℝ) (k : ℕ) (discard : ℝ) : ℕ :=
  let count := if ∑ j, s j = 0 then 0 else
    ((Finset.univ : Finset (Fin n)).filter fun i => relSpectrum s i > min discard (1 / k)).card
  min k (1 + count)

/-- The first `k` columns, `a[:, :k]`. -/
def takeCols {ρ : Type} {n : ℕ} (a : Matrix ρ (Fin n) ℝ) (k : ℕ) : Matrix ρ (Fin (min k n)) ℝ :=
  a.submatrix id (Fin.castLE (min_le_right k n))

/-- Models the matrix `k`, gensim/models/lsimodel.py 269-281: `c` and `r` are as there. -/
def innerMatrix {n1 n2 nq : ℕ} (decay : ℝ) (s1 : Fin n1 → ℝ) (s2 : Fin n2 → ℝ)
    (c : Matrix (Fin n1) (Fin n2) ℝ) (r : Matrix (Fin nq) (Fin n2) ℝ) :
    Matrix (Fin n1 ⊕ Fin nq) (Fin n1 ⊕ Fin n2) ℝ :=
  fromBlocks (diagonal fun i => decay * s1 i) (Matrix.of fun i j => c i j * s2 j)
    0 (Matrix.of fun i j => r i j * s2 j)

/-- Models the canonical signs, gensim/models/lsimodel.py 313-317. -/
noncomputable def canonical {m n : ℕ} (u : Matrix (Fin m) (Fin n) ℝ) : Matrix (Fin m) (Fin n) ℝ :=
  Matrix.of fun i j => if h : 0 < m then (if u ⟨0, h⟩ j < 0 then u i j * -1 else u i j) else u i j

/-- Models `merge` of two non-empty projections, gensim/models/lsimodel.py 259-317; `k` is `self.k`. -/
noncomputable def merge {m : ℕ} (lib : Linalg) (k : ℕ) (decay : ℝ) (p1 p2 : Proj m) : Proj m :=
  let c := p1.uᵀ * p2.u
  let d := lib.qr (p2.u - p1.u * c)
  let e := lib.svd (innerMatrix decay p1.s p2.s c d.r)
  let keep := clipSpectrum (fun i => e.s i ^ 2) k (1 / 1000)
  let uk := takeCols e.u keep
  { n := min keep e.n
    u := canonical (p1.u * uk.submatrix Sum.inl id + d.q * uk.submatrix Sum.inr id)
    s := fun i => e.s (Fin.castLE (min_le_right keep e.n) i) }

/-- Models `merge`, gensim/models/lsimodel.py 227-317; `none` is a projection without documents. -/
noncomputable def mergeInto {m : ℕ} (lib : Linalg) (k : ℕ) (decay : ℝ) (self other : Option (Proj m)) :
    Option (Proj m) :=
  match other with
  | none => self
  | some p2 =>
    match self with
    | none => some p2
    | some p1 => some (merge lib k decay p1 p2)

/-- Models the one-pass loop of `add_documents`, gensim/models/lsimodel.py 489-513: `updates` are the
decompositions of the chunks. -/
noncomputable def addDocuments {m : ℕ} (lib : Linalg) (k : ℕ) (decay : ℝ) (self : Option (Proj m))
    (updates : List (Proj m)) : Option (Proj m) :=
  updates.foldl (fun p upd => mergeInto lib k decay p (some upd)) self

/-- Models `__getitem__` of a document, gensim/models/lsimodel.py 577-609, as a dense vector; `bow` is dense. -/
noncomputable def foldIn {m : ℕ} (p : Proj m) (scaled : Bool) (bow : Fin m → ℝ) : Fin p.n → ℝ :=
  let topicDist := p.uᵀ *ᵥ bow
  if scaled then fun i => 1 / p.s i * topicDist i else topicDist

/-- Models `__getitem__` of a corpus with a `chunksize`, gensim/models/lsimodel.py 569-575: `_apply` transforms
the documents by `__getitem__` with the default arguments. -/
noncomputable def foldInCorpus {m : ℕ} (p : Proj m) (_scaled : Bool) (corpus : List (Fin m → ℝ)) :
    List (Fin p.n → ℝ) := corpus.map (foldIn p false)

end Verif.Lsi
