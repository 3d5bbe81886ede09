import Verif.Lsi.ProjModel
import Verif.Utils.ChunkModel
import Mathlib.Analysis.SpecialFunctions.Sqrt

/-!
# Decomposing a corpus (gensim/models/lsimodel.py `stochastic_svd`, `add_documents`)

Arithmetic is real.  A document is its dense column of `m` weights (`matutils.corpus2csc` is the subject of other
properties).  The numbers drawn are arbitrary: `gauss d` is the row of the random matrix that belongs to document
number `d` of the corpus.  The draws of consecutive chunks are consecutive, and so are the rows, so that the row of
a document does not depend on where the chunks begin.
-/

namespace Verif.Lsi
open Matrix

/-- The term-document matrix of some documents: they are its columns. -/
def colsM {m : ℕ} (docs : List (Fin m → ℝ)) : Matrix (Fin m) (Fin docs.length) ℝ :=
  Matrix.of fun i j => docs[j] i

/-- The random matrix for `n` documents, the first of them number `start`, gensim/models/lsimodel.py 923 and 955. -/
def draws {S : ℕ} (gauss : ℕ → Fin S → ℝ) (start n : ℕ) : Matrix (Fin n) (Fin S) ℝ :=
  Matrix.of fun i => gauss (start + i)

/-- The number of samples, gensim/models/lsimodel.py 905-909. -/
def samples (rank : ℕ) (extraDims : Option ℕ) : ℕ :=
  match extraDims with
  | none => max 10 (2 * rank)
  | some e => rank + e

/-- A matrix `q` of `n` columns. -/
structure Cols (m : ℕ) where
  n : ℕ
  q : Matrix (Fin m) (Fin n) ℝ

/-- `q, _ = matutils.qr_destroy(y)`. -/
noncomputable def orthonormal {m : ℕ} (lib : Linalg) {κ : Type} [Fintype κ] (y : Matrix (Fin m) κ ℝ) : Cols m :=
  ⟨(lib.qr y).n, (lib.qr y).q⟩

/-- Models one chunk of the first phase, gensim/models/lsimodel.py 944-960: the number of documents so far and the
action matrix. -/
def actionStep {m S : ℕ} (gauss : ℕ → Fin S → ℝ) (st : ℕ × Matrix (Fin m) (Fin S) ℝ) (chunk : List (Fin m → ℝ)) :
    ℕ × Matrix (Fin m) (Fin S) ℝ :=
  (st.1 + chunk.length, st.2 + colsM chunk * draws gauss st.1 chunk.length)

/-- Models the loop over the chunks of a power iteration, gensim/models/lsimodel.py 966-975. -/
def powerSum {m n : ℕ} (chunks : List (List (Fin m → ℝ))) (yold : Matrix (Fin m) (Fin n) ℝ) :
    Matrix (Fin m) (Fin n) ℝ :=
  chunks.foldl (fun q chunk => q + colsM chunk * ((colsM chunk)ᵀ * yold)) 0

/-- Models the loop of the second phase, gensim/models/lsimodel.py 992-1000. -/
def covariance {m n : ℕ} (chunks : List (List (Fin m → ℝ))) (qt : Matrix (Fin n) (Fin m) ℝ) :
    Matrix (Fin n) (Fin n) ℝ :=
  chunks.foldl (fun x chunk => x + (qt * colsM chunk) * (qt * colsM chunk)ᵀ) 0

/-- Models the power iterations, gensim/models/lsimodel.py 964-978: `corpus p` is what iteration number `p` over the
corpus gives, and the first of them is `p`. -/
noncomputable def powerIterations {m : ℕ} (lib : Linalg) (chunksize : ℕ) (corpus : ℕ → List (Fin m → ℝ)) :
    ℕ → ℕ → Cols m → Cols m
  | 0, _, q => q
  | iters + 1, p, q =>
    powerIterations lib chunksize corpus iters (p + 1)
      (orthonormal lib (powerSum (Chunk.chunks chunksize (corpus p)) q.q))

/-- Models the end of `stochastic_svd`, gensim/models/lsimodel.py 1008-1016. -/
noncomputable def finish {m n r : ℕ} (rank : ℕ) (eps : ℝ) (q : Matrix (Fin m) (Fin n) ℝ) (u : Matrix (Fin n) (Fin r) ℝ)
    (s : Fin r → ℝ) : Proj m :=
  let keep := clipSpectrum (fun i => s i ^ 2) rank eps
  { n := min keep r
    u := q * takeCols u keep
    s := fun i => s (Fin.castLE (min_le_right keep r) i) }

/-- Models `stochastic_svd` of a streamed corpus, gensim/models/lsimodel.py 905-1016.  The slice `q[:, :samples]` is
not modelled: a decomposition has no more columns than that. -/
noncomputable def streamSvd {m : ℕ} (lib : Linalg) (rank : ℕ) (extraDims : Option ℕ) (powerIters : ℕ) (eps : ℝ)
    (chunksize : ℕ) (corpus : ℕ → List (Fin m → ℝ)) (gauss : ℕ → Fin (samples rank extraDims) → ℝ) : Proj m :=
  let y := ((Chunk.chunks chunksize (corpus 0)).foldl (actionStep gauss) (0, 0)).2
  let q := powerIterations lib chunksize corpus powerIters 1 (orthonormal lib y)
  let x := covariance (Chunk.chunks chunksize (corpus (powerIters + 1))) q.qᵀ
  let e := lib.svd x
  finish rank eps q.q e.u fun i => Real.sqrt (e.s i)

/-- Models the power iterations on a sparse matrix, gensim/models/lsimodel.py 938-941. -/
noncomputable def sparsePower {m n : ℕ} (lib : Linalg) (a : Matrix (Fin m) (Fin n) ℝ) : ℕ → Cols m → Cols m
  | 0, q => q
  | iters + 1, q => sparsePower lib a iters (orthonormal lib (a * (aᵀ * q.q)))

/-- Models `stochastic_svd` of a sparse matrix, gensim/models/lsimodel.py 920-941, 983-987 and 1008-1016; the number of
its first document is `start`. -/
noncomputable def sparseSvd {m : ℕ} (lib : Linalg) (rank : ℕ) (extraDims : Option ℕ) (powerIters : ℕ) (eps : ℝ)
    (docs : List (Fin m → ℝ)) (start : ℕ) (gauss : ℕ → Fin (samples rank extraDims) → ℝ) : Proj m :=
  let y := colsM docs * draws gauss start docs.length
  let q := sparsePower lib (colsM docs) powerIters (orthonormal lib y)
  let e := lib.svd (q.qᵀ * colsM docs)
  finish rank eps q.q e.u e.s

/-- The default of `eps`, gensim/models/lsimodel.py 860. -/
noncomputable def defaultEps : ℝ := 1 / 1000000

/-- An `LsiModel`: `projection` and `docs_processed`, gensim/models/lsimodel.py 394-400. -/
structure LsiState (m : ℕ) where
  projection : Option (Proj m)
  docsProcessed : ℕ

/-- Models one chunk of the one-pass algorithm, gensim/models/lsimodel.py 489-515; `doc_no` is the first component. -/
noncomputable def onePassStep {m : ℕ} (lib : Linalg) (k : ℕ) (extra : Option ℕ) (powerIters : ℕ) (decay : ℝ)
    (gauss : ℕ → Fin (samples k extra) → ℝ) (st : ℕ × Option (Proj m)) (chunk : List (Fin m → ℝ)) :
    ℕ × Option (Proj m) :=
  (st.1 + chunk.length,
    mergeInto lib k decay st.2 (some (sparseSvd lib k extra powerIters defaultEps chunk st.1 gauss)))

/-- Models `add_documents` in one pass, gensim/models/lsimodel.py 485-522, without a dispatcher. -/
noncomputable def addOnePass {m : ℕ} (lib : Linalg) (k : ℕ) (extra : Option ℕ) (powerIters : ℕ) (decay : ℝ)
    (chunksize : ℕ) (gauss : ℕ → Fin (samples k extra) → ℝ) (st : LsiState m) (corpus : List (Fin m → ℝ)) :
    LsiState m :=
  let r := (Chunk.chunks chunksize corpus).foldl (onePassStep lib k extra powerIters decay gauss) (0, st.projection)
  ⟨r.2, st.docsProcessed + r.1⟩

/-- Models `add_documents` in several passes, gensim/models/lsimodel.py 473-482: `len` is the length of the corpus if
it has one. -/
noncomputable def addTwoPass {m : ℕ} (lib : Linalg) (k : ℕ) (extra : Option ℕ) (powerIters : ℕ) (decay : ℝ)
    (chunksize : ℕ) (gauss : ℕ → Fin (samples k extra) → ℝ) (st : LsiState m) (corpus : ℕ → List (Fin m → ℝ))
    (len : Option ℕ) : LsiState m :=
  let update := streamSvd lib k extra powerIters defaultEps chunksize corpus gauss
  ⟨mergeInto lib k decay st.projection (some update), st.docsProcessed + len.getD 0⟩

end Verif.Lsi
