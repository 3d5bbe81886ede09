/-
Model of gensim/models/nmf.py (class `Nmf`) and gensim/models/nmf_pgd.pyx (`solve_h`).

Words are a finite type `I`, topics a finite type `K`; `_W` is a matrix `I → K → ℝ`, a document a
vector `I → ℝ`, its representation a vector `K → ℝ` (a column of `h`).  Arithmetic is over the reals.
`_W` is `none` once all its entries are NaN.  The iteration limits and stopping rules of the two inner
loops only decide how often they run: the numbers of iterations are left open (`sweeps`, `wIters`), and
so are all random choices.
-/
import Mathlib.Analysis.SpecialFunctions.Pow.Real
import Mathlib.Algebra.BigOperators.Field

namespace Verif.Nmf

variable {I K : Type} [Fintype I] [Fintype K] [DecidableEq K] [DecidableEq I]

/-- `WtW` (nmf.py:751). -/
def gram (W : I → K → ℝ) (k l : K) : ℝ := ∑ i, W i k * W i l

/-- `Wtv`, one column (nmf.py:758). -/
def proj (W : I → K → ℝ) (v : I → ℝ) (k : K) : ℝ := ∑ i, W i k * v i

/-- The body of `solve_h` for one sample and one component (nmf_pgd.pyx:44-60).  For a zero `hessian`
    the column of `W` is zero, the gradient is 0/0 = NaN, and `fmax(NaN, 0.)` is 0. -/
noncomputable def coord (G : K → K → ℝ) (b : K → ℝ) (kappa : ℝ) (h : K → ℝ) (k : K) : K → ℝ :=
  let grad := -b k + ∑ l, G k l * h l
  Function.update h k (if G k k = 0 then 0 else max (h k - grad * kappa / G k k) 0)

/-- `solve_h` for one sample: the components in the order of `permutation` (nmf_pgd.pyx:43-60). -/
noncomputable def sweep (G : K → K → ℝ) (b : K → ℝ) (kappa : ℝ) (h : K → ℝ) (perm : List K) : K → ℝ :=
  perm.foldl (coord G b kappa) h

/-- `_solveproj` for one document (nmf.py:747-771), one permutation per iteration.  With a NaN matrix
    the components become 0, as `fmax(NaN, 0.)` is 0. -/
noncomputable def solveProj (W : Option (I → K → ℝ)) (kappa : ℝ) (sweeps : List (List K)) (v : I → ℝ) (h0 : K → ℝ) :
    K → ℝ :=
  match W with
  | some W => sweeps.foldl (sweep (gram W) (proj W v) kappa) h0
  | none => if sweeps = [] then h0 else fun _ => 0

/-- `np.clip(self._W, 0, self.v_max)` (nmf.py:711). -/
noncomputable def clip (vMax : WithTop ℝ) (x : ℝ) : ℝ :=
  match vMax with
  | ⊤ => max x 0
  | (m : ℝ) => min (max x 0) m

/-- `_transform` (nmf.py:709-714). -/
noncomputable def transform (vMax : WithTop ℝ) (W : I → K → ℝ) (i : I) (k : K) : ℝ :=
  clip vMax (W i k) / max (Real.sqrt (∑ j, clip vMax (W j k) * clip vMax (W j k))) 1

/-- `np.linalg.norm(self.A)` (nmf.py:668). -/
noncomputable def frob (A : K → K → ℝ) : ℝ := Real.sqrt (∑ k, ∑ l, A k l * A k l)

/-- `self._W.dot(self.A)` (nmf.py:673). -/
def dotA (W : I → K → ℝ) (A : K → K → ℝ) (i : I) (k : K) : ℝ := ∑ l, W i l * A l k

/-- `error(WA)` (nmf.py:664-666). -/
noncomputable def wError (A : K → K → ℝ) (B : I → K → ℝ) (W : I → K → ℝ) : ℝ :=
  1 / 2 * ∑ i, ∑ k, dotA W A i k * W i k - ∑ i, ∑ k, W i k * B i k

/-- One iteration of `_solve_w` (nmf.py:673, 685-686). -/
noncomputable def wStep (kappa : ℝ) (vMax : WithTop ℝ) (A : K → K → ℝ) (B : I → K → ℝ) (W : I → K → ℝ) :
    I → K → ℝ :=
  transform vMax fun i k => W i k - kappa / frob A * (dotA W A i k - B i k)

/-- `_solve_w` (nmf.py:661-686).  For `A = 0` the step size is infinite, and as then `B = 0` too, all
    entries become inf * 0 = NaN. -/
noncomputable def solveW (kappa : ℝ) (vMax : WithTop ℝ) (A : K → K → ℝ) (B : I → K → ℝ) (n : ℕ)
    (W : Option (I → K → ℝ)) : Option (I → K → ℝ) :=
  if n = 0 then W else if frob A = 0 then none else W.map fun W => (wStep kappa vMax A B)^[n] W

/-- What training changes (nmf.py:194-208). -/
structure State (I K : Type) where
  W : Option (I → K → ℝ)
  started : Bool
  A : K → K → ℝ
  B : I → K → ℝ
  h : Option (List (K → ℝ))
  vMax : Option (WithTop ℝ)

/-- A new model (nmf.py:194-208). -/
def State.new : State I K := ⟨none, false, fun _ _ => 0, fun _ _ => 0, none, none⟩

/-- One chunk: its documents, `v.max()`, the random initial matrix (used by the first chunk only), the
    permutations, and the number of iterations of `_solve_w`. -/
structure Chunk (I K : Type) where
  docs : List (I → ℝ)
  top : ℝ
  w0 : I → K → ℝ
  sweeps : List (List K)
  wIters : ℕ

/-- `if self._W is None: self._setup(v)` (nmf.py:632-636, 512-531). -/
def setup (s : State I K) (c : Chunk I K) : State I K :=
  if s.started then s else { s with W := some c.w0, started := true, A := fun _ _ => 0, B := fun _ _ => 0 }

/-- The start of the representations: those of the previous chunk if it was as long, otherwise zeros
    (nmf.py:744-748). -/
def warmStart (s : State I K) (n : ℕ) : List (K → ℝ) :=
  match s.h with
  | some h => if h.length = n then h else List.replicate n fun _ => 0
  | none => List.replicate n fun _ => 0

/-- The body of the loop over chunks (nmf.py:612-657), for the chunk number `idx` of the call. -/
noncomputable def trainChunk (kappa : ℝ) (idx : ℕ) (s : State I K) (c : Chunk I K) : State I K :=
  let s := setup s c
  let vMax := s.vMax.getD (c.top : WithTop ℝ)
  let h := List.zipWith (solveProj s.W kappa c.sweeps) c.docs (warmStart s c.docs.length)
  let A := fun k l => (s.A k l * ((idx : ℝ) - 1) + (h.map fun x => x k * x l).sum) / idx
  let B := fun i k => (s.B i k * ((idx : ℝ) - 1) + ((List.zip c.docs h).map fun x => x.1 i * x.2 k).sum) / idx
  { s with W := solveW kappa vMax A B c.wIters s.W, A := A, B := B, h := some h, vMax := some vMax }

/-- One call of `update` (nmf.py:597-659): the chunks of all its passes, numbered from 1. -/
noncomputable def updateFrom (kappa : ℝ) (start : ℕ) (s : State I K) (cs : List (Chunk I K)) : State I K :=
  (cs.foldl (fun x c => (trainChunk kappa x.2 x.1 c, x.2 + 1)) (s, start)).1

/-- `update(corpus)` (nmf.py:543-659). -/
noncomputable def update (kappa : ℝ) (s : State I K) (cs : List (Chunk I K)) : State I K := updateFrom kappa 1 s cs

/-! ## Queries -/

/-- `get_topics` (nmf.py:213-233). -/
noncomputable def getTopics (W : I → K → ℝ) (normalize : Bool) (k : K) (i : I) : ℝ :=
  if normalize then W i k / ∑ j, W j k else W i k

/-- `get_topic_terms` (nmf.py:333-360): the weights of the words, and the matrix afterwards:
    `topic` is a view of a column, so `topic /= topic.sum()` writes to it. -/
noncomputable def getTopicTerms (W : I → K → ℝ) (normalize : Bool) (k : K) : (I → ℝ) × (I → K → ℝ) :=
  let W' := if normalize then fun i l => if l = k then W i l / ∑ j, W j k else W i l else W
  (fun i => W' i k, W')

/-- `get_term_topics` (nmf.py:417-461): the weights of the topics before the threshold, and the matrix
    afterwards: `word_topics` is a view of a row. -/
noncomputable def getTermTopics (W : I → K → ℝ) (normalize : Bool) (i : I) : (K → ℝ) × (I → K → ℝ) :=
  let W' := if normalize ∧ 0 < ∑ l, W i l then fun j k => if j = i then W j k / ∑ l, W i l else W j k else W
  (fun k => W' i k, W')

/-- `get_document_topics(bow)` (nmf.py:485-510): the topics listed, and the state afterwards: the call
    `_solveproj(v, self._W, v_max=np.inf)` stores its `v_max` (nmf.py:739-740). -/
noncomputable def getDocumentTopics {n : ℕ} (kappa : ℝ) (s : State I (Fin n)) (sweeps : List (List (Fin n)))
    (normalize : Bool) (minProb : ℝ) (v : I → ℝ) : List (Fin n × ℝ) × State I (Fin n) :=
  let h := solveProj s.W kappa sweeps v fun _ => 0
  let h' := if normalize ∧ ∑ k, h k ≠ 0 then fun k => h k / ∑ l, h l else h
  (((List.finRange n).map fun k => (k, h' k)).filter fun x => decide (max minProb (1 / 10 ^ 8) < x.2),
   { s with vMax := some ⊤ })

end Verif.Nmf
