/-
Model of the training bookkeeping of gensim/models/ldamodel.py: sufficient statistics
(`LdaState`, lines 148-268), `do_estep` (738-753), `do_mstep` (1030-1063) and the serial branch of
`update` (835-1028).

Statistics are functions from (topic, term) coordinates `ι` to a field `K` (the code uses float
arrays; rounding is not modelled).  The variational inference of a chunk and the re-estimation of the
priors are parameters: arbitrary functions of the current model.
-/
import Verif.Utils.ChunkModel
import Mathlib.Algebra.Field.Basic
import Mathlib.Algebra.Group.Pi.Basic
import Mathlib.Algebra.Order.Ring.Rat

namespace Verif.Lda

open Verif.Chunk

variable {ι K : Type} [Field K]

/-- `LdaState` (ldamodel.py:148-176): the statistics and the number of documents behind them. -/
structure State (ι K : Type) where
  sstats : ι → K
  numdocs : Nat

/-- A fresh `LdaState` (ldamodel.py:155-176). -/
def State.zero : State ι K := ⟨fun _ => 0, 0⟩

/-- `LdaState.merge` (ldamodel.py:178-193). -/
def State.merge (s other : State ι K) : State ι K :=
  ⟨fun j => s.sstats j + other.sstats j, s.numdocs + other.numdocs⟩

/-- The factor that stretches `n` documents to `target` (ldamodel.py:219-222, 226-230). -/
def scaleTo (target n : Nat) : K := if n = 0 ∨ target = n then 1 else (target : K) / (n : K)

/-- `LdaState.blend(rhot, other, targetsize)` (ldamodel.py:195-233). -/
def State.blend (s : State ι K) (rho : K) (other : State ι K) (target : Option Nat) : State ι K :=
  let target := target.getD s.numdocs
  ⟨fun j => s.sstats j * ((1 - rho) * scaleTo target s.numdocs) +
      rho * scaleTo target other.numdocs * other.sstats j, target⟩

/-- What training changes: the state, the priors `alpha` and `eta`, and `num_updates`. -/
structure Trainer (ι K A H : Type) where
  state : State ι K
  alpha : A
  eta : H
  numUpdates : Nat

/-- The numerical parts, left abstract: inference of one chunk (statistics and gammas), the update of
    the priors (identity when they are not optimised), and `rho` as a function of pass and
    `num_updates`. -/
structure Numerics (ι K A H G D : Type) where
  infer : Trainer ι K A H → List D → (ι → K) × G
  updAlpha : A → G → K → A
  updEta : H → State ι K → K → H
  rho : Nat → Nat → K

variable {A H G D : Type}

/-- `gammat = self.do_estep(chunk, other)` and `self.update_alpha(gammat, rho())`
    (ldamodel.py:738-753, 987-990). -/
def estep (nu : Numerics ι K A H G D) (pass : Nat) (s : Trainer ι K A H × State ι K) (chunk : List D) :
    Trainer ι K A H × State ι K :=
  let r := nu.infer s.1 chunk
  ({ s.1 with alpha := nu.updAlpha s.1.alpha r.2 (nu.rho pass s.1.numUpdates) },
   ⟨fun j => s.2.sstats j + r.1 j, s.2.numdocs + chunk.length⟩)

/-- `do_mstep(rho(), other, pass_ > 0)` (ldamodel.py:1030-1063). -/
def mstep (nu : Numerics ι K A H G D) (pass : Nat) (t : Trainer ι K A H) (other : State ι K) :
    Trainer ι K A H :=
  let rho := nu.rho pass t.numUpdates
  let st := t.state.blend rho other none
  { t with state := st, eta := nu.updEta t.eta st rho
           numUpdates := if pass > 0 then t.numUpdates else t.numUpdates + other.numdocs }

/-- The variables of the loop over chunks (ldamodel.py:962-968). -/
structure Loop (ι K A H : Type) where
  tr : Trainer ι K A H
  other : State ι K
  dirty : Bool
  chunkNo : Nat

/-- The body of the loop over chunks (ldamodel.py:968-1009), without the perplexity estimate, which
    changes nothing; `every` is `update_every * numworkers`, 0 in batch mode. -/
def chunkStep (nu : Numerics ι K A H G D) (pass every : Nat) (l : Loop ι K A H) (chunk : List D) :
    Loop ι K A H :=
  let e := estep nu pass (l.tr, l.other) chunk
  if every ≠ 0 ∧ (l.chunkNo + 1) % every = 0 then
    ⟨mstep nu pass e.1 e.2, State.zero, false, l.chunkNo + 1⟩
  else ⟨e.1, e.2, true, l.chunkNo + 1⟩

/-- One pass (ldamodel.py:958-1028). -/
def runPass (nu : Numerics ι K A H G D) (every chunksize : Nat) (corpus : List D)
    (t : Trainer ι K A H) (pass : Nat) : Trainer ι K A H :=
  let l := (chunks chunksize corpus).foldl (chunkStep nu pass every) ⟨t, State.zero, false, 0⟩
  if l.dirty then mstep nu pass l.tr l.other else l.tr

/-- `LdaModel.update(corpus, ...)` without dispatcher (ldamodel.py:835-1028), for a corpus that does
    not change between passes and `chunksize ≥ 1`. -/
def update (nu : Numerics ι K A H G D) (every chunksize passes : Nat) (corpus : List D)
    (t : Trainer ι K A H) : Trainer ι K A H :=
  if corpus.length = 0 then t
  else (List.range passes).foldl (runPass nu every (min corpus.length chunksize) corpus)
    { t with state := { t.state with numdocs := t.state.numdocs + corpus.length } }

end Verif.Lda
