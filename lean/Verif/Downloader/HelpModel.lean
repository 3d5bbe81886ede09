import Mathlib.Data.Rat.Floor
import Mathlib.Algebra.Order.Floor.Ring
import Mathlib.Algebra.Order.Field.Basic
import Mathlib.Algebra.Order.Ring.Rat
import Mathlib.Tactic.NormNum
import Mathlib.Tactic.Positivity
import Mathlib.Tactic.FieldSimp
import Mathlib.Tactic.Linarith

/-!
# Model of the helpers of `gensim/downloader.py`: creating the data folder, checksums and progress

Three small functions the downloads rest on: `_create_base_dir` (run by any number of processes),
`_calculate_md5_checksum` and the progress display `_progress`.
-/

namespace Verif.Downloader.Help

/-- what is found at the path `BASE_DIR` -/
inductive Node where
  | absent
  | file
  | folder
deriving DecidableEq

/-- where a process is in `_create_base_dir`: before the test of line 150, between the test and
`os.makedirs` (line 153), returned, or raised one of the two exceptions of lines 156-165 -/
inductive Pc where
  | start
  | making
  | done
  | fileExists
  | cannotCreate
deriving DecidableEq

/-- the path and the processes -/
structure St where
  node : Node
  pcs : List Pc
deriving DecidableEq

/-- models downloader.py:150-165: the next system call of a process.  `writable` says whether the parent
folder may be written to; `os.makedirs` reports an existing file or folder before that. -/
def stepPc (writable : Bool) (node : Node) : Pc → Node × Pc
  | .start => (node, if node = .folder then .done else .making)
  | .making =>
    if node = .absent then
      if writable then (.folder, .done) else (node, .cannotCreate)
    else (node, .fileExists)
  | pc => (node, pc)

/-- process `i` makes its next system call -/
def step (writable : Bool) (s : St) (i : Nat) : St :=
  match s.pcs[i]? with
  | none => s
  | some pc => let r := stepPc writable s.node pc; ⟨r.1, s.pcs.set i r.2⟩

/-- the processes run in the order of a schedule -/
def run (writable : Bool) (s : St) (schedule : List Nat) : St := schedule.foldl (step writable) s

/-- models the streaming interface of `hashlib`: `md5()`, `update`, `hexdigest` -/
structure Hasher (β σ δ : Type) where
  fresh : σ
  update : σ → List β → σ
  digest : σ → δ

/-- models downloader.py:184-185, `for chunk in iter(lambda: f.read(4096), b""): hash_md5.update(chunk)`;
`n` is the largest number of bytes of one read, less one, so that a read of a file with bytes left returns
at least one -/
def feed {β σ δ : Type} (h : Hasher β σ δ) (n : Nat) (s : σ) (left : List β) : σ :=
  match left with
  | [] => s
  | b :: bs => feed h n (h.update s ((b :: bs).take (n + 1))) ((b :: bs).drop (n + 1))
termination_by left.length
decreasing_by simp; omega

/-- models downloader.py:168-186 `_calculate_md5_checksum`: reads of 4096 bytes -/
def checksum {β σ δ : Type} (h : Hasher β σ δ) (content : List β) : δ :=
  h.digest (feed h 4095 h.fresh content)

/-- models downloader.py:118-119, `int(math.floor((50 * float(chunks * size)) / total))`; `none` is the
`ZeroDivisionError`.  Floats are rationals. -/
def filledLen (chunks size : Nat) (total : Int) : Option Int :=
  if total = 0 then none
  else some ⌊((50 * (chunks * size : Nat) : ℚ)) / (total : ℚ)⌋

/-- Python's `c * n` for a character: empty when `n` is negative -/
def times (c : Char) (n : Int) : List Char := List.replicate n.toNat c

/-- models downloader.py:121, the bar -/
def bar (chunks size : Nat) (total : Int) : Option (List Char) :=
  (filledLen chunks size total).map fun n => times '=' n ++ times '-' (50 - n)

end Verif.Downloader.Help
