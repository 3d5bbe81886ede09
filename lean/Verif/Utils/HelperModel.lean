import Verif.Utils.ChunkModel

/-!
# Model of helpers of `gensim/utils.py`: `decode_htmlentities`, `flatten`, `open_file`, `copytree_hardlink`,
`upload_chunked`, `effective_n_jobs`

A text is the list of its code points.
-/

namespace Verif.Helper

/-! ## HTML entities -/

abbrev Txt := List Nat

/-- what Python's libraries supply: the characters `\w`, `int(s)`, `int(s, 16)` and the table `n2cp` of entity names
(`none`: raises or has no entry) -/
structure Env where
  isWord : Nat → Bool
  intDec : Txt → Option Nat
  intHex : Txt → Option Nat
  n2cp : Txt → Option Nat

/-- models `(\w{1,8});` of utils.py:40 at a position: group 3 and what follows the match.  The run of word characters
is taken as a whole because a semicolon is none. -/
def matchName (env : Env) (t : Txt) : Option (Txt × Txt) :=
  let w := t.takeWhile env.isWord
  match t.dropWhile env.isWord with
  | [] => none
  | c :: rest => if c = 59 ∧ 1 ≤ w.length ∧ w.length ≤ 8 then some (w, rest) else none

/-- models `([xX]?)(\w{1,8});`: the optional letter is taken if the rest matches without it, else given back -/
def matchX (env : Env) (t : Txt) : Option (Bool × Txt × Txt) :=
  match t with
  | [] => none
  | c :: r =>
    if c = 120 ∨ c = 88 then
      match matchName env r with
      | some (w, rest) => some (true, w, rest)
      | none => (matchName env t).map fun p => (false, p.1, p.2)
    else (matchName env t).map fun p => (false, p.1, p.2)

/-- models `(#?)([xX]?)(\w{1,8});` after the ampersand (utils.py:40): group 1, group 2, group 3, and what follows; the
`#` is never given back because it is no word character -/
def matchEntity (env : Env) (t : Txt) : Option (Bool × Bool × Txt × Txt) :=
  match t with
  | [] => none
  | c :: r =>
    if c = 35 then (matchX env r).map fun p => (true, p.1, p.2.1, p.2.2)
    else (matchX env t).map fun p => (false, p.1, p.2.1, p.2.2)

/-- models utils.py:1072-1078 `safe_unichr` as called here: outside the range of `chr` the fallback `s.decode` raises -/
def safeUnichr (n : Nat) : Option Nat := if n < 1114112 then some n else none

/-- models utils.py:1106-1126 `substitute_entity`; `none`: the match itself is returned -/
def substitute (env : Env) (hash hex : Bool) (ent : Txt) : Option Nat :=
  if hash then
    if hex then (env.intHex ent).bind safeUnichr else (env.intDec ent).bind safeUnichr
  else
    match env.n2cp ent with
    | some cp => if cp ≠ 0 then safeUnichr cp else none
    | none => none

theorem matchName_length (env : Env) (t : Txt) (p : Txt × Txt) (h : matchName env t = some p) : p.2.length < t.length := by
  unfold matchName at h
  have hd : (t.dropWhile env.isWord).length ≤ t.length := (List.dropWhile_suffix env.isWord).length_le
  revert h
  cases hr : t.dropWhile env.isWord with
  | nil => intro h; cases h
  | cons c rest =>
    intro h
    rw [hr, List.length_cons] at hd
    dsimp only at h
    split at h
    · cases h; exact hd
    · cases h

theorem matchX_length (env : Env) (t : Txt) (p : Bool × Txt × Txt) (h : matchX env t = some p) :
    p.2.2.length < t.length := by
  cases t with
  | nil => cases h
  | cons c r =>
    have hm : ∀ q, (matchName env (c :: r)).map (fun p => (false, p.1, p.2)) = some q → q.2.2.length < (c :: r).length := by
      intro q hq
      obtain ⟨a, ha, rfl⟩ := Option.map_eq_some_iff.1 hq
      exact matchName_length env _ a ha
    unfold matchX at h
    dsimp only at h
    split at h
    · cases hr : matchName env r with
      | none => rw [hr] at h; exact hm p h
      | some q =>
        rw [hr] at h
        cases h
        have := matchName_length env r q hr
        simp only [List.length_cons]
        omega
    · exact hm p h

theorem matchEntity_length (env : Env) (t : Txt) (p : Bool × Bool × Txt × Txt) (h : matchEntity env t = some p) :
    p.2.2.2.length < t.length := by
  cases t with
  | nil => cases h
  | cons c r =>
    unfold matchEntity at h
    dsimp only at h
    split at h
    · obtain ⟨a, ha, rfl⟩ := Option.map_eq_some_iff.1 h
      have := matchX_length env r a ha
      simp only [List.length_cons]
      omega
    · obtain ⟨a, ha, rfl⟩ := Option.map_eq_some_iff.1 h
      exact matchX_length env _ a ha

/-- models utils.py:1128 `RE_HTML_ENTITY.sub(substitute_entity, text)`: leftmost matches that do not overlap -/
def decode (env : Env) (t : Txt) : Txt :=
  match t with
  | [] => []
  | c :: r =>
    if c = 38 then
      match h : matchEntity env r with
      | some (hash, hex, ent, rest) =>
        have := matchEntity_length env r _ h
        match substitute env hash hex ent with
        | some cp => cp :: decode env rest
        | none => c :: (r.take (r.length - rest.length) ++ decode env rest)
      | none => c :: decode env r
    else c :: decode env r
termination_by t.length
decreasing_by all_goals (simp_all; try omega)

/-! ## Nested lists -/

/-- an element of a nested list: a string, bytes, another object that cannot be iterated, or an iterable -/
inductive Item where
  | atom (n : Nat)
  | str (s : Txt)
  | bytes (b : List Nat)
  | seq (l : List Item)

/-- models utils.py:1962-1967 `lazy_flatten`; the integers that iterating over bytes gives are atoms -/
def flatten : List Item → List Item
  | [] => []
  | .atom n :: l => .atom n :: flatten l
  | .str s :: l => .str s :: flatten l
  | .bytes b :: l => b.map .atom ++ flatten l
  | .seq s :: l => flatten s ++ flatten l

/-! ## Opened files -/

/-- the argument of `open_file`: a file name, or an open file with its position -/
inductive Input where
  | name
  | file (pos : Nat)

/-- how the body of the `with` statement ends: normally, with an `Exception`, or with another exception (interrupt,
exit, a closed generator) -/
inductive Body where
  | normal
  | exception
  | other
deriving DecidableEq

/-- what is left: where reading began, whether the file was closed, whether the exception is passed on -/
structure Left where
  start : Nat
  closed : Bool
  raised : Bool
deriving DecidableEq

/-- models utils.py:125-131, 149-161 `open_file`; `silence` is what `__exit__` of the opened file returns (false for
every file) -/
def openFile (silence : Bool) (input : Input) (body : Body) : Left :=
  let isName := match input with
    | .name => true
    | .file _ => false
  match body with
  | .normal => ⟨0, isName, false⟩
  | .exception =>
    -- `not isinstance(input, str) or not mgr.__exit__(...)`
    if isName then ⟨0, true, !silence⟩ else ⟨0, false, true⟩
  | .other => ⟨0, isName, true⟩

/-! ## Hard links -/

/-- the function `shutil.copy2` refers to -/
inductive Fn where
  | copy
  | link
deriving DecidableEq

/-- a call of `copytree_hardlink` in a thread: what it has still to do, the function it saved, and what the files were
copied with -/
structure Thread where
  pc : Nat
  saved : Fn
  used : Option Fn
deriving DecidableEq

/-- models utils.py:209-214: the next step of a call; the state is `shutil.copy2`.  Step 2 is `copytree`, also if it
raises. -/
def linkStep (g : Fn) (t : Thread) : Fn × Thread :=
  match t.pc with
  | 0 => (g, { t with pc := 1, saved := g })
  | 1 => (.link, { t with pc := 2 })
  | 2 => (g, { t with pc := 3, used := some g })
  | 3 => (t.saved, { t with pc := 4 })
  | _ => (g, t)

/-- threads taking turns: each entry of the schedule is the thread that makes its next step -/
def linkRun : List Nat → Fn × (Nat → Thread) → Fn × (Nat → Thread)
  | [], s => s
  | i :: sched, s =>
    let r := linkStep s.1 (s.2 i)
    linkRun sched (r.1, fun j => if j = i then r.2 else s.2 j)

/-! ## Uploading -/

/-- a document of a document server: its text and its tokens, if any -/
structure Document where
  text : Option Txt
  tokens : Option (List Txt)
deriving DecidableEq

/-- models utils.py:1534-1540 for one chunk: the documents as changed in place, and whether one has no text
(`KeyError`) -/
def prepare (pre : Txt → List Txt) : List Document → List Document × Bool
  | [] => ([], true)
  | d :: ds =>
    match d.text with
    | none => (d :: ds, false)
    | some t =>
      let r := prepare pre ds
      (⟨none, some (pre t)⟩ :: r.1, r.2)

/-- models utils.py:1530-1542 over the chunks: what the server got, the documents afterwards, success -/
def uploadLoop (pre : Option (Txt → List Txt)) : List (List Document) → List (List Document) × List Document × Bool
  | [] => ([], [], true)
  | chunk :: cs =>
    match pre with
    | none =>
      let r := uploadLoop pre cs
      (chunk :: r.1, chunk ++ r.2.1, r.2.2)
    | some p =>
      let q := prepare p chunk
      if q.2 then
        let r := uploadLoop pre cs
        (q.1 :: r.1, q.1 ++ r.2.1, r.2.2)
      else ([], q.1 ++ cs.flatten, false)

/-- models utils.py:1519-1542 `upload_chunked` -/
def upload (pre : Option (Txt → List Txt)) (chunksize : Nat) (docs : List Document) :
    List (List Document) × List Document × Bool :=
  uploadLoop pre (Chunk.chunks chunksize docs)

/-! ## Jobs -/

/-- models utils.py:2002-2008 `effective_n_jobs`; `none` as the result: `ValueError` -/
def effectiveNJobs (cpus : Nat) (n : Option Int) : Option Int :=
  match n with
  | none => some 1
  | some n => if n = 0 then none else if n < 0 then some (max (cpus + 1 + n) 1) else some n

end Verif.Helper
