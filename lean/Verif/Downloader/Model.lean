import Mathlib.Data.Nat.Notation
import Mathlib.Logic.Function.Basic
import Verif.Py.Dict

/-!
# The downloader

`gensim/downloader.py`: `info`, `_load_info`, `_get_checksum`, `_get_parts`, `_get_filename`, `_download` and
`load` (189-503).

The folder `BASE_DIR` is a table from names to files and directories, shared by any number of processes that
download at the same time; the temporary folder a process fills before it moves it (`tempfile.mkdtemp`, 363)
is its own.  One event advances one process by one step, so a list of events is a schedule; a process may
be killed between any two steps.

Simplifications: the list of data sets does not change while a process downloads; MD5 is an arbitrary
function; the copy of a folder between file systems goes file by file and byte block by byte block, and a
block written to a folder that has meanwhile been renamed is an error; progress output is left out.
-/

namespace Verif.Downloader

open Verif

/-- File and data set names. -/
abbrev Name := List Char

/-- File contents. -/
abbrev Bytes := List ℕ

/-- What `information.json` says about one data set. -/
structure Entry (D : Type) where
  /-- `"file_name"` -/
  fileName : Name
  /-- `"parts"` -/
  parts : ℕ
  /-- `"checksum"`, if there is one -/
  checksum : Option D
  /-- `"checksum-<i>"`, if there is one -/
  partChecksum : ℕ → Option D
  /-- `"latest"`, if there is one -/
  latest : Option Bool

/-- The list of data sets: `information['corpora']` and `information['models']`. -/
structure Catalogue (D : Type) where
  /-- `information['corpora']` -/
  corpora : PyDict Name (Entry D)
  /-- `information['models']` -/
  models : PyDict Name (Entry D)

variable {D : Type}

/-- `data.get("latest", True)` (`downloader.py` 287). -/
def Entry.isLatest (e : Entry D) : Bool := e.latest.getD true

/-- `{name: data for … if data.get("latest", True)}` (`downloader.py` 287-288). -/
def onlyLatest (d : PyDict Name (Entry D)) : PyDict Name (Entry D) := d.filter fun p => p.2.isLatest

/-- `info()` (`downloader.py` 286-289). -/
def infoLatest (c : Catalogue D) : Catalogue D := ⟨onlyLatest c.corpora, onlyLatest c.models⟩

/-- `info(name)` (`downloader.py` 270-278); `none` is the `ValueError`. -/
def infoName (c : Catalogue D) (name : Name) : Option (Entry D) :=
  match PyDict.get? c.corpora name with
  | some e => some e
  | none => PyDict.get? c.models name

/-- `info(name_only=True)` (`downloader.py` 283-284). -/
def infoNames (c : Catalogue D) : List Name × List Name := (PyDict.keys c.corpora, PyDict.keys c.models)

/-- The entry `_get_checksum`, `_get_parts` and `_get_filename` look at (`downloader.py` 308-320, 337-343,
426-432); `none` where they return `None`. -/
def lookup (c : Catalogue D) (name : Name) : Option (Entry D) := infoName (infoLatest c) name

/-- A folder: its files, and the folders in it (which only appear when two processes move at the same
time). -/
structure Dir where
  /-- the files -/
  files : List (Name × Bytes)
  /-- the folders -/
  subs : List (List (Name × Bytes))
deriving DecidableEq

/-- An entry of `BASE_DIR`. -/
inductive Node
  | file (b : Bytes)
  | dir (d : Dir)
deriving DecidableEq

/-- `"__init__.py"` -/
def initName : Name := "__init__.py".toList

/-- `"{fname}.gz"` (`downloader.py` 368, 394). -/
def gzName (name : Name) : Name := name ++ ".gz".toList

/-- `data_folder_dir + '_tmp'` (`downloader.py` 362). -/
def tmpName (name : Name) : Name := name ++ "_tmp".toList

/-- What a process that runs `load` is about to do. -/
inductive Pc
  /-- fetch `__init__.py` (365) -/
  | fetchInit
  /-- fetch the next part; the parts fetched and verified so far are kept (370-385, 393-403) -/
  | fetchPart (init : Bytes) (got : List Bytes)
  /-- everything fetched and concatenated; look for the folder `…_tmp` (405) -/
  | check (files : List (Name × Bytes))
  /-- move the folder to `…_tmp` (408) -/
  | move (files : List (Name × Bytes))
  /-- copying between file systems: `nested` says whether the copy is inside `…_tmp`; files left -/
  | copy (nested : Bool) (left : List (Name × Bytes))
  /-- rename `…_tmp` to the final name (409) -/
  | rename
  /-- `load` returns -/
  | done
  /-- an exception was raised, or the process was killed -/
  | dead
deriving DecidableEq

/-- `BASE_DIR`. -/
abbrev Fs := Name → Option Node

/-- A process: the data set it loads and where it is. -/
structure Proc where
  /-- the argument of `load` -/
  name : Name
  /-- where it is -/
  pc : Pc
deriving DecidableEq

/-- The state of the machine. -/
structure State where
  /-- `BASE_DIR` -/
  fs : Fs
  /-- the processes -/
  procs : ℕ → Option Proc

/-- What may happen. -/
inductive Event
  /-- process `pid` calls `load(name)` -/
  | load (pid : ℕ) (name : Name)
  /-- the network gives process `pid` these bytes, or fails -/
  | net (pid : ℕ) (answer : Option Bytes)
  /-- process `pid` does its next step on the disk; `n` is the size of the block it writes -/
  | go (pid : ℕ) (n : ℕ)
  /-- process `pid` is killed -/
  | kill (pid : ℕ)

/-- `load` up to the decision to download (`downloader.py` 489-496). -/
def loadStart (cat : Catalogue D) (fs : Fs) (name : Name) : Proc :=
  match lookup cat name with
  | none => ⟨name, .dead⟩
  | some _ => if (fs name).isSome then ⟨name, .done⟩ else ⟨name, .fetchInit⟩

/-- The folder filled by `_download`: `__init__.py` and the concatenated parts (`downloader.py` 386-391). -/
def filled (name : Name) (init : Bytes) (parts : List Bytes) : List (Name × Bytes) :=
  [(initName, init), (gzName name, parts.flatten)]

/-- A download of `__init__.py`, of the one file or of the next part (`downloader.py` 365-403). -/
def netStep [DecidableEq D] (md5 : Bytes → D) (cat : Catalogue D) (p : Proc) (answer : Option Bytes) :
    Proc :=
  match p.pc, answer with
  | .fetchInit, some b => ⟨p.name, .fetchPart b []⟩
  | .fetchPart init got, some b =>
    match lookup cat p.name with
    | none => ⟨p.name, .dead⟩
    | some e =>
      if 1 < e.parts then
        if some (md5 b) = e.partChecksum got.length then
          if got.length + 1 = e.parts then ⟨p.name, .check (filled p.name init (got ++ [b]))⟩
          else ⟨p.name, .fetchPart init (got ++ [b])⟩
        else ⟨p.name, .dead⟩
      else
        if some (md5 b) = e.checksum then ⟨p.name, .check (filled p.name init [b])⟩
        else ⟨p.name, .dead⟩
  | .fetchInit, none => ⟨p.name, .dead⟩
  | .fetchPart _ _, none => ⟨p.name, .dead⟩
  | _, _ => p

/-- Whether an open copy may create its next file or block: write `n` more bytes of the first file left. -/
def writeBlock (files : List (Name × Bytes)) (f : Name) (b : Bytes) : List (Name × Bytes) :=
  match files with
  | [] => [(f, b)]
  | (g, c) :: rest => if g = f then (g, c ++ b) :: rest else (g, c) :: writeBlock rest f b

/-- `shutil.move(tmp_dir, data_folder_dir_tmp)` (`downloader.py` 408): an atomic rename on one file system,
else the creation of the target folder; into the target if that is already a folder. -/
def moveStep (cross : Bool) (fs : Fs) (name : Name) (files : List (Name × Bytes)) : Fs × Pc :=
  let t := tmpName name
  match fs t with
  | none =>
    if cross then (Function.update fs t (some (.dir ⟨[], []⟩)), .copy false files)
    else (Function.update fs t (some (.dir ⟨files, []⟩)), .rename)
  | some (.dir d) =>
    if cross then (Function.update fs t (some (.dir ⟨d.files, d.subs ++ [[]]⟩)), .copy true files)
    else (Function.update fs t (some (.dir ⟨d.files, d.subs ++ [files]⟩)), .rename)
  | some (.file _) => (fs, .dead)

/-- One block of the copy between file systems. -/
def copyStep (fs : Fs) (name : Name) (nested : Bool) (left : List (Name × Bytes)) (n : ℕ) : Fs × Pc :=
  let t := tmpName name
  match fs t with
  | some (.dir d) =>
    match left with
    | [] => (fs, .rename)
    | (f, b) :: rest =>
      let left' := if b.drop n = [] then rest else (f, b.drop n) :: rest
      if nested then (fs, .copy nested left')
      else (Function.update fs t (some (.dir ⟨writeBlock d.files f (b.take n), d.subs⟩)), .copy nested left')
  | _ => (fs, .dead)

/-- `os.rename(data_folder_dir_tmp, data_folder_dir)` (`downloader.py` 409): fails if there is nothing to
rename or the target is a file or a folder with something in it. -/
def renameStep (fs : Fs) (name : Name) : Fs × Pc :=
  match fs (tmpName name), fs name with
  | some x, none => (Function.update (Function.update fs (tmpName name) none) name (some x), .done)
  | some (.dir d), some (.dir ⟨[], []⟩) =>
    (Function.update (Function.update fs (tmpName name) none) name (some (.dir d)), .done)
  | _, _ => (fs, .dead)

/-- A step on the disk (`downloader.py` 405-409). -/
def diskStep (cross : Bool) (fs : Fs) (p : Proc) (n : ℕ) : Fs × Pc :=
  match p.pc with
  | .check files =>
    match fs (tmpName p.name) with
    | none => (fs, .move files)
    | some (.file _) => (Function.update fs (tmpName p.name) none, .move files)
    | some (.dir _) => (fs, .dead)
  | .move files => moveStep cross fs p.name files
  | .copy nested left => copyStep fs p.name nested left n
  | .rename => renameStep fs p.name
  | pc => (fs, pc)

/-- One event.  `cross` says whether temporary folders live on another file system than `BASE_DIR`. -/
def step [DecidableEq D] (md5 : Bytes → D) (cat : Catalogue D) (cross : Bool) (s : State) : Event → State
  | .load pid name =>
    match s.procs pid with
    | none => { s with procs := Function.update s.procs pid (some (loadStart cat s.fs name)) }
    | some _ => s
  | .net pid a =>
    match s.procs pid with
    | none => s
    | some p => { s with procs := Function.update s.procs pid (some (netStep md5 cat p a)) }
  | .go pid n =>
    match s.procs pid with
    | none => s
    | some p =>
      let r := diskStep cross s.fs p n
      ⟨r.1, Function.update s.procs pid (some ⟨p.name, r.2⟩)⟩
  | .kill pid =>
    match s.procs pid with
    | none => s
    | some p => { s with procs := Function.update s.procs pid (some ⟨p.name, .dead⟩) }

/-- A schedule. -/
def run [DecidableEq D] (md5 : Bytes → D) (cat : Catalogue D) (cross : Bool) (s : State)
    (es : List Event) : State :=
  es.foldl (step md5 cat cross) s

/-! ### The list of data sets and its cache -/

/-- `_load_info` (`downloader.py` 195-225): the answer of the server or its failure, the contents of the
cache file `information.json`; the result and the cache afterwards.  `parse` is decoding and `json.load`. -/
def loadInfo {I : Type} (parse : Bytes → Option I) (answer : Option Bytes) (cache : Option Bytes) :
    Option I × Option Bytes :=
  let cache' := match answer with
    | some b => some b
    | none => cache
  match cache' with
  | none => (none, cache')
  | some b => (parse b, cache')

end Verif.Downloader
