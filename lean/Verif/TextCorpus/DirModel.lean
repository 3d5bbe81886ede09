import Verif.Py.Text

/-!
# Corpora made of the files of a directory (`TextDirectoryCorpus`, `walk`,
gensim/corpora/textcorpus.py 473-690)

A path is the list of its components below the top directory.
-/

namespace Verif.TextCorpus
open Verif Text

/-- The entries of a directory, in the order of `os.listdir`: files with their lines, and directories,
which may be symbolic links. -/
inductive Entries
  | nil
  | file (name : Str) (lines : List Str) (rest : Entries)
  | dir (name : Str) (link : Bool) (inner : Entries) (rest : Entries)

/-- Models `nondirs`, gensim/corpora/textcorpus.py 669-677. -/
def files : Entries → List (Str × List Str)
  | .nil => []
  | .file name lines rest => (name, lines) :: files rest
  | .dir _ _ _ rest => files rest

/-- Models the loop over the subdirectories in `walk` (top-down, links not followed),
gensim/corpora/textcorpus.py 683-690: for each directory its depth, its path and its files. -/
def walkSubs (depth : Nat) (path : List Str) : Entries → List (Nat × List Str × List (Str × List Str))
  | .nil => []
  | .file _ _ rest => walkSubs depth path rest
  | .dir name link inner rest =>
    (if link then []
     else (depth + 1, path ++ [name], files inner) :: walkSubs (depth + 1) (path ++ [name]) inner)
      ++ walkSubs depth path rest

/-- Models `walk`, gensim/corpora/textcorpus.py 623-690. -/
def walk (top : Entries) : List (Nat × List Str × List (Str × List Str)) :=
  (0, [], files top) :: walkSubs 0 [] top

/-- The settings of a corpus, gensim/corpora/textcorpus.py 508-512. -/
structure Config where
  minDepth : Nat
  maxDepth : Nat
  pattern : Option (Str → Bool)
  exclude : Option (Str → Bool)
  linesAreDocuments : Bool

/-- Models the filters on file names, gensim/corpora/textcorpus.py 572-575. -/
def nameOk (cfg : Config) (name : Str) : Bool :=
  (match cfg.pattern with | none => true | some p => p name) &&
    (match cfg.exclude with | none => true | some p => !p name)

/-- The files one directory contributes, gensim/corpora/textcorpus.py 571-578. -/
def dirFiles (cfg : Config) (d : Nat × List Str × List (Str × List Str)) :
    List (List Str × List Str) :=
  if cfg.minDepth ≤ d.1 ∧ d.1 ≤ cfg.maxDepth then
    (d.2.2.filter fun f => nameOk cfg f.1).map fun f => (d.2.1 ++ [f.1], f.2)
  else []

/-- Models `iter_filepaths`, gensim/corpora/textcorpus.py 560-578: paths, with the lines of the
files. -/
def iterFilepaths (cfg : Config) (top : Entries) : List (List Str × List Str) :=
  (walk top).flatMap (dirFiles cfg)

/-- The documents of a file, gensim/corpora/textcorpus.py 591-598: its lines, or its text. -/
def fileDocs (lad : Bool) (strip : Str → Str) (lines : List Str) : List Str :=
  if lad then lines.map strip else [strip lines.flatten]

/-- Models `getstream`, gensim/corpora/textcorpus.py 580-600, with unchanged settings. -/
def stream (strip : Str → Str) (cfg : Config) (top : Entries) : List Str :=
  (iterFilepaths cfg top).flatMap fun f => fileDocs cfg.linesAreDocuments strip f.2

/-- A corpus object: its settings and the cached length. -/
structure Corpus where
  cfg : Config
  length : Option Nat

/-- Models `_cache_corpus_length`, gensim/corpora/textcorpus.py 615-620. -/
def countDocs (strip : Str → Str) (cfg : Config) (top : Entries) : Nat :=
  if cfg.linesAreDocuments then (stream strip cfg top).length else (iterFilepaths cfg top).length

/-- Models `__len__`, gensim/corpora/textcorpus.py 602-613. -/
def len (strip : Str → Str) (top : Entries) (c : Corpus) : Nat × Corpus :=
  match c.length with
  | some n => (n, c)
  | none => (countDocs strip c.cfg top, { c with length := some (countDocs strip c.cfg top) })

/-- What a user does with the corpus. -/
inductive Op
  /-- one of the setters, gensim/corpora/textcorpus.py 515-558: the cached length is forgotten -/
  | configure (cfg : Config)
  /-- iterate to the end: the length is cached, line 600 -/
  | iterate
  /-- begin an iteration and give it up -/
  | abandon
  /-- `len(corpus)` -/
  | length

/-- Models one operation. -/
def apply (strip : Str → Str) (top : Entries) (c : Corpus) : Op → Corpus
  | .configure cfg => { cfg := cfg, length := none }
  | .iterate => { c with length := some (stream strip c.cfg top).length }
  | .abandon => c
  | .length => (len strip top c).2

/-- Models an iteration during which the settings change: the first `k` directories are read with the
settings of `c`, the others with the new ones (the settings are looked up for every directory, the
value of `lines_are_documents` for every file; here it does not change). -/
def iterateChanging (strip : Str → Str) (top : Entries) (c : Corpus) (k : Nat) (cfg : Config) : Corpus :=
  { cfg := cfg
    length := some ((((walk top).take k).flatMap (dirFiles c.cfg)
      ++ ((walk top).drop k).flatMap (dirFiles cfg)).flatMap
        fun f => fileDocs c.cfg.linesAreDocuments strip f.2).length }

end Verif.TextCorpus
