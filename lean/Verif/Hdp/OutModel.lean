import Verif.Py.Dict

/-!
# Model of the files an `HdpModel` writes by itself (`gensim/models/hdpmodel.py` 384-385, 479-480, 825-875)
-/

namespace Verif.Hdp.Out
open Verif

abbrev Name := List Char

inductive Err where
  | noFolder
  | typeError
deriving DecidableEq

/-- the folders that exist and the files with their contents -/
structure Fs (γ : Type) where
  folders : List Name
  files : PyDict Name (List γ)

/-- what is handed to `write`: text or bytes -/
inductive Data (γ : Type) where
  | str (c : List γ)
  | bytes (c : List γ)

/-- models `open(dir + '/' + file, 'wb')` followed by a list of calls of `write`: opening empties the file, a
write of `str` to a file opened in binary mode raises `TypeError` -/
def writeBinary {γ : Type} (fs : Fs γ) (dir file : Name) (ws : List (Data γ)) : Except Err Unit × Fs γ :=
  if dir ∈ fs.folders then
    let path := dir ++ '/' :: file
    go { fs with files := PyDict.set fs.files path [] } path ws
  else (.error .noFolder, fs)
where
  go (fs : Fs γ) (path : Name) : List (Data γ) → Except Err Unit × Fs γ
    | [] => (.ok (), fs)
    | .str _ :: _ => (.error .typeError, fs)
    | .bytes c :: ws => go { fs with files := PyDict.set fs.files path (PyDict.getD fs.files path [] ++ c) } path ws

/-- models hdpmodel.py:852-875 `save_options`; `first` is the text of the first line and `rest` that of the ten
others; the output folder `[]` stands for `None` and for the empty string -/
def saveOptions {γ : Type} (fs : Fs γ) (outputdir : Name) (first : List γ) (rest : List (List γ)) :
    Except Err Unit × Fs γ :=
  if outputdir = [] then (.ok (), fs)
  else writeBinary fs outputdir "options.dat".toList (.str first :: rest.map .str)

/-- models hdpmodel.py:384-390, the end of the constructor: the options are saved, then the model is trained -/
def construct {γ M : Type} (fs : Fs γ) (outputdir : Name) (first : List γ) (rest : List (List γ)) (train : Fs γ → M) :
    Except Err M × Fs γ :=
  if outputdir = [] then (.ok (train fs), fs)
  else
    match saveOptions fs outputdir first rest with
    | (.error e, fs) => (.error e, fs)
    | (.ok (), fs) => (.ok (train fs), fs)

/-- `str` of a non-negative integer -/
def digits (n : Nat) : Name := (Nat.repr n).toList

/-- models hdpmodel.py:842-846, the name of the file of `save_topics` in the folder -/
def topicFile : Option Nat → Name
  | none => "final.topics".toList
  | some n => "doc-".toList ++ digits n ++ ".topics".toList

/-- models hdpmodel.py:839-849 `save_topics(doc_count)`; without an output folder an error is only logged, and
`'%s/%s.topics' % (None, …)` names the folder `None` -/
def saveTopics {γ : Type} (fs : Fs γ) (outputdir : Option Name) (docCount : Option Nat) (table : List γ) :
    Except Err Unit × Fs γ :=
  let dir := match outputdir with
    | none => "None".toList
    | some d => d
  writeBinary fs dir (topicFile docCount) [.bytes table]

end Verif.Hdp.Out
