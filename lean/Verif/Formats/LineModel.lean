import Mathlib.Data.Nat.Basic
import Verif.Py.Text
import Verif.Py.Dict

/-!
# Model of the line-per-document corpus formats

SVMlight (`gensim/corpora/svmlightcorpus.py`), Blei's LDA-C (`bleicorpus.py`), list-of-words
(`lowcorpus.py`) and Mallet (`malletcorpus.py`).

A file is a list of characters.  Simplified: positions count characters where the code counts UTF-8 bytes;
either way the recorded position is the start of a line.  Numbers are written and read by a `Codec`.
-/

namespace Verif.Formats
open Verif Text PyDict

variable {V : Type}

/-- the list comprehension of a function that may raise -/
def mapOpt {α β : Type} (f : α → Option β) : List α → Option (List β)
  | [] => some []
  | a :: as => (f a).bind (fun b => (mapOpt f as).map (fun bs => b :: bs))

/-- `s.rsplit(c, 1)` when it gives two parts -/
def rsplit1 (c : Char) : Str → Option (Str × Str)
  | [] => none
  | x :: xs => match rsplit1 c xs with
    | some (a, b) => some (x :: a, b)
    | none => if x = c then some ([], xs) else none

/-- the saving loop of all four classes: `offsets.append(fout.tell()); fout.write(line)`;
svmlightcorpus.py:118-122, bleicorpus.py:152-156, lowcorpus.py:227-236, malletcorpus.py:219-234 -/
def saveLines (start : Str) (lines : List Str) : Str × List Nat :=
  lines.foldl (fun s l => (s.1 ++ l, s.2 ++ [s.1.length])) (start, [])

/-- `f.seek(offset); f.readline()` -/
def readlineAt (file : Str) (offset : Nat) : Str := (pyLines (file.drop offset)).head?.getD []

/-! ## SVMlight -/

/-- models svmlightcorpus.py:171-189 `doc2line` -/
def svmDoc2line (C : Codec V) (label : Str) (doc : List (Nat × V)) : Str :=
  label ++ ' ' :: (joinWith [' '] (doc.map (fun p => showNat (p.1 + 1) ++ ':' :: C.enc p.2)) ++ ['\n'])

/-- models `line[: line.find('#')]`, svmlightcorpus.py:158; `find` is -1 without a '#' -/
def cutComment (line : Str) : Str := if '#' ∈ line then line.takeWhile (· ≠ '#') else line.dropLast

/-- one field of svmlightcorpus.py:164-166: outer `none` an exception, inner `none` a dropped `qid` -/
def svmField (C : Codec V) (part : Str) : Option (Option (Int × V)) :=
  match rsplit1 ':' part with
  | none => none
  | some (p1, p2) =>
    if p1 = ['q', 'i', 'd'] then some none
    else match readInt p1, C.dec p2 with
      | some i, some v => some (some (i - 1, v))
      | _, _ => none

/-- models svmlightcorpus.py:143-168 `line2doc`; outer `none`: an exception, inner `none`: the result `None` -/
def svmLine2doc (C : Codec V) (line : Str) : Option (Option (List (Int × V) × Str)) :=
  match splitWs uws (strip uws (cutComment line)) with
  | [] => some none
  | target :: fields => (mapOpt (svmField C) fields).map (fun ds => some (ds.filterMap id, target))

/-- models svmlightcorpus.py:86-122 `save_corpus`: file and offsets; `labels` as they are printed,
`none` for `False`; result `none`: IndexError for too few labels -/
def svmSave (C : Codec V) (labels : Option (List Str)) (corpus : List (List (Nat × V))) :
    Option (Str × List Nat) :=
  let lab : List Str := labels.getD []
  (mapOpt (fun p : List (Nat × V) × Nat =>
    (if lab = [] then some ['0'] else lab[p.2]?).map (fun l => svmDoc2line C l p.1))
    corpus.zipIdx).map (saveLines [])

/-- models svmlightcorpus.py:66-83 `__iter__`: the documents, `self.labels` and `self.length` -/
def svmIter (C : Codec V) (file : Str) : Option (List (List (Int × V)) × List Str × Nat) :=
  (mapOpt (svmLine2doc C) (pyLines file)).map (fun rs =>
    ((rs.filterMap id).map Prod.fst, (rs.filterMap id).map Prod.snd, (pyLines file).length))

/-- models svmlightcorpus.py:124-141 `docbyoffset` -/
def svmDocAt (C : Codec V) (file : Str) (offset : Nat) : Option (List (Int × V)) :=
  match svmLine2doc C (readlineAt file offset) with
  | some (some r) => some r.1
  | _ => none

/-! ## Blei's LDA-C -/

/-- models bleicorpus.py:155-156, one line; `big` is `abs(p[1]) > 1e-7`, `encG` is `"%g"` -/
def bleiLine (encG : V → Str) (big : V → Bool) (doc : List (Nat × V)) : Str :=
  showNat doc.length ++ ' ' :: (joinWith [' ']
    ((doc.filter (fun p => big p.2)).map (fun p => showNat p.1 ++ ':' :: encG p.2)) ++ ['\n'])

/-- models bleicorpus.py:152-156 -/
def bleiSave (encG : V → Str) (big : V → Bool) (corpus : List (List (Nat × V))) : Str × List Nat :=
  saveLines [] (corpus.map (bleiLine encG big))

/-- one field of bleicorpus.py:112-113 -/
def bleiField (dec : Str → Option V) (part : Str) : Option (Int × V) :=
  match rsplit1 ':' part with
  | none => none
  | some (p1, p2) => match readInt p1, dec p2 with
    | some i, some v => some (i, v)
    | _, _ => none

/-- models bleicorpus.py:95-114 `line2doc`; `none`: an exception -/
def bleiLine2doc (dec : Str → Option V) (line : Str) : Option (List (Int × V)) :=
  match splitWs uws line with
  | [] => none
  | n :: parts => match readInt n with
    | none => none
    | some n => if n ≠ (parts.length : Int) then none else mapOpt (bleiField dec) parts

/-- models bleicorpus.py:80-93 `__iter__` -/
def bleiIter (dec : Str → Option V) (file : Str) : Option (List (List (Int × V))) :=
  mapOpt (bleiLine2doc dec) (pyLines file)

/-- models bleicorpus.py:168-184 `docbyoffset` -/
def bleiDocAt (dec : Str → Option V) (file : Str) (offset : Nat) : Option (List (Int × V)) :=
  bleiLine2doc dec (readlineAt file offset)

/-- models bleicorpus.py:141-146 and 159-163: the vocabulary file for a given mapping -/
def bleiVocab (id2word : PyDict Nat Str) : Str :=
  let numTerms := match keys id2word with
    | [] => 0
    | k :: ks => 1 + ks.foldl max k
  ((List.range numTerms).map (fun i => getD id2word i ['-', '-', '-'] ++ ['\n'])).flatten

/-- models bleicorpus.py:75-78: the mapping read from a vocabulary file -/
def bleiReadVocab (file : Str) : PyDict Nat Str :=
  ((pyLines file).map (rstrip uws)).zipIdx.map (fun p => (p.2, p.1))

/-! ## List of words and Mallet -/

/-- models lowcorpus.py:19-33 `split_on_space` -/
def splitOnSpace (s : Str) : List Str := (splitOn ' ' (strip uws s)).filter (fun w => w ≠ [])

/-- models lowcorpus.py:229-233 and malletcorpus.py:227-231: the words of a document; `none`: KeyError of
`id2word[wordid]` -/
def docWords (id2word : PyDict Nat Str) (doc : List (Nat × Int)) : Option (List Str) :=
  (mapOpt (fun p : Nat × Int => (get? id2word p.1).map (fun w => List.replicate p.2.toNat w)) doc).map List.flatten

/-- models gensim/utils.py:1385-1409 `revdict` -/
def rev (d : PyDict Nat Str) : PyDict Str Nat := ofPairs (d.map (fun p => (p.2, p.1)))

/-- one word of lowcorpus.py:160-165 -/
def countWord (word2id : PyDict Str Nat) (s : List Str × PyDict Str Nat) (word : Str) : List Str × PyDict Str Nat :=
  if contains word2id word then
    (if contains s.2 word then s.1 else s.1 ++ [word], PyDict.set s.2 word (getD s.2 word 0 + 1))
  else s

/-- models lowcorpus.py:141-179 `line2doc` with word ids -/
def lowWords2doc (word2id : PyDict Str Nat) (words : List Str) : List (Nat × Nat) :=
  let s := words.foldl (countWord word2id) ([], [])
  s.1.map (fun w => (getD word2id w 0, getD s.2 w 0))

/-- models lowcorpus.py:196-246 `save_corpus` with a mapping -/
def lowSave (id2word : PyDict Nat Str) (corpus : List (List (Nat × Int))) : Option (Str × List Nat) :=
  (mapOpt (docWords id2word) corpus).map (fun docs =>
    saveLines (showNat corpus.length ++ ['\n']) (docs.map (fun ws => joinWith [' '] ws ++ ['\n'])))

/-- models lowcorpus.py:99-101, 116-133, 181-194: `len()` and iteration of a corpus opened with a mapping -/
def lowRead (id2word : PyDict Nat Str) (file : Str) : Option (Int × List (List (Nat × Nat))) :=
  let docs := ((pyLines file).drop 1).map (fun l => lowWords2doc (rev id2word) (splitOnSpace l))
  match pyLines file with
  | [] => some (0, docs)
  | l :: _ => (readInt l).map (fun n => (n, docs))

/-- models lowcorpus.py:248-274 `docbyoffset` -/
def lowDocAt (id2word : PyDict Nat Str) (file : Str) (offset : Nat) : List (Nat × Nat) :=
  lowWords2doc (rev id2word) (splitOnSpace (readlineAt file offset))

/-- `str.split(None, 2)` of a stripped string: two words and the rest -/
def split2 (s : Str) : Option (Str × Str × Str) :=
  let a := s.takeWhile (fun c => !uws c)
  let r1 := (s.dropWhile (fun c => !uws c)).dropWhile uws
  let b := r1.takeWhile (fun c => !uws c)
  let r2 := (r1.dropWhile (fun c => !uws c)).dropWhile uws
  if a = [] ∨ b = [] then none else some (a, b, r2)

/-- models malletcorpus.py:104-139 `line2doc`; `none`: IndexError -/
def malletLine2doc (word2id : PyDict Str Nat) (line : Str) : Option (List (Nat × Nat) × Str × Str) :=
  (split2 (strip uws line)).map (fun p => (lowWords2doc word2id (splitOnSpace p.2.2), p.1, p.2.1))

/-- models malletcorpus.py:141-242 `save_corpus` with a mapping and without metadata -/
def malletSave (id2word : PyDict Nat Str) (corpus : List (List (Nat × Int))) : Option (Str × List Nat) :=
  (mapOpt (docWords id2word) corpus).map (fun docs =>
    saveLines [] (docs.zipIdx.map (fun p =>
      showNat p.2 ++ ' ' :: ("__unknown__".toList ++ ' ' :: (joinWith [' '] p.1 ++ ['\n'])))))

/-- models malletcorpus.py:77-102, iteration -/
def malletRead (id2word : PyDict Nat Str) (file : Str) : Option (List (List (Nat × Nat) × Str × Str)) :=
  mapOpt (malletLine2doc (rev id2word)) (pyLines file)

/-- models malletcorpus.py:244-272 `docbyoffset` -/
def malletDocAt (id2word : PyDict Nat Str) (file : Str) (offset : Nat) : Option (List (Nat × Nat) × Str × Str) :=
  malletLine2doc (rev id2word) (readlineAt file offset)

end Verif.Formats
