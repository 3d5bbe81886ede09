import Verif.Wiki.CorpusModel

/-!
# Segmenting a Wikipedia dump (`gensim/scripts/segment_wiki.py`) and its links

`segment` (206-259), `get_texts_with_sections` (303-361), `segment_and_write_all_articles` (109-169), and
`find_interlinks` (`gensim/corpora/wikicorpus.py` 153-181).

The two regular expressions are modelled as the matchers they denote (greedy, with backtracking, leftmost
first). Parameters: `filter_wiki`, `str.lower` and `json.dumps` (modelled in
`Verif/Wiki/JsonModel.lean`). The XML parser gives the pages.
-/

namespace Verif.WikiSeg

open Verif Verif.Text

/-! ### Regular expressions -/

/-- The part `[^=]==\n` of the heading expression at the start of a string: the matched character and the rest
of the string, `gensim/scripts/segment_wiki.py` 232-233. -/
def headEnd : Str → Option (Str × Str)
  | c :: '=' :: '=' :: '\n' :: r => if c = '=' then none else some ([c], r)
  | _ => none

/-- The part `.*[^=]==\n`, greedy: `.` is any character but a newline,
`gensim/scripts/segment_wiki.py` 232-233. -/
def headStar : Str → Option (Str × Str)
  | [] => none
  | c :: s =>
    match (if c = '\n' then none else headStar s) with
    | some (h, r) => some (c :: h, r)
    | none => headEnd (c :: s)

/-- The expression `\n==([^=].*[^=])==\n` at the start of a string: the group and the rest of the string,
`gensim/scripts/segment_wiki.py` 232-233. -/
def headMatch : Str → Option (Str × Str)
  | '\n' :: '=' :: '=' :: c :: s =>
    if c = '=' then none
    else match headStar s with
      | some (h, r) => some (c :: h, r)
      | none => none
  | _ => none

/-- `re.split` with a matcher (244); the first argument is fuel, the second the current piece. -/
def splitAux (m : Str → Option (Str × Str)) : Nat → Str → Str → List Str
  | 0, cur, s => [cur ++ s]
  | _ + 1, cur, [] => [cur]
  | n + 1, cur, c :: s =>
    match m (c :: s) with
    | some (_, r) => cur :: splitAux m n [] r
    | none => splitAux m n (cur ++ [c]) s

/-- `re.split`, `gensim/scripts/segment_wiki.py` 244. -/
def reSplit (m : Str → Option (Str × Str)) (s : Str) : List Str := splitAux m s.length [] s

/-- `re.findall` with a matcher (245); the first argument is fuel. -/
def findAux (m : Str → Option (Str × Str)) : Nat → Str → List Str
  | 0, _ => []
  | _ + 1, [] => []
  | n + 1, c :: s =>
    match m (c :: s) with
    | some (h, r) => h :: findAux m n r
    | none => findAux m n s

/-- `re.findall`, `gensim/scripts/segment_wiki.py` 245. -/
def reFindall (m : Str → Option (Str × Str)) (s : Str) : List Str := findAux m s.length s

/-! ### Links -/

/-- The part `(.*?)\]{2}`, lazy, of `RE_P16`, `gensim/corpora/wikicorpus.py` 76. -/
def linkEnd : Str → Option (Str × Str)
  | [] => none
  | c :: s =>
    if c = ']' ∧ s.head? = some ']' then some ([], s.tail)
    else if c = '\n' then none
    else match linkEnd s with
      | some (h, r) => some (c :: h, r)
      | none => none

/-- `RE_P16`: `\[{2}(.*?)\]{2}`, `gensim/corpora/wikicorpus.py` 76. -/
def linkMatch : Str → Option (Str × Str)
  | '[' :: '[' :: s => linkEnd s
  | _ => none

/-- Models one turn of the loop of `find_interlinks`, `gensim/corpora/wikicorpus.py` 171-178. -/
def linkOf (raw : Str) : Str × Str :=
  match splitOn '|' raw with
  | [] => ([], [])
  | [a] => (a, a)
  | a :: b :: _ => (a, b)

/-- Models `find_interlinks`, `gensim/corpora/wikicorpus.py` 153-181; `filt` is `filter_wiki` with both flags off
(167). -/
def findInterlinks (filt : Str → Str) (raw : Str) : List (Str × Str) :=
  ((reFindall linkMatch (filt raw)).map linkOf).filter fun p => !(p.1.contains '[') && !(p.1.contains ']')

/-! ### One page -/

/-- A page element: the text of its title, text and namespace elements; `none` is a missing element, `some none`
an empty one. -/
structure Page where
  title : Option (Option Str)
  text : Option (Option Str)
  ns : Option (Option Str)

/-- `AttributeError` or the `AssertionError` of line 247. -/
inductive Err | attribute | assertion
deriving DecidableEq

/-- What a worker returns: title (`none`: `None`), sections and, if asked for, links. -/
abbrev Out := Option Str × List (Str × Str) × Option (List (Str × Str))

/-- Models `segment`, `gensim/scripts/segment_wiki.py` 224-259; `filt` is `filter_wiki`, `filtLinks` is
`filter_wiki` with both flags off. -/
def segment (filt filtLinks : Str → Str) (links : Bool) (p : Page) : Except Err Out :=
  match p.title, p.text, p.ns with
  | some title, some text, some ns =>
    match (if ns = some ['0'] then text else none) with
    | some t =>
      let contents := reSplit headMatch t
      let headings := ("Introduction".toList :: reFindall headMatch t).map (strip uws)
      if contents.length ≠ headings.length then .error .assertion
      else .ok (title, headings.zip (contents.map filt),
        if links then some (findInterlinks filtLinks t) else none)
    | none => .ok (title, [], if links then some [] else none)
  | _, _, _ => .error .attribute

/-! ### The articles of a dump -/

/-- An article as it is yielded. -/
abbrev Article := Str × List (Str × Str) × Option (List (Str × Str))

/-- Models `sections[0][1].lstrip().lower().startswith("#redirect")` and `not sections`,
`gensim/scripts/segment_wiki.py` 341. -/
def redirect (lower : Str → Str) (sections : List (Str × Str)) : Bool :=
  match sections with
  | [] => true
  | s :: _ => "#redirect".toList.isPrefixOf (lower (lstrip uws s.2))

/-- Models `sum(len(body.strip()) for (_, body) in sections)`, `gensim/scripts/segment_wiki.py` 344. -/
def chars (sections : List (Str × Str)) : Nat := (sections.map fun s => (strip uws s.2).length).sum

/-- Models the loop over the results of a group, `gensim/scripts/segment_wiki.py` 333-355: the articles yielded
and the exception that ends the iteration, if any. -/
def consume (lower : Str → Str) (minChars : Int) : List (Except Err Out) → List Article × Option Err
  | [] => ([], none)
  | .error e :: _ => ([], some e)
  | .ok (none, _, _) :: _ => ([], some .attribute)
  | .ok (some title, sections, links) :: rest =>
    if Wiki.ignoredNamespaces.any fun ns => (ns ++ [':']).isPrefixOf title then consume lower minChars rest
    else if redirect lower sections then consume lower minChars rest
    else if (chars sections : Int) < minChars then consume lower minChars rest
    else
      let r := consume lower minChars rest
      ((title, sections, links) :: r.1, r.2)

/-- Models the loop over the groups, `gensim/scripts/segment_wiki.py` 332. -/
def consumeGroups (lower : Str → Str) (minChars : Int) : List (List (Except Err Out)) → List Article × Option Err
  | [] => ([], none)
  | g :: gs =>
    match consume lower minChars g with
    | (out, some e) => (out, some e)
    | (out, none) =>
      let r := consumeGroups lower minChars gs
      (out ++ r.1, r.2)

/-- Models `get_texts_with_sections`, `gensim/scripts/segment_wiki.py` 326-361: groups of ten pages per process;
`dones` gives, for each group, the order in which the workers finish. -/
def articles (filt filtLinks lower : Str → Str) (links : Bool) (processes : Nat) (minChars : Int)
    (pages : List Page) (dones : Nat → List Nat) : List Article × Option Err :=
  consumeGroups lower minChars ((Chunk.chunks (10 * processes) pages).zipIdx.map fun g =>
    Wiki.imap (segment filt filtLinks links) g.1 (dones g.2))

/-- Models `len(corpus)` after iteration, `gensim/scripts/segment_wiki.py` 348, 361: set only at the end. -/
def lengthAfter (out : List Article × Option Err) : Option Nat :=
  match out.2 with
  | none => some out.1.length
  | some _ => none

/-- The record written for an article, `gensim/scripts/segment_wiki.py` 147-161. -/
structure Record where
  title : Str
  sectionTitles : List Str
  sectionTexts : List Str
  interlinks : Option (List (Str × Str))
deriving DecidableEq

/-- Models `output_data`, `gensim/scripts/segment_wiki.py` 147-161. -/
def record (a : Article) : Record :=
  { title := a.1, sectionTitles := a.2.1.map Prod.fst, sectionTexts := a.2.1.map Prod.snd, interlinks := a.2.2 }

/-- Models `segment_and_write_all_articles`, `gensim/scripts/segment_wiki.py` 138-169: what the file holds when the
function has returned or raised, and the exception. -/
def writeAll (dumps : Record → Str) (out : List Article × Option Err) : Str × Option Err :=
  (out.1.flatMap fun a => dumps (record a) ++ ['\n'], out.2)

end Verif.WikiSeg
