import Verif.Py.Text
import Verif.Utils.ChunkModel

/-!
# The texts of a Wikipedia dump (`extract_pages`, `WikiCorpus.get_texts`, gensim/corpora/wikicorpus.py)

The XML parser gives the pages of the dump.  What a worker does with one text (`filter_wiki` and the
tokenizer) is a parameter.
-/

namespace Verif.Wiki
open Verif Text

/-- What `extract_pages` reads from a page element: title, text (`None` for an empty page), namespace
and page id. -/
structure Page where
  title : Str
  text : Option Str
  ns : Str
  pageid : Str
  deriving DecidableEq

/-- Models the filters of `extract_pages` for one page, gensim/corpora/wikicorpus.py 424-437: the text
of a page that is filtered out is replaced by `None`. -/
def filterPage (namespaces : List Str) (accept : Option (Page → Option Str → Bool)) (p : Page) :
    Option Str :=
  let t := if namespaces ≠ [] ∧ p.ns ∉ namespaces then none else p.text
  match accept with
  | none => t
  | some f => if f p t then t else none

/-- Models `extract_pages`, gensim/corpora/wikicorpus.py 421-440: `yield title, text or "", pageid`. -/
def extractPages (namespaces : List Str) (accept : Option (Page → Option Str → Bool))
    (pages : List Page) : List (Str × Str × Str) :=
  pages.map fun p => (p.title, (filterPage namespaces accept p).getD [], p.pageid)

/-- What `pool.imap` gives for one group of tasks.  The workers finish the tasks in the order `done`;
each result is stored under the number of its task, and the iterator hands the results out by number. -/
def imap {A B : Type} (f : A → B) (tasks : List A) (done : List Nat) : List B :=
  let store : List (Nat × B) := done.filterMap fun i => tasks[i]?.map fun a => (i, f a)
  (List.range tasks.length).filterMap fun i => store.lookup i

/-- The namespaces of `IGNORED_NAMESPACES`, gensim/corpora/wikicorpus.py 84-88. -/
def ignoredNamespaces : List Str :=
  ["Wikipedia".toList, "Category".toList, "File".toList, "Portal".toList, "Template".toList,
   "MediaWiki".toList, "User".toList, "Help".toList, "Book".toList, "Draft".toList,
   "WikiProject".toList, "Special".toList, "Talk".toList]

/-- Models `len(tokens) < self.article_min_tokens or any(title.startswith(ignore + ':') …)`,
gensim/corpora/wikicorpus.py 690-691. -/
def pruned (minTokens : Int) (tokens : List Str) (title : Str) : Bool :=
  decide ((tokens.length : Int) < minTokens) ||
    ignoredNamespaces.any fun ns => (ns ++ [':']).isPrefixOf title

/-- An article as it is yielded: tokens, page id, title. -/
abbrev Article := List Str × Str × Str

/-- Models one group of `get_texts`, gensim/corpora/wikicorpus.py 686-698. -/
def groupTexts (process : Str → List Str) (minTokens : Int) (group : List (Str × Str × Str))
    (done : List Nat) : List Article :=
  (imap (fun p => (process p.2.1, p.1, p.2.2)) group done).filterMap fun r =>
    if pruned minTokens r.1 r.2.1 then none else some (r.1, r.2.2, r.2.1)

/-- Models `get_texts`, gensim/corpora/wikicorpus.py 671-715: the groups have ten pages per process;
`dones` gives, for each group, the order in which its tasks are finished. -/
def getTexts (process : Str → List Str) (processes : Nat) (minTokens : Int) (namespaces : List Str)
    (accept : Option (Page → Option Str → Bool)) (pages : List Page) (dones : Nat → List Nat) :
    List Article :=
  ((Chunk.chunks (10 * processes) (extractPages namespaces accept pages)).zipIdx.map
    fun g => groupTexts process minTokens g.1 (dones g.2)).flatten

end Verif.Wiki
