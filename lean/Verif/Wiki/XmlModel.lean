import Verif.Wiki.CorpusModel

/-!
# Model of reading pages from the XML of a dump (`extract_pages`, gensim/corpora/wikicorpus.py 367-447, and
`extract_page_xmls`, gensim/scripts/segment_wiki.py 174-210)

A dump is a stream of start tags, texts and end tags; `iterparse` builds elements from it and hands each out when it ends.
The stream may stop anywhere (a cut file); it is otherwise well-formed.  Tags are pairs of a namespace and a name (`{ns}name`
in Python), and namespaces contain no closing brace.
-/

namespace Verif.Wiki.Xml
open Verif Text

/-- A tag `{ns}name`. -/
structure Tag where
  ns : Str
  name : Str
  deriving DecidableEq

/-- An element: tag, text before the first child (`None` if there is none) and children. -/
inductive Elem where
  | mk (tag : Tag) (text : Option Str) (kids : List Elem)

def Elem.tag : Elem → Tag | .mk t _ _ => t
def Elem.text : Elem → Option Str | .mk _ s _ => s
def Elem.kids : Elem → List Elem | .mk _ _ ks => ks

/-- What the parser reads. -/
inductive Tok where
  | open (t : Tag)
  | text (s : Str)
  | close

/-- Exceptions: not a MediaWiki namespace, a missing element (`None` has no attribute `text`), a stream that ends too
early. -/
inductive Err where
  | value | attribute | parse
  deriving DecidableEq

/-- An element that has been started: tag, text so far, and children so far, the last one first. -/
structure Frame where
  tag : Tag
  text : Option Str
  kids : List Elem

/-- The elements that have been started, the innermost one first. -/
abbrev Stack := List Frame

/-- The parser reads a text: it belongs to the innermost element if that has no child yet (otherwise it is the `tail` of a
child, which is not used here). -/
def addText (s : Str) : Stack → Stack
  | [] => []
  | f :: fs => (if f.kids = [] then { f with text := some (f.text.getD [] ++ s) } else f) :: fs

/-- An element becomes a child of the one it is in. -/
def attach (e : Elem) : Stack → Stack
  | [] => []
  | f :: fs => { f with kids := e :: f.kids } :: fs

/-- models wikicorpus.py:382-386 `get_namespace`, with 403, 412 for the namespace of the first element that ends -/
def getNamespace (t : Tag) : Except Err Str :=
  if "http://www.mediawiki.org/xml/export-".toList.isPrefixOf t.ns then .ok t.ns else .error .value

/-- models wikicorpus.py:414 `page_tag` -/
def pageTag (ns : Str) : Tag := ⟨ns, "page".toList⟩

/-- `elem.clear()`: the tag remains -/
def clear (e : Elem) : Elem := .mk e.tag none []

/-- models the loop of wikicorpus.py:408-447 (`handle` is what is done with a page) and of segment_wiki.py:190-210: what is
yielded, and the exception that ends the loop, if any.  `ns` is the namespace, `none` before the first element has ended.
An exception of the parser is raised at the end of a stream in which an element has not ended or none was started. -/
def loop {α : Type} (handle : Str → Elem → Except Err α) : Option Str → Stack → List Tok → List α × Option Err
  | ns, stack, [] => ([], if stack = [] ∧ ns ≠ none then none else some .parse)
  | ns, stack, .open t :: ts => loop handle ns (⟨t, none, []⟩ :: stack) ts
  | ns, stack, .text s :: ts => loop handle ns (addText s stack) ts
  | ns, [], .close :: ts => loop handle ns [] ts
  | none, f :: fs, .close :: ts =>
    match getNamespace f.tag with
    | .error e => ([], some e)
    | .ok ns => loop handle (some ns) (attach (.mk f.tag f.text f.kids.reverse) fs) ts
  | some ns, f :: fs, .close :: ts =>
    let e : Elem := .mk f.tag f.text f.kids.reverse
    if e.tag = pageTag ns then
      match handle ns e with
      | .error err => ([], some err)
      | .ok a =>
        let r := loop handle (some ns) (attach (clear e) fs) ts
        (a :: r.1, r.2)
    else loop handle (some ns) (attach e fs) ts

/-- `elem.find("./{ns}name").text`: `AttributeError` if there is no such child -/
def childText (ns : Str) (name : String) (e : Elem) : Except Err (Option Str) :=
  match e.kids.find? fun k => k.tag = ⟨ns, name.toList⟩ with
  | some k => .ok k.text
  | none => .error .attribute

/-- `elem.find("./{ns}revision/{ns}text").text`: the first such grandchild -/
def revisionText (ns : Str) (e : Elem) : Except Err (Option Str) :=
  match ((e.kids.filter fun k => k.tag = ⟨ns, "revision".toList⟩).flatMap fun r => r.kids).find?
      fun k => k.tag = ⟨ns, "text".toList⟩ with
  | some k => .ok k.text
  | none => .error .attribute

/-- models wikicorpus.py:421-440: what is yielded for a page: title, text and page id.  `namespaces` is empty for
`filter_namespaces=False`; `accept` is `filter_articles`, given the element, the title and the text. -/
def handlePage (namespaces : List Str) (accept : Option (Elem → Option Str → Option Str → Bool)) (ns : Str) (e : Elem) :
    Except Err (Option Str × Str × Option Str) := do
  let title ← childText ns "title" e
  let text ← revisionText ns e
  let text ← if namespaces = [] then .ok text else do
    let n ← childText ns "ns" e
    .ok (if n.any fun n => decide (n ∈ namespaces) then text else none)
  let text := match accept with
    | none => text
    | some f => if f e title text then text else none
  let pageid ← childText ns "id" e
  .ok (title, text.getD [], pageid)

/-- models wikicorpus.py:390-447 `extract_pages` -/
def extractPages (namespaces : List Str) (accept : Option (Elem → Option Str → Option Str → Bool)) (dump : List Tok) :
    List (Option Str × Str × Option Str) × Option Err :=
  loop (handlePage namespaces accept) none [] dump

/-- models segment_wiki.py:174-210 `extract_page_xmls`; the page stands for its XML -/
def extractPageXmls (dump : List Tok) : List Elem × Option Err :=
  loop (fun _ e => .ok e) none [] dump

end Verif.Wiki.Xml
