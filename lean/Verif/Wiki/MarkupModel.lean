import Verif.Py.Regex
import Verif.Wiki.TemplateModel

/-!
# Removing wiki markup (`remove_markup`, gensim/corpora/wikicorpus.py)

The patterns are written as expressions of `Verif/Py/Regex.lean`.  Groups that no replacement refers to are left out.
-/

namespace Verif.Wiki
open Verif Text Regex

/-- the classes `\w` and `\d` of the `re` module -/
structure Cls where
  word : Char → Bool
  digit : Char → Bool

/-- a string as a list of characters -/
def cs (s : String) : Str := s.toList

/-- Models `RE_P0`, gensim/corpora/wikicorpus.py 44. -/
def p0 : Re := seqs [lit (cs "<!--"), .star false any, lit (cs "-->")]

/-- Models `RE_P1`, `RE_P9` and `RE_P10`, gensim/corpora/wikicorpus.py 46, 62 and 64, for an element name. -/
def pElem (name : Str) : Re :=
  seqs [lit (['<'] ++ name), .chr (fun c => c = '>' || c = ' '), .star false any, .alt (lit (cs "</" ++ name ++ ['>'])) (lit (cs "/>"))]

/-- one link to a language, gensim/corpora/wikicorpus.py 48 -/
def lang (k : Cls) : Re :=
  seqs [lit (cs "\n[["), .chr (fun c => 'a' ≤ c && c ≤ 'z'), .chr (fun c => 'a' ≤ c && c ≤ 'z'),
    .star true (.chr fun c => k.word c || c = '-'), ch ':', plus (.chr fun c => c ≠ ':' && c ≠ ']'), lit (cs "]]")]

/-- Models `RE_P2`, gensim/corpora/wikicorpus.py 48. -/
def p2 (k : Cls) : Re := seqs [plus (lang k), eol]

/-- Models `RE_P5`, gensim/corpora/wikicorpus.py 54. -/
def p5 (k : Cls) : Re :=
  seqs [ch '[', plus (.chr k.word), lit (cs "://"), .star false dot, .cap 3 (.alt (.seq (ch ' ') (.star false dot)) .eps), ch ']']

/-- `[^][]`, gensim/corpora/wikicorpus.py 56 -/
def notBr (c : Char) : Bool := c ≠ ']' && c ≠ '['

/-- Models `RE_P6`, gensim/corpora/wikicorpus.py 56. -/
def p6 : Re := seqs [ch '[', .star true (.chr notBr), ch '|', .cap 2 (.star true (.chr notBr)), ch ']']

/-- Models `RE_P11`, gensim/corpora/wikicorpus.py 66. -/
def p11 : Re := seqs [ch '<', .star false any, ch '>']

/-- Models `RE_P12`, gensim/corpora/wikicorpus.py 68. -/
def p12 (k : Cls) : Re :=
  seqs [.alt (lit (cs "{|")) (.alt (.seq (lit (cs "|-")) (.ahead true (.chr k.digit))) (lit (cs "|}"))), .star false dot, .ahead false (ch '\n')]

/-- the text before a cell, gensim/corpora/wikicorpus.py 70: it ends with one of `\n␣`, `\n\n`, `␣␣`, `.\n`, `.\t` -/
def cellBefore : Str → Bool
  | '\n' :: _ :: _ => true
  | ' ' :: x :: _ => x = '\n' || x = ' '
  | '\t' :: x :: _ => x ≠ '\n'
  | _ => false

/-- Models `RE_P13`, gensim/corpora/wikicorpus.py 70. -/
def p13 : Re :=
  seqs [.behind cellBefore, .chr (fun c => c = '|' || c = '!'),
    .star true (.seq (.star false (.chr fun c => c ≠ '[' && c ≠ ']' && c ≠ '\n')) (ch '|'))]

/-- Models `RE_P14`, gensim/corpora/wikicorpus.py 72. -/
def p14 : Re := seqs [lit (cs "[[Category:"), .star true (.chr notBr), lit (cs "]]")]

/-- Models `RE_P15`, gensim/corpora/wikicorpus.py 74. -/
def p15 : Re :=
  seqs [lit (cs "[["),
    .alt (.seq (.chr fun c => c = 'f' || c = 'F') (lit (cs "ile:"))) (.seq (.chr fun c => c = 'i' || c = 'I') (lit (cs "mage"))),
    .star true (.chr fun c => c ≠ ']'), lit (cs "]]")]

/-- the words of `RE_P17` that both alternatives look for, gensim/corpora/wikicorpus.py 79-80 -/
def tableWords (k : Cls) : List Re :=
  [lit (cs "bgcolor"), seqs [opt (.chr k.digit), opt (ch ' '), lit (cs "colspan")], lit (cs "rowspan"), lit (cs "style="),
    lit (cs "class="), lit (cs "align=")]

/-- Models `RE_P17`, gensim/corpora/wikicorpus.py 78-82. -/
def p17 (k : Cls) : Re :=
  .alt (seqs [ch '\n', upTo dot 4, anyOf (tableWords k ++ [lit (cs "scope=")]), .star true dot])
    (seqs [bol, upTo dot 2, anyOf (tableWords k), .star true dot])

/-- `s.replace(old, new, 1)`, gensim/corpora/wikicorpus.py 333 -/
def replaceOnce (old new : Str) : Str → Str
  | [] => if old = [] then new else []
  | c :: s => if old.isPrefixOf (c :: s) then new ++ (c :: s).drop old.length else c :: replaceOnce old new s

/-- Models gensim/corpora/wikicorpus.py 332: `m[:-2].split('|')[-1]`. -/
def caption (m : Str) : Str := ((m.take (m.length - 2)).reverse.takeWhile fun c => c ≠ '|').reverse

/-- Models `remove_file`, gensim/corpora/wikicorpus.py 314-334. -/
def removeFile (s : Str) : Str := (finditer p15 s).foldl (fun s m => replaceOnce m (caption m) s) s

/-- Models gensim/corpora/wikicorpus.py 237-241: comments, footnotes, `nowiki`, formulas and tags. -/
def tagPass (s : Str) : Str :=
  let s := sub p0 (const []) s
  let s := sub (pElem (cs "ref")) (const []) s
  let s := sub (pElem (cs "nowiki")) (const []) s
  let s := sub (pElem (cs "math")) (const []) s
  sub p11 (const []) s

/-- Models gensim/corpora/wikicorpus.py 242-246: categories, addresses and links. -/
def linkPass (k : Cls) (simplify : Bool) (s : Str) : Str :=
  let s := sub p14 (const []) s
  let s := sub (p5 k) (fun t => t.group 3) s
  if simplify then sub p6 (fun t => t.group 2) s else s

/-- Models gensim/corpora/wikicorpus.py 247-257: tables and empty brackets. -/
def tablePass (k : Cls) (s : Str) : Str :=
  let s := replace (cs "!!") (cs "\n|") s
  let s := replace (cs "|-||") (cs "\n|") s
  let s := sub (p12 k) (const (cs "\n")) s
  let s := replace (cs "|||") (cs "|\n|") s
  let s := replace (cs "||") (cs "\n|") s
  let s := sub p13 (const (cs "\n")) s
  let s := sub (p17 k) (const (cs "\n")) s
  replace (cs "[]") [] s

/-- Models one round of the loop, gensim/corpora/wikicorpus.py 236-257. -/
def round (k : Cls) (simplify : Bool) (s : Str) : Str := tablePass k (linkPass k simplify (tagPass s))

/-- Models the loop, gensim/corpora/wikicorpus.py 234-260, from round `iters + 1` on; `n` bounds the rounds. -/
def rounds (k : Cls) (simplify : Bool) : Nat → Nat → Str → Str
  | 0, _, s => s
  | n + 1, iters, s =>
    let s1 := round k simplify s
    if s = s1 ∨ iters + 1 > 2 then s1 else rounds k simplify n (iters + 1) s1

/-- Models `remove_markup`, gensim/corpora/wikicorpus.py 209-265. -/
def removeMarkup (k : Cls) (promote simplify : Bool) (s : Str) : Str :=
  let s := sub (p2 k) (const []) s
  let s := removeTemplate s
  let s := removeFile s
  let s := rounds k simplify 3 0 s
  if promote then replace [']'] [] (replace ['['] [] s) else s

end Verif.Wiki
