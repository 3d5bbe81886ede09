import Verif.Py.Regex
import Verif.Preprocess.Model
import Verif.Wiki.SegModel

/-!
# The regular expressions of the text filters, tokenisers and scanners of Wikipedia pages

Here the functions are written with the expressions of the source and the matcher of `Verif/Py/Regex.lean`, as the program has
them; `Verif/Preprocess/Model.lean` and `Verif/Wiki/SegModel.lean` have the scanners that one expects from them.
-/

namespace Verif.Res
open Verif Regex

abbrev Str := List Char

/-- `re.findall` for an expression with one group: the texts of the group -/
def findallN (r : Re) (g : Nat) : Nat → Str → Str → List Str
  | 0, _, _ => []
  | _ + 1, _, [] => []
  | n + 1, pre, c :: cs =>
    match (r.run ⟨pre, c :: cs, []⟩).head? with
    | none => findallN r g n (c :: pre) cs
    | some t => if t.rest.length < cs.length + 1 then t.group g :: findallN r g n t.pre t.rest else findallN r g n (c :: pre) cs

def findall (r : Re) (g : Nat) (s : Str) : List Str := findallN r g s.length [] s

/-- `re.split` for an expression without groups -/
def splitN (r : Re) : Nat → Str → Str → Str → List Str
  | 0, _, cur, s => [cur ++ s]
  | _ + 1, _, cur, [] => [cur]
  | n + 1, pre, cur, c :: cs =>
    match (r.run ⟨pre, c :: cs, []⟩).head? with
    | none => splitN r n (c :: pre) (cur ++ [c]) cs
    | some t => if t.rest.length < cs.length + 1 then cur :: splitN r n t.pre [] t.rest else splitN r n (c :: pre) (cur ++ [c]) cs

def resplit (r : Re) (s : Str) : List Str := splitN r s.length [] [] s

/-! ### gensim/parsing/preprocessing.py -/

/-- Models `RE_PUNCT`, gensim/parsing/preprocessing.py 62; the characters of `string.punctuation`. -/
def rePunct : Re := plus (.cap 1 (.chr fun c => Preprocess.punctuation.contains c))
/-- Models `RE_TAGS`, gensim/parsing/preprocessing.py 63. -/
def reTags : Re := seqs [ch '<', .cap 1 (plus (.chr fun c => c ≠ '>')), ch '>']
/-- Models `RE_NUMERIC`, gensim/parsing/preprocessing.py 64. -/
def reNumeric : Re := plus (.chr fun c => '0' ≤ c && c ≤ '9')
/-- Models `RE_NONALPHA`, gensim/parsing/preprocessing.py 65. -/
def reNonalpha (u : Preprocess.Uni) : Re := .chr fun c => !u.word c
/-- Models `RE_AL_NUM`, gensim/parsing/preprocessing.py 66. -/
def reAlNum : Re := .seq (.cap 1 (plus (.chr fun c => 'a' ≤ c && c ≤ 'z'))) (.cap 2 (plus (.chr fun c => '0' ≤ c && c ≤ '9')))
/-- Models `RE_NUM_AL`, gensim/parsing/preprocessing.py 67. -/
def reNumAl : Re := .seq (.cap 1 (plus (.chr fun c => '0' ≤ c && c ≤ '9'))) (.cap 2 (plus (.chr fun c => 'a' ≤ c && c ≤ 'z')))
/-- Models `RE_WHITESPACE`, gensim/parsing/preprocessing.py 68. -/
def reWhitespace (u : Preprocess.Uni) : Re := plus (.cap 1 (.chr u.space))

/-- Models `strip_punctuation`, gensim/parsing/preprocessing.py 117-118. -/
def stripPunctuation (s : Str) : Str := sub rePunct (const [' ']) s
/-- Models `strip_tags`, gensim/parsing/preprocessing.py 145-146. -/
def stripTags (s : Str) : Str := sub reTags (const []) s
/-- Models `strip_numeric`, gensim/parsing/preprocessing.py 199-200. -/
def stripNumeric (s : Str) : Str := sub reNumeric (const []) s
/-- Models `strip_non_alphanum`, gensim/parsing/preprocessing.py 228-229. -/
def stripNonAlphanum (u : Preprocess.Uni) (s : Str) : Str := sub (reNonalpha u) (const [' ']) s
/-- Models `strip_multiple_whitespaces`, gensim/parsing/preprocessing.py 254-255. -/
def stripMultipleWhitespaces (u : Preprocess.Uni) (s : Str) : Str := sub (reWhitespace u) (const [' ']) s
/-- the replacement `\1 \2`, gensim/parsing/preprocessing.py 280-281 -/
def apart (t : St) : Str := t.group 1 ++ ' ' :: t.group 2
/-- Models `split_alphanum`, gensim/parsing/preprocessing.py 279-281. -/
def splitAlphanum (s : Str) : Str := sub reNumAl apart (sub reAlNum apart s)

/-! ### gensim/utils.py -/

/-- Models `PAT_ALPHABETIC`, gensim/utils.py 39. -/
def patAlphabetic (u : Preprocess.Uni) : Re := plus (.cap 2 (.seq (.ahead true (.chr u.digit)) (.chr u.word)))
/-- Models `simple_tokenize`, gensim/utils.py 274-275. -/
def simpleTokenize (u : Preprocess.Uni) (s : Str) : List Str := finditer (patAlphabetic u) s

/-! ### Wikipedia -/

/-- Models `RE_P16`, gensim/corpora/wikicorpus.py 76. -/
def p16 : Re := seqs [lit "[[".toList, .cap 1 (.star false dot), lit "]]".toList]
/-- Models `top_level_heading_regex`, gensim/scripts/segment_wiki.py 232. -/
def heading : Re := seqs [lit "\n==".toList, .chr (fun c => c ≠ '='), .star true dot, .chr (fun c => c ≠ '='), lit "==\n".toList]
/-- Models `top_level_heading_regex_capture`, gensim/scripts/segment_wiki.py 233. -/
def headingCapture : Re :=
  seqs [lit "\n==".toList, .cap 1 (seqs [.chr (fun c => c ≠ '='), .star true dot, .chr (fun c => c ≠ '=')]), lit "==\n".toList]

/-- Models the two expressions of `filter_example`, gensim/corpora/wikicorpus.py 142-143. -/
def marked (u : Preprocess.Uni) (word : Str) : Re :=
  seqs [.star true any, lit "{{".toList, .cap 1 (.seq (lit word) (.star false any)), lit "}}".toList, .star true (.chr u.space)]

/-- Models `filter_example`, gensim/corpora/wikicorpus.py 87-150; `pattern.match(text)` is a match at the beginning. -/
def filterExample (u : Preprocess.Uni) (text : Option Str) : Bool :=
  match text with
  | none => false
  | some s => !((marked u "Exzellent".toList).run ⟨[], s, []⟩).isEmpty || !((marked u "Lesenswert".toList).run ⟨[], s, []⟩).isEmpty

/-- Models `get_namespace`, gensim/corpora/wikicorpus.py 366-384; the error carries the name in its message. -/
def getNamespace (tag : Str) : Except Str Str :=
  let m := ((seqs [bol, ch '{', .cap 1 (.star false dot), ch '}']).run ⟨[], tag, []⟩).head?
  let namespace_ := match m with | some t => t.group 1 | none => []
  if !("http://www.mediawiki.org/xml/export-".toList.isPrefixOf namespace_) then .error namespace_ else .ok namespace_

end Verif.Res
