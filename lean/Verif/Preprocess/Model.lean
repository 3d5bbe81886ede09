import Verif.Porter.Model

/-!
# Text preprocessing (`gensim/parsing/preprocessing.py`, tokenisers of `gensim/utils.py`)

A Python string is a list of characters.  The Unicode tables of the interpreter (`str.isspace`, `\w`, `\d`,
`str.lower`) are parameters.  `\s` and `str.split()` use the same table.
-/

namespace Verif.Preprocess

abbrev Str := List Char

/-- The Unicode tables of Python. -/
structure Uni where
  /-- white space: `\s`, and where `str.split()` splits -/
  space : Char → Bool
  /-- `\w` -/
  word : Char → Bool
  /-- `\d` -/
  digit : Char → Bool
  /-- `str.lower` -/
  lower : Str → Str

/-- A loop that collects runs of characters outside `sep` (`str.split()` of Python with `sep` white space). -/
def splitAux (sep : Char → Bool) : Str → Str → List Str
  | cur, [] => if cur = [] then [] else [cur]
  | cur, c :: s =>
    if sep c then (if cur = [] then splitAux sep [] s else cur :: splitAux sep [] s)
    else splitAux sep (cur ++ [c]) s

/-- `s.split()`. -/
def split (u : Uni) (s : Str) : List Str := splitAux u.space [] s

/-- `" ".join(words)`. -/
def join : List Str → Str
  | [] => []
  | [w] => w
  | w :: v :: ws => w ++ ' ' :: join (v :: ws)

/-- `re.sub("[p]+", out, s)` for a class `p` of characters: every longest run is replaced. -/
def subRuns (p : Char → Bool) (out : Str) : Str → Str
  | [] => []
  | c :: s => if p c then out ++ subRuns p out (s.dropWhile p) else c :: subRuns p out s
termination_by s => s.length
decreasing_by
  · have := (List.dropWhile_suffix (l := s) p).length_le
    simp; omega
  · simp

/-- `string.punctuation` of Python (`preprocessing.py` 62). -/
def punctuation : List Char := "!\"#$%&'()*+,-./:;<=>?@[\\]^_`{|}~".toList

/-- `[0-9]` (`preprocessing.py` 64). -/
def isDigit (c : Char) : Bool := '0' ≤ c && c ≤ '9'

/-- `[a-z]` (`preprocessing.py` 66). -/
def isLower (c : Char) : Bool := 'a' ≤ c && c ≤ 'z'

/-- `STOPWORDS` (`preprocessing.py` 30-59). -/
def stopwords : List Str := List.map String.toList [
  "all", "six", "just", "less", "being", "indeed", "over", "move", "anyway", "four", "not", "own",
   "through", "using", "fifty", "where", "mill", "only", "find", "before", "one", "whose", "system",
   "how", "somewhere", "much", "thick", "show", "had", "enough", "should", "to", "must", "whom",
   "seeming", "yourselves", "under", "ours", "two", "has", "might", "thereafter", "latterly", "do",
   "them", "his", "around", "than", "get", "very", "de", "none", "cannot", "every", "un", "they",
   "front", "during", "thus", "now", "him", "nor", "name", "regarding", "several", "hereafter", "did",
   "always", "who", "didn", "whither", "this", "someone", "either", "each", "become", "thereupon",
   "sometime", "side", "towards", "therein", "twelve", "because", "often", "ten", "our", "doing", "km",
   "eg", "some", "back", "used", "up", "go", "namely", "computer", "are", "further", "beyond",
   "ourselves", "yet", "out", "even", "will", "what", "still", "for", "bottom", "mine", "since",
   "please", "forty", "per", "its", "everything", "behind", "does", "various", "above", "between", "it",
   "neither", "seemed", "ever", "across", "she", "somehow", "be", "we", "full", "never", "sixty",
   "however", "here", "otherwise", "were", "whereupon", "nowhere", "although", "found", "alone", "re",
   "along", "quite", "fifteen", "by", "both", "about", "last", "would", "anything", "via", "many",
   "could", "thence", "put", "against", "keep", "etc", "amount", "became", "ltd", "hence", "onto", "or",
   "con", "among", "already", "co", "afterwards", "formerly", "within", "seems", "into", "others",
   "while", "whatever", "except", "down", "hers", "everyone", "done", "least", "another", "whoever",
   "moreover", "couldnt", "throughout", "anyhow", "yourself", "three", "from", "her", "few", "together",
   "top", "there", "due", "been", "next", "anyone", "eleven", "cry", "call", "therefore", "interest",
   "then", "thru", "themselves", "hundred", "really", "sincere", "empty", "more", "himself",
   "elsewhere", "mostly", "on", "fire", "am", "becoming", "hereby", "amongst", "else", "part",
   "everywhere", "too", "kg", "herself", "former", "those", "he", "me", "myself", "made", "twenty",
   "these", "was", "bill", "cant", "us", "until", "besides", "nevertheless", "below", "anywhere",
   "nine", "can", "whether", "of", "your", "toward", "my", "say", "something", "and", "whereafter",
   "whenever", "give", "almost", "wherever", "is", "describe", "beforehand", "herein", "doesn", "an",
   "as", "itself", "at", "have", "in", "seem", "whence", "ie", "any", "fill", "again", "hasnt", "inc",
   "thereby", "thin", "no", "perhaps", "latter", "meanwhile", "when", "detail", "same", "wherein",
   "beside", "also", "that", "other", "take", "which", "becomes", "you", "if", "nobody", "unless",
   "whereas", "see", "though", "may", "after", "upon", "most", "hereupon", "eight", "but", "serious",
   "nothing", "such", "why", "off", "a", "don", "whereby", "third", "i", "whole", "noone", "sometimes",
   "well", "amoungst", "yours", "their", "rather", "without", "so", "five", "the", "first", "with",
   "make", "once"]

/-- `remove_stopwords` (`preprocessing.py` 92-93). -/
def removeStopwords (u : Uni) (s : Str) : Str := join ((split u s).filter fun w => w ∉ stopwords)

/-- `strip_punctuation` (`preprocessing.py` 117-118). -/
def stripPunctuation (s : Str) : Str := subRuns (fun c => c ∈ punctuation) [' '] s

/-- What follows the tag that starts before `s`, if there is one: `[^>]+>` (`preprocessing.py` 63). -/
def tagRest (s : Str) : Option Str :=
  match s.dropWhile (· ≠ '>') with
  | [] => none
  | _ :: rest => if s.head? = some '>' then none else some rest

theorem tagRest_length (s rest : Str) (h : tagRest s = some rest) : rest.length < s.length := by
  unfold tagRest at h
  split at h
  · cases h
  · rename_i a b e
    split at h
    · cases h
    · have := (List.dropWhile_suffix (l := s) (· ≠ '>')).length_le
      cases h
      rw [e] at this
      simp at this
      omega

/-- `strip_tags` (`preprocessing.py` 145-146). -/
def stripTags : Str → Str
  | [] => []
  | c :: s =>
    if c = '<' then
      match h : tagRest s with
      | some rest => stripTags rest
      | none => c :: stripTags s
    else c :: stripTags s
termination_by s => s.length
decreasing_by
  · have := tagRest_length s rest h
    simp; omega
  · simp
  · simp

/-- `strip_short` (`preprocessing.py` 174-175). -/
def stripShort (u : Uni) (minsize : Nat) (s : Str) : Str := join ((split u s).filter fun w => minsize ≤ w.length)

/-- `strip_numeric` (`preprocessing.py` 199-200). -/
def stripNumeric (s : Str) : Str := subRuns isDigit [] s

/-- `strip_non_alphanum` (`preprocessing.py` 228-229): `\W` is one character. -/
def stripNonAlphanum (u : Uni) (s : Str) : Str := s.map fun c => if u.word c then c else ' '

/-- `strip_multiple_whitespaces` (`preprocessing.py` 254-255). -/
def stripMultipleWhitespaces (u : Uni) (s : Str) : Str := subRuns u.space [' '] s

/-- `re.sub("([p]+)([q]+)", r"\1 \2", s)` for two disjoint classes (`preprocessing.py` 66-67). -/
def subPair (p q : Char → Bool) : Str → Str
  | [] => []
  | c :: s =>
    if p c then
      let rest := s.dropWhile p
      if (rest.takeWhile q) = [] then c :: subPair p q s
      else c :: s.takeWhile p ++ ' ' :: rest.takeWhile q ++ subPair p q (rest.dropWhile q)
    else c :: subPair p q s
termination_by s => s.length
decreasing_by
  · simp
  · have h1 := (List.dropWhile_suffix (l := s) p).length_le
    have h2 := (List.dropWhile_suffix (l := s.dropWhile p) q).length_le
    simp; omega
  · simp

/-- `split_alphanum` (`preprocessing.py` 279-281). -/
def splitAlphanum (s : Str) : Str := subPair isDigit isLower (subPair isLower isDigit s)

/-- `stem_text` (`preprocessing.py` 305-307); `j` is what the stemmer remembers from the words before. -/
def stemText (u : Uni) (j : Nat → Int) (s : Str) : Option Str :=
  ((split u s).zipIdx.mapM fun e => Porter.stemWord u.lower (j e.2) e.1).map join

/-- `preprocess_string(s)` with `DEFAULT_FILTERS` (`preprocessing.py` 313-317, 357-360). -/
def preprocessString (u : Uni) (j : Nat → Int) (s : Str) : Option (List Str) :=
  (stemText u j (stripShort u 3 (removeStopwords u (stripNumeric (stripMultipleWhitespaces u
    (stripPunctuation (stripTags (u.lower s)))))))).map (split u)

/-- `preprocess_string(s, filters)` (`preprocessing.py` 357-360). -/
def preprocessWith (u : Uni) (filters : List (Str → Str)) (s : Str) : List Str :=
  split u (filters.foldl (fun s f => f s) s)

/-- `preprocess_documents` (`preprocessing.py` 384). -/
def preprocessDocuments (u : Uni) (j : Nat → Int) (docs : List Str) : Option (List (List Str)) :=
  docs.mapM (preprocessString u j)

/-! ### Tokenisers of `gensim/utils.py` -/

/-- `((?![\d])\w)` (`utils.py` 39). -/
def alphabetic (u : Uni) (c : Char) : Bool := !u.digit c && u.word c

/-- `simple_tokenize` (`utils.py` 274-275): the longest runs, from left to right. -/
def simpleTokenize (u : Uni) : Str → List Str
  | [] => []
  | c :: s =>
    if alphabetic u c then (c :: s.takeWhile (alphabetic u)) :: simpleTokenize u (s.dropWhile (alphabetic u))
    else simpleTokenize u s
termination_by s => s.length
decreasing_by
  · have := (List.dropWhile_suffix (l := s) (alphabetic u)).length_le
    simp; omega
  · simp

/-- `deaccent` (`utils.py` 186-191) with the two normal forms and the class `Mn` of Unicode as parameters. -/
def deaccent (nfd nfc : Str → Str) (mark : Char → Bool) (s : Str) : Str := nfc ((nfd s).filter fun c => !mark c)

/-- `tokenize` (`utils.py` 251-257). -/
def tokenize (u : Uni) (deacc : Str → Str) (lowercase useDeacc : Bool) (s : Str) : List Str :=
  let s := if lowercase then u.lower s else s
  simpleTokenize u (if useDeacc then deacc s else s)

/-- `simple_preprocess` (`utils.py` 300-304). -/
def simplePreprocess (u : Uni) (deacc : Str → Str) (useDeacc : Bool) (minLen maxLen : Nat) (s : Str) : List Str :=
  (tokenize u deacc true useDeacc s).filter fun w => minLen ≤ w.length && w.length ≤ maxLen && w.head? != some '_'

end Verif.Preprocess
