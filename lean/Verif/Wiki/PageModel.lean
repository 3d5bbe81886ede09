import Verif.Wiki.MarkupModel
import Verif.Wiki.SegModel

/-!
# From the source of a page to its text and its links (`filter_wiki`, `find_interlinks`, gensim/corpora/wikicorpus.py)
-/

namespace Verif.Wiki
open Verif Text Regex

/-- Models `filter_wiki`, gensim/corpora/wikicorpus.py 184-206; `dec` is the decoding of bytes and entities (204-205). -/
def filterWiki (k : Cls) (dec : Str → Str) (promote simplify : Bool) (raw : Str) : Str := removeMarkup k promote simplify (dec raw)

/-- Models `find_interlinks`, gensim/corpora/wikicorpus.py 153-181. -/
def findLinks (k : Cls) (dec : Str → Str) (raw : Str) : List (Str × Str) := WikiSeg.findInterlinks (filterWiki k dec false false) raw

end Verif.Wiki
