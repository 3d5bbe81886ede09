import Verif.Wiki.SegModel

/-! Model of `json.dumps` for the records that `segment_and_write_all_articles` writes
(gensim/scripts/segment_wiki.py:147-165).  The encoder is the standard library's, with its defaults
(`ensure_ascii`, separators `", "` and `": "`).  Simplified: strings have no lone surrogates. -/

namespace Verif.WikiSeg
open Verif Text

/-- a hexadecimal digit of `'{0:04x}'.format(n)`, called at segment_wiki.py:165 -/
def hexDigit (d : Nat) : Char := if d < 10 then Char.ofNat (48 + d) else Char.ofNat (87 + d)

/-- `'\\u{0:04x}'.format(n)`, called at segment_wiki.py:165 -/
def hexEscape (n : Nat) : Str :=
  ['\\', 'u', hexDigit (n / 4096 % 16), hexDigit (n / 256 % 16), hexDigit (n / 16 % 16), hexDigit (n % 16)]

/-- one character of a string in `json.dumps` (segment_wiki.py:165): quotes, backslashes and the usual
control characters have short escapes, printable ASCII stays, the rest is written in hexadecimal, above
the basic plane as a surrogate pair -/
def jsonChar (c : Char) : Str :=
  if c = '"' then ['\\', '"']
  else if c = '\\' then ['\\', '\\']
  else if c = '\n' then ['\\', 'n']
  else if c = '\r' then ['\\', 'r']
  else if c = '\t' then ['\\', 't']
  else if c = Char.ofNat 12 then ['\\', 'f']
  else if c = Char.ofNat 8 then ['\\', 'b']
  else if 32 ≤ c.toNat ∧ c.toNat ≤ 126 then [c]
  else if c.toNat < 65536 then hexEscape c.toNat
  else hexEscape (55296 + (c.toNat - 65536) / 1024) ++ hexEscape (56320 + (c.toNat - 65536) % 1024)

/-- a string in `json.dumps` (segment_wiki.py:165) -/
def jsonStr (s : Str) : Str := '"' :: (s.flatMap jsonChar ++ ['"'])

/-- a list (or tuple) in `json.dumps` (segment_wiki.py:165) -/
def jsonList {α : Type} (f : α → Str) (l : List α) : Str :=
  '[' :: (joinWith [',', ' '] (l.map f) ++ [']'])

/-- a link, a pair of strings, in `json.dumps` (segment_wiki.py:165) -/
def jsonPair (p : Str × Str) : Str := jsonList jsonStr [p.1, p.2]

/-- models `json.dumps(output_data)`, segment_wiki.py:147-165: the keys in the order of their insertion,
the links only if they were asked for -/
def jsonRecord (r : Record) : Str :=
  "{\"title\": ".toList ++ jsonStr r.title ++
  ", \"section_titles\": ".toList ++ jsonList jsonStr r.sectionTitles ++
  ", \"section_texts\": ".toList ++ jsonList jsonStr r.sectionTexts ++
  (match r.interlinks with
   | none => []
   | some ls => ", \"interlinks\": ".toList ++ jsonList jsonPair ls) ++ ['}']

end Verif.WikiSeg
