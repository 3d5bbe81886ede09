import Verif.Py.Text
import Verif.FastText.NgramModel

/-! Model of `any2utf8` and `any2unicode` (gensim/utils.py:307-358) for UTF-8 with strict errors, the
defaults.  Bytes are natural numbers. -/

namespace Verif.Utf8
open Verif Text

/-- an argument of `any2utf8` and `any2unicode` (utils.py:307-358): a `str` or `bytes` -/
inductive AnyStr where
  | text (s : Str)
  | bytes (b : List Nat)
deriving DecidableEq

/-- a continuation byte, read by the decoder that utils.py:329 and 355 call -/
def cont (b : Nat) : Bool := 128 ≤ b && b < 192

/-- one character of `str(text, 'utf8', errors='strict')` (utils.py:329, 355).  Built into Python, modelled
from RFC 3629: shortest forms only, no surrogates, nothing above U+10FFFF; `none` is
`UnicodeDecodeError` -/
def strictChar : List Nat → Option (Char × List Nat)
  | [] => none
  | a :: f =>
    if a < 0x80 then some (Char.ofNat a, f)
    else if a < 0xC0 then none
    else if a < 0xE0 then
      match f with
      | b :: f =>
        let v := (a - 0xC0) * 64 + (b - 0x80)
        if cont b ∧ 0x80 ≤ v then some (Char.ofNat v, f) else none
      | _ => none
    else if a < 0xF0 then
      match f with
      | b :: c :: f =>
        let v := (a - 0xE0) * 4096 + (b - 0x80) * 64 + (c - 0x80)
        if cont b ∧ cont c ∧ 0x800 ≤ v ∧ ¬ (0xD800 ≤ v ∧ v < 0xE000) then some (Char.ofNat v, f) else none
      | _ => none
    else
      match f with
      | b :: c :: d :: f =>
        let v := (a - 0xF0) * 262144 + (b - 0x80) * 4096 + (c - 0x80) * 64 + (d - 0x80)
        if cont b ∧ cont c ∧ cont d ∧ 0x10000 ≤ v ∧ v < 0x110000 then some (Char.ofNat v, f) else none
      | _ => none

/-- the loop of the decoder (utils.py:329, 355); the first argument bounds the recursion -/
def strictAux : Nat → List Nat → Option Str
  | _, [] => some []
  | 0, _ :: _ => none
  | n + 1, a :: f => (strictChar (a :: f)).bind fun x => (strictAux n x.2).map (x.1 :: ·)

/-- `str(text, 'utf8', errors='strict')`, utils.py:329, 355 -/
def strictDecode (b : List Nat) : Option Str := strictAux b.length b

/-- models utils.py:307-329, `any2utf8(text)` -/
def any2utf8 : AnyStr → Option (List Nat)
  | .text s => some (FastText.encode s)
  | .bytes b => (strictDecode b).map FastText.encode

/-- models utils.py:335-355, `any2unicode(text)` -/
def any2unicode : AnyStr → Option Str
  | .text s => some s
  | .bytes b => strictDecode b

end Verif.Utf8
