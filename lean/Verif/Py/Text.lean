import Mathlib.Tactic.Common

/-!
# Python text primitives used by the file formats

Text is a list of characters (or, for binary files, of bytes rendered as characters).  Definitions
are structurally recursive so that examples compute in the kernel.
-/

namespace Verif.Text

/-- a Python string -/
abbrev Str := List Char

/-! ### numbers -/

/-- the character of a decimal digit -/
def digitChar (d : Nat) : Char := Char.ofNat (48 + d)

/-- value of a decimal digit character -/
def digitVal? (c : Char) : Option Nat :=
  if 48 ≤ c.toNat ∧ c.toNat ≤ 57 then some (c.toNat - 48) else none

/-- fuel-bounded decimal rendering -/
def showNatAux : Nat → Nat → Str
  | 0, _ => []
  | fuel + 1, n => if n < 10 then [digitChar n] else showNatAux fuel (n / 10) ++ [digitChar (n % 10)]

/-- `"%i" % n` for a natural number -/
def showNat (n : Nat) : Str := showNatAux (n + 1) n

/-- `"%i" % n` -/
def showInt : Int → Str
  | .ofNat n => showNat n
  | .negSucc n => '-' :: showNat (n + 1)

/-- digits to number, most significant first; `none` if a character is not a decimal digit -/
def readDigits : Nat → Str → Option Nat
  | acc, [] => some acc
  | acc, c :: s => match digitVal? c with
    | some d => readDigits (10 * acc + d) s
    | none => none

/-- `str.isdigit()` restricted to ASCII digits -/
def isDigits (s : Str) : Bool := decide (s ≠ []) && s.all (fun c => (digitVal? c).isSome)

/-- Whitespace of `bytes.split()`/`bytes.strip()`: space, \t, \n, \v, \f, \r. -/
def bws (c : Char) : Bool := c.toNat == 32 || (9 ≤ c.toNat && c.toNat ≤ 13)

/-- Whitespace of `str.split()`/`str.strip()` (`str.isspace`). -/
def uws (c : Char) : Bool :=
  bws c || (28 ≤ c.toNat && c.toNat ≤ 31) || c.toNat == 133 || c.toNat == 160 || c.toNat == 5760 ||
  (8192 ≤ c.toNat && c.toNat ≤ 8202) || c.toNat == 8232 || c.toNat == 8233 || c.toNat == 8239 ||
  c.toNat == 8287 || c.toNat == 12288

/-- `s.lstrip()` -/
def lstrip (ws : Char → Bool) (s : Str) : Str := s.dropWhile ws
/-- `s.rstrip()` -/
def rstrip (ws : Char → Bool) (s : Str) : Str := (s.reverse.dropWhile ws).reverse
/-- `s.strip()` -/
def strip (ws : Char → Bool) (s : Str) : Str := rstrip ws (lstrip ws s)

/-- the digits part of `int(s)`: at least one digit -/
def readNatCore (s : Str) : Option Nat := if s = [] then none else readDigits 0 s

/-- `int(s)`: optional surrounding whitespace and sign.  Simplification: the underscore separators
and non-ASCII digits Python also accepts are rejected. -/
def readInt (s : Str) : Option Int :=
  match strip uws s with
  | '-' :: t => (readNatCore t).map (fun n : Nat => -(n : Int))
  | '+' :: t => (readNatCore t).map (fun n : Nat => (n : Int))
  | t => (readNatCore t).map (fun n : Nat => (n : Int))

theorem digitChar_toNat {d : Nat} (h : d < 10) : (digitChar d).toNat = 48 + d := by
  have : d = 0 ∨ d = 1 ∨ d = 2 ∨ d = 3 ∨ d = 4 ∨ d = 5 ∨ d = 6 ∨ d = 7 ∨ d = 8 ∨ d = 9 := by omega
  rcases this with rfl | rfl | rfl | rfl | rfl | rfl | rfl | rfl | rfl | rfl <;> rfl

theorem digitVal?_digitChar {d : Nat} (h : d < 10) : digitVal? (digitChar d) = some d := by
  unfold digitVal?
  rw [digitChar_toNat h]
  simp; omega

theorem readDigits_append (s t : Str) (acc : Nat) :
    readDigits acc (s ++ t) = (readDigits acc s).bind (fun a => readDigits a t) := by
  induction s generalizing acc with
  | nil => rfl
  | cons c s ih =>
    simp only [List.cons_append, readDigits]
    cases digitVal? c with
    | none => rfl
    | some d => exact ih _

theorem readDigits_showNatAux (fuel n : Nat) (h : n < fuel) :
    readDigits 0 (showNatAux fuel n) = some n := by
  induction fuel generalizing n with
  | zero => omega
  | succ fuel ih =>
    unfold showNatAux
    by_cases hn : n < 10
    · simp [hn, readDigits, digitVal?_digitChar hn]
    · simp only [hn, if_false]
      rw [readDigits_append, ih (n / 10) (by omega)]
      simp only [Option.bind_some, readDigits, digitVal?_digitChar (Nat.mod_lt n (by omega))]
      congr 1; omega

theorem showNat_ne_nil (n : Nat) : showNat n ≠ [] := by
  unfold showNat showNatAux
  split <;> simp

theorem showNatAux_digit (fuel n : Nat) : ∀ c ∈ showNatAux fuel n, 48 ≤ c.toNat ∧ c.toNat ≤ 57 := by
  induction fuel generalizing n with
  | zero => simp [showNatAux]
  | succ fuel ih =>
    unfold showNatAux
    split
    · rename_i hn
      intro c hc
      simp only [List.mem_singleton] at hc
      subst hc; rw [digitChar_toNat hn]; omega
    · intro c hc
      rcases List.mem_append.mp hc with hc | hc
      · exact ih _ c hc
      · simp only [List.mem_singleton] at hc
        subst hc
        rw [digitChar_toNat (Nat.mod_lt n (by omega))]
        have := Nat.mod_lt n (show 0 < 10 by omega); omega

theorem showNat_digit (n : Nat) : ∀ c ∈ showNat n, 48 ≤ c.toNat ∧ c.toNat ≤ 57 :=
  showNatAux_digit _ _

theorem readNatCore_showNat (n : Nat) : readNatCore (showNat n) = some n := by
  rw [readNatCore, if_neg (showNat_ne_nil n)]; exact readDigits_showNatAux _ _ (by omega)

theorem isDigits_showNat (n : Nat) : isDigits (showNat n) = true := by
  simp only [isDigits, Bool.and_eq_true, decide_eq_true_eq, List.all_eq_true]
  refine ⟨showNat_ne_nil n, ?_⟩
  intro c hc
  simp [digitVal?, showNat_digit n c hc]

theorem not_ws_of_digit {c : Char} (h : 48 ≤ c.toNat ∧ c.toNat ≤ 57) : uws c = false := by
  simp only [uws, bws, Bool.or_eq_false_iff, Bool.and_eq_false_iff, beq_eq_false_iff_ne,
    decide_eq_false_iff_not]
  omega

theorem bws_of_uws_false {c : Char} (h : uws c = false) : bws c = false := by
  simp only [uws, Bool.or_eq_false_iff] at h
  tauto

theorem lstrip_of_not_ws {ws : Char → Bool} {s : Str} (h : ∀ c ∈ s, ws c = false) : lstrip ws s = s := by
  cases s with
  | nil => rfl
  | cons c s => simp [lstrip, List.dropWhile_cons, h c (by simp)]

theorem rstrip_of_not_ws {ws : Char → Bool} {s : Str} (h : ∀ c ∈ s, ws c = false) : rstrip ws s = s := by
  have := lstrip_of_not_ws (ws := ws) (s := s.reverse) (by simpa using h)
  simp only [lstrip] at this
  simp [rstrip, this]

theorem strip_of_not_ws {ws : Char → Bool} {s : Str} (h : ∀ c ∈ s, ws c = false) : strip ws s = s := by
  rw [strip, lstrip_of_not_ws h, rstrip_of_not_ws h]

theorem rstrip_append_ws {ws : Char → Bool} {s t : Str} (ht : ∀ c ∈ t, ws c = true) :
    rstrip ws (s ++ t) = rstrip ws s := by
  unfold rstrip
  rw [List.reverse_append, List.dropWhile_append_of_pos (by simpa using ht)]

/-- stripping a word followed by whitespace -/
theorem strip_append_ws {ws : Char → Bool} {s t : Str} (hs : ∀ c ∈ s, ws c = false)
    (ht : ∀ c ∈ t, ws c = true) : strip ws (s ++ t) = s := by
  cases s with
  | nil =>
    have : lstrip ws t = [] := by
      simpa [lstrip] using List.dropWhile_append_of_pos (l₂ := []) ht
    simp [strip, this, rstrip]
  | cons c s =>
    have : lstrip ws (c :: s ++ t) = c :: s ++ t := by
      simp [lstrip, List.dropWhile_cons, hs c (by simp)]
    rw [strip, this, rstrip_append_ws ht, rstrip_of_not_ws hs]

theorem readInt_of_stripped {s t : Str} {n : Nat} (hs : strip uws s = t) (hn : readNatCore t = some n)
    (hd : ∀ c ∈ t, 48 ≤ c.toNat ∧ c.toNat ≤ 57) : readInt s = some (n : Int) := by
  unfold readInt
  rw [hs]
  split
  · have := hd '-' (by simp); exact absurd this (by decide)
  · have := hd '+' (by simp); exact absurd this (by decide)
  · simp [hn]

theorem readInt_showNat (n : Nat) : readInt (showNat n) = some (n : Int) :=
  readInt_of_stripped (strip_of_not_ws (fun c hc => not_ws_of_digit (showNat_digit n c hc)))
    (readNatCore_showNat n) (showNat_digit n)

theorem readInt_showNat_ws (n : Nat) {t : Str} (ht : ∀ c ∈ t, uws c = true) :
    readInt (showNat n ++ t) = some (n : Int) :=
  readInt_of_stripped (strip_append_ws (fun c hc => not_ws_of_digit (showNat_digit n c hc)) ht)
    (readNatCore_showNat n) (showNat_digit n)

theorem showInt_not_ws (i : Int) : ∀ c ∈ showInt i, uws c = false := by
  intro c hc
  cases i with
  | ofNat n => exact not_ws_of_digit (showNat_digit n c hc)
  | negSucc n =>
    rcases List.mem_cons.mp hc with rfl | hc
    · decide
    · exact not_ws_of_digit (showNat_digit _ c hc)

theorem readInt_showInt (i : Int) : readInt (showInt i) = some i := by
  cases i with
  | ofNat n => exact readInt_showNat n
  | negSucc n =>
    unfold readInt
    rw [strip_of_not_ws (showInt_not_ws _)]
    simp only [showInt, readNatCore_showNat, Option.map_some, Option.some.injEq]
    omega

/-! ### splitting and joining -/

/-- `s.split(c)` for a one-character separator -/
def splitOn (c : Char) : Str → List Str
  | [] => [[]]
  | x :: xs => if x = c then [] :: splitOn c xs else
    match splitOn c xs with
    | [] => [[x]]
    | h :: t => (x :: h) :: t

/-- `sep.join(parts)` -/
def joinWith (sep : Str) : List Str → Str
  | [] => []
  | [p] => p
  | p :: q :: ps => p ++ sep ++ joinWith sep (q :: ps)

theorem splitOn_ne_nil (c : Char) (s : Str) : splitOn c s ≠ [] := by
  cases s with
  | nil => simp [splitOn]
  | cons x xs =>
    unfold splitOn
    split
    · simp
    · split <;> simp

theorem splitOn_no_sep {c : Char} {s : Str} (h : c ∉ s) : splitOn c s = [s] := by
  induction s with
  | nil => rfl
  | cons x xs ih =>
    simp only [List.mem_cons, not_or] at h
    rw [splitOn, if_neg (fun e => h.1 e.symm), ih h.2]

theorem splitOn_append_sep {c : Char} {s : Str} (h : c ∉ s) (t : Str) :
    splitOn c (s ++ c :: t) = s :: splitOn c t := by
  induction s with
  | nil => simp [splitOn]
  | cons x xs ih =>
    simp only [List.mem_cons, not_or] at h
    rw [List.cons_append, splitOn, if_neg (fun e => h.1 e.symm), ih h.2]

theorem splitOn_joinWith {c : Char} {ps : List Str} (hn : ps ≠ []) (h : ∀ p ∈ ps, c ∉ p) :
    splitOn c (joinWith [c] ps) = ps := by
  induction ps with
  | nil => exact absurd rfl hn
  | cons p ps ih =>
    cases ps with
    | nil => exact splitOn_no_sep (h p (by simp))
    | cons q qs =>
      show splitOn c (p ++ [c] ++ joinWith [c] (q :: qs)) = _
      rw [List.append_assoc, List.singleton_append, splitOn_append_sep (h p (by simp)),
        ih (by simp) (fun r hr => h r (by simp [hr]))]

/-- iterating a file opened in binary mode: lines ended by `\n`, terminators kept -/
def pyLines : Str → List Str
  | [] => []
  | x :: xs => if x = '\n' then ['\n'] :: pyLines xs else
    match pyLines xs with
    | [] => [[x]]
    | h :: t => (x :: h) :: t

theorem pyLines_cons_line {s : Str} (h : '\n' ∉ s) (t : Str) :
    pyLines (s ++ '\n' :: t) = (s ++ ['\n']) :: pyLines t := by
  induction s with
  | nil => simp [pyLines]
  | cons x xs ih =>
    simp only [List.mem_cons, not_or] at h
    rw [List.cons_append, pyLines, if_neg (fun e => h.1 e.symm), ih h.2]
    rfl

/-- writing complete lines and iterating over the file gives the lines back -/
theorem pyLines_flatten {ls : List Str} (h : ∀ l ∈ ls, '\n' ∉ l) :
    pyLines (ls.map (fun l => l ++ ['\n'])).flatten = ls.map (fun l => l ++ ['\n']) := by
  induction ls with
  | nil => rfl
  | cons l ls ih =>
    simp only [List.map_cons, List.flatten_cons, List.append_assoc, List.singleton_append]
    rw [pyLines_cons_line (h l (by simp)), ih (fun l' hl => h l' (by simp [hl]))]

theorem pyLines_flatten_id (s : Str) : (pyLines s).flatten = s := by
  induction s with
  | nil => rfl
  | cons x xs ih =>
    unfold pyLines
    split
    · rename_i e; simp [ih, e]
    · split
      · rename_i e; rw [e] at ih; simp at ih; simp [ih]
      · rename_i h t e; rw [e] at ih; simp at ih; simp [ih]

/-- `s.split()`: maximal runs of non-whitespace; `cur` is the run being read -/
def splitWsAux (ws : Char → Bool) : Str → Str → List Str
  | cur, [] => if cur = [] then [] else [cur]
  | cur, c :: s =>
    if ws c then
      if cur = [] then splitWsAux ws [] s else cur :: splitWsAux ws [] s
    else splitWsAux ws (cur ++ [c]) s

/-- `s.split()` with whitespace predicate `ws` (`uws` for `str`, `bws` for `bytes`) -/
def splitWs (ws : Char → Bool) (s : Str) : List Str := splitWsAux ws [] s

theorem splitWsAux_word {ws : Char → Bool} {p : Str} (hp : ∀ c ∈ p, ws c = false) (cur t : Str) :
    splitWsAux ws cur (p ++ t) = splitWsAux ws (cur ++ p) t := by
  induction p generalizing cur with
  | nil => simp
  | cons c p ih =>
    simp only [List.cons_append, splitWsAux, hp c (by simp)]
    rw [if_neg (by simp), ih (fun c' h => hp c' (by simp [h]))]
    simp

theorem splitWs_cons_word {ws : Char → Bool} {p : Str} (hne : p ≠ []) (hp : ∀ c ∈ p, ws c = false)
    {c : Char} (hc : ws c = true) (t : Str) :
    splitWs ws (p ++ c :: t) = p :: splitWs ws t := by
  unfold splitWs
  rw [splitWsAux_word hp]
  simp [splitWsAux, hc, hne]

theorem splitWs_skip {ws : Char → Bool} {c : Char} (hc : ws c = true) (t : Str) :
    splitWs ws (c :: t) = splitWs ws t := by
  simp [splitWs, splitWsAux, hc]

theorem splitWs_single {ws : Char → Bool} {p : Str} (hne : p ≠ []) (hp : ∀ c ∈ p, ws c = false) :
    splitWs ws p = [p] := by
  unfold splitWs
  have := splitWsAux_word hp [] []
  simp only [List.append_nil, List.nil_append] at this
  rw [this]; simp [splitWsAux, hne]

theorem splitWs_all_ws {ws : Char → Bool} {t : Str} (ht : ∀ c ∈ t, ws c = true) : splitWs ws t = [] := by
  induction t with
  | nil => rfl
  | cons c t ih =>
    rw [splitWs_skip (ht c (by simp)), ih (fun c' h => ht c' (by simp [h]))]

/-- joining words with a whitespace separator, followed by trailing whitespace, and splitting again -/
theorem splitWs_joinWith {ws : Char → Bool} {sep : Char} (hsep : ws sep = true) {ps : List Str}
    (h : ∀ p ∈ ps, p ≠ [] ∧ ∀ c ∈ p, ws c = false) {t : Str} (ht : ∀ c ∈ t, ws c = true) :
    splitWs ws (joinWith [sep] ps ++ t) = ps := by
  induction ps with
  | nil => simpa [joinWith] using splitWs_all_ws ht
  | cons p ps ih =>
    cases ps with
    | nil =>
      obtain ⟨h1, h2⟩ := h p (by simp)
      cases t with
      | nil => simpa [joinWith] using splitWs_single h1 h2
      | cons c t =>
        show splitWs ws (p ++ c :: t) = [p]
        rw [splitWs_cons_word h1 h2 (ht c (by simp)),
          splitWs_all_ws (fun c' h' => ht c' (by simp [h']))]
    | cons q qs =>
      obtain ⟨h1, h2⟩ := h p (by simp)
      show splitWs ws (p ++ [sep] ++ joinWith [sep] (q :: qs) ++ t) = _
      rw [List.append_assoc, List.append_assoc, List.singleton_append,
        splitWs_cons_word h1 h2 hsep, ih (fun r hr => h r (by simp [hr]))]

/-! ### values in text files -/

/-- How a number type is written to and read back from text.  For Python floats `show` is
`repr`/`"%s"` and `read` is `float`, which invert each other; the law is a hypothesis about Python's
float formatting, which is not modelled. -/
structure Codec (V : Type) where
  enc : V → Str
  dec : Str → Option V
  dec_enc : ∀ v, dec (enc v) = some v
  enc_ne_nil : ∀ v, enc v ≠ []
  enc_no_ws : ∀ v, ∀ c ∈ enc v, uws c = false

/-- integers written in decimal are a codec -/
def intCodec : Codec Int where
  enc := showInt
  dec := readInt
  dec_enc := readInt_showInt
  enc_ne_nil := by
    intro i; cases i with
    | ofNat n => exact showNat_ne_nil n
    | negSucc n => simp [showInt]
  enc_no_ws := showInt_not_ws

example : showNat 1205 = ['1', '2', '0', '5'] ∧ readInt [' ', '-', '4', '2', '\n'] = some (-42) ∧
    splitWs uws [' ', 'a', 'b', '\t', ' ', 'c'] = [['a', 'b'], ['c']] ∧
    splitOn ',' ['a', ',', ',', 'b'] = [['a'], [], ['b']] := by decide

end Verif.Text
