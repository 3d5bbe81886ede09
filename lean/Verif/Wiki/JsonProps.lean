import Mathlib.Tactic.Common
import Verif.Wiki.JsonModel
import Verif.Wiki.SegProps

/-! Property C125, with the encoder: the file of segmented articles can be read back. -/

namespace Verif.WikiSeg
open Verif Text

/-! ### specification: a reader of JSON, with the spacing of `json.dumps` -/

/-- Spec: the value of a hexadecimal digit -/
def unhex (c : Char) : Option Nat :=
  if 48 ≤ c.toNat ∧ c.toNat ≤ 57 then some (c.toNat - 48)
  else if 97 ≤ c.toNat ∧ c.toNat ≤ 102 then some (c.toNat - 87)
  else if 65 ≤ c.toNat ∧ c.toNat ≤ 70 then some (c.toNat - 55)
  else none

/-- Spec: four hexadecimal digits -/
def unhex4 : Str → Option (Nat × Str)
  | a :: b :: c :: d :: r =>
    match unhex a, unhex b, unhex c, unhex d with
    | some a, some b, some c, some d => some (4096 * a + 256 * b + 16 * c + d, r)
    | _, _, _, _ => none
  | _ => none

/-- Spec: what follows `\u`; a high surrogate needs a low one behind it -/
def readU (s : Str) : Option (Char × Str) :=
  match unhex4 s with
  | none => none
  | some (h, r) =>
    if 55296 ≤ h ∧ h < 56320 then
      match r with
      | '\\' :: 'u' :: r =>
        match unhex4 r with
        | some (l, r) =>
          if 56320 ≤ l ∧ l < 57344 then
            some (Char.ofNat (65536 + 1024 * (h - 55296) + (l - 56320)), r)
          else none
        | none => none
      | _ => none
    else if 56320 ≤ h ∧ h < 57344 then none
    else some (Char.ofNat h, r)

/-- Spec: one character inside a string -/
def readChar : Str → Option (Char × Str)
  | [] => none
  | c :: s =>
    if c = '\\' then
      match s with
      | [] => none
      | e :: r =>
        if e = '"' then some ('"', r)
        else if e = '\\' then some ('\\', r)
        else if e = '/' then some ('/', r)
        else if e = 'n' then some ('\n', r)
        else if e = 'r' then some ('\r', r)
        else if e = 't' then some ('\t', r)
        else if e = 'f' then some (Char.ofNat 12, r)
        else if e = 'b' then some (Char.ofNat 8, r)
        else if e = 'u' then readU r
        else none
    else if c.toNat < 32 then none
    else some (c, s)

/-- Spec: the characters of a string up to the closing quote (the first argument bounds the recursion) -/
def readBody : Nat → Str → Option (Str × Str)
  | 0, _ => none
  | _ + 1, [] => none
  | n + 1, c :: s =>
    if c = '"' then some ([], s)
    else (readChar (c :: s)).bind fun x => (readBody n x.2).map fun y => (x.1 :: y.1, y.2)

/-- Spec: a string -/
def readStr : Str → Option (Str × Str)
  | [] => none
  | c :: s => if c = '"' then readBody (s.length + 1) s else none

/-- Spec: the elements of a list, behind its opening bracket -/
def readItems {α : Type} (p : Str → Option (α × Str)) : Nat → Str → Option (List α × Str)
  | 0, _ => none
  | n + 1, s => (p s).bind fun x =>
    match x.2 with
    | ']' :: r => some ([x.1], r)
    | ',' :: ' ' :: r => (readItems p n r).map fun y => (x.1 :: y.1, y.2)
    | _ => none

/-- Spec: a list -/
def readList {α : Type} (p : Str → Option (α × Str)) : Str → Option (List α × Str)
  | '[' :: ']' :: r => some ([], r)
  | '[' :: r => readItems p (r.length + 1) r
  | _ => none

/-- Spec: a list of exactly two strings -/
def readPair (s : Str) : Option ((Str × Str) × Str) :=
  (readList readStr s).bind fun x =>
    match x.1 with
    | [a, b] => some ((a, b), x.2)
    | _ => none

/-- Spec: a fixed text -/
def expect : Str → Str → Option Str
  | [], s => some s
  | c :: cs, d :: s => if c = d then expect cs s else none
  | _ :: _, [] => none

/-- Spec: a record and nothing behind it -/
def readRecord (s : Str) : Option Record := do
  let s ← expect "{\"title\": ".toList s
  let (t, s) ← readStr s
  let s ← expect ", \"section_titles\": ".toList s
  let (ts, s) ← readList readStr s
  let s ← expect ", \"section_texts\": ".toList s
  let (bs, s) ← readList readStr s
  if s = ['}'] then some ⟨t, ts, bs, none⟩
  else
    let s ← expect ", \"interlinks\": ".toList s
    let (ls, s) ← readList readPair s
    if s = ['}'] then some ⟨t, ts, bs, some ls⟩ else none

/-! ### proofs -/

theorem unhex_hexDigit {d : Nat} (h : d < 16) : unhex (hexDigit d) = some d := by
  have : ∀ d : Fin 16, unhex (hexDigit d.1) = some d.1 := by decide
  exact this ⟨d, h⟩

theorem hexDigit_ascii {d : Nat} (h : d < 16) : 32 ≤ (hexDigit d).toNat ∧ (hexDigit d).toNat ≤ 126 := by
  have : ∀ d : Fin 16, 32 ≤ (hexDigit d.1).toNat ∧ (hexDigit d.1).toNat ≤ 126 := by decide
  exact this ⟨d, h⟩

theorem unhex4_hex {n : Nat} (h : n < 65536) (r : Str) :
    unhex4 (hexDigit (n / 4096 % 16) :: hexDigit (n / 256 % 16) :: hexDigit (n / 16 % 16) ::
      hexDigit (n % 16) :: r) = some (n, r) := by
  simp only [unhex4]
  rw [unhex_hexDigit (Nat.mod_lt _ (by decide)), unhex_hexDigit (Nat.mod_lt _ (by decide)),
    unhex_hexDigit (Nat.mod_lt _ (by decide)), unhex_hexDigit (Nat.mod_lt _ (by decide))]
  simp only [Option.some.injEq, Prod.mk.injEq, and_true]
  omega

theorem char_range (c : Char) : c.toNat < 55296 ∨ (57343 < c.toNat ∧ c.toNat < 1114112) := c.valid

theorem readChar_u (s : Str) : readChar ('\\' :: 'u' :: s) = readU s := by
  rw [readChar, if_pos rfl]
  rw [if_neg (by decide), if_neg (by decide), if_neg (by decide), if_neg (by decide), if_neg (by decide),
    if_neg (by decide), if_neg (by decide), if_neg (by decide), if_pos rfl]

theorem readChar_jsonChar (c : Char) (r : Str) : readChar (jsonChar c ++ r) = some (c, r) := by
  have hv := char_range c
  unfold jsonChar
  split
  · rename_i h; subst h; rfl
  split
  · rename_i h; subst h; rfl
  split
  · rename_i h; subst h; rfl
  split
  · rename_i h; subst h; rfl
  split
  · rename_i h; subst h; rfl
  split
  · rename_i h; subst h; rfl
  split
  · rename_i h; subst h; rfl
  rename_i _ hb _ _ _ _ _
  split
  · rename_i h
    simp only [List.cons_append, List.nil_append, readChar]
    rw [if_neg hb, if_neg (by omega)]
  split
  · rename_i h
    have e : readChar (hexEscape c.toNat ++ r) = readU (hexDigit (c.toNat / 4096 % 16) ::
      hexDigit (c.toNat / 256 % 16) :: hexDigit (c.toNat / 16 % 16) :: hexDigit (c.toNat % 16) :: r) := by
      simp only [hexEscape, List.cons_append, List.nil_append]
      exact readChar_u _
    rw [e, readU, unhex4_hex h]
    dsimp only
    rw [if_neg (by omega), if_neg (by omega), Char.ofNat_toNat]
  · rename_i h
    have hc : c.toNat < 1114112 := by omega
    generalize hn : c.toNat - 65536 = n
    have hn' : n < 1048576 := by omega
    have h1 : 55296 + n / 1024 < 65536 := by omega
    have h2 : 56320 + n % 1024 < 65536 := by omega
    generalize ha : 55296 + n / 1024 = a at h1
    generalize hbb : 56320 + n % 1024 = b at h2
    have e : readChar (hexEscape a ++ hexEscape b ++ r) = readU (hexDigit (a / 4096 % 16) ::
      hexDigit (a / 256 % 16) :: hexDigit (a / 16 % 16) :: hexDigit (a % 16) :: '\\' :: 'u' ::
      hexDigit (b / 4096 % 16) :: hexDigit (b / 256 % 16) :: hexDigit (b / 16 % 16) ::
      hexDigit (b % 16) :: r) := by
      simp only [hexEscape, List.cons_append, List.nil_append]
      exact readChar_u _
    rw [e, readU, unhex4_hex h1]
    dsimp only
    rw [if_pos (by omega)]
    simp only [unhex4_hex h2]
    rw [if_pos (by omega)]
    have : 65536 + 1024 * (a - 55296) + (b - 56320) = c.toNat := by omega
    rw [this, Char.ofNat_toNat]

theorem jsonChar_cons (c : Char) : ∃ d t, jsonChar c = d :: t ∧ d ≠ '"' := by
  unfold jsonChar
  repeat' split
  all_goals first
    | exact ⟨_, _, rfl, by decide⟩
    | (rename_i h _ _ _ _ _ _ _; exact ⟨_, _, rfl, h⟩)

theorem readBody_json (s r : Str) (n : Nat) (hn : s.length < n) :
    readBody n (s.flatMap jsonChar ++ '"' :: r) = some (s, r) := by
  induction s generalizing n with
  | nil =>
    obtain ⟨m, rfl⟩ : ∃ m, n = m + 1 := ⟨n - 1, by simp at hn; omega⟩
    simp [readBody]
  | cons c s ih =>
    obtain ⟨m, rfl⟩ : ∃ m, n = m + 1 := ⟨n - 1, by simp at hn; omega⟩
    have hm : s.length < m := by simp at hn; omega
    obtain ⟨d, t, hd, hq⟩ := jsonChar_cons c
    have hr := readChar_jsonChar c (s.flatMap jsonChar ++ '"' :: r)
    rw [List.flatMap_cons, List.append_assoc]
    rw [hd, List.cons_append] at hr ⊢
    rw [readBody, if_neg hq, hr]
    simp only [Option.bind_some]
    rw [ih m hm]
    rfl

theorem length_flatMap_le (s : Str) : s.length ≤ (s.flatMap jsonChar).length := by
  induction s with
  | nil => simp
  | cons c s ih =>
    obtain ⟨d, t, hd, _⟩ := jsonChar_cons c
    rw [List.flatMap_cons, List.length_append, hd, List.length_cons, List.length_cons]
    omega

theorem readStr_json (s r : Str) : readStr (jsonStr s ++ r) = some (s, r) := by
  have e : jsonStr s ++ r = '"' :: (s.flatMap jsonChar ++ '"' :: r) := by simp [jsonStr]
  rw [e, readStr, if_pos rfl]
  refine readBody_json s r _ ?_
  have := length_flatMap_le s
  rw [List.length_append]
  omega

theorem readItems_json {α : Type} (f : α → Str) (p : Str → Option (α × Str))
    (hp : ∀ a r, p (f a ++ r) = some (a, r)) (a : α) (l : List α) (r : Str) (n : Nat)
    (hn : l.length < n) :
    readItems p n (joinWith [',', ' '] ((a :: l).map f) ++ ']' :: r) = some (a :: l, r) := by
  induction l generalizing a n with
  | nil =>
    obtain ⟨m, rfl⟩ : ∃ m, n = m + 1 := ⟨n - 1, by simp at hn; omega⟩
    simp only [List.map_cons, List.map_nil, joinWith]
    rw [readItems, hp]
    rfl
  | cons b l ih =>
    obtain ⟨m, rfl⟩ : ∃ m, n = m + 1 := ⟨n - 1, by simp at hn; omega⟩
    have hm : l.length < m := by simp at hn; omega
    have e : joinWith [',', ' '] ((a :: b :: l).map f) ++ ']' :: r =
        f a ++ (',' :: ' ' :: (joinWith [',', ' '] ((b :: l).map f) ++ ']' :: r)) := by
      simp [joinWith]
    rw [e, readItems, hp]
    simp only [Option.bind_some]
    rw [ih b m hm]
    rfl

theorem length_joinWith_ge {α : Type} (f : α → Str) (a : α) (l : List α) :
    l.length ≤ (joinWith [',', ' '] ((a :: l).map f)).length := by
  induction l generalizing a with
  | nil => simp
  | cons b l ih =>
    have := ih b
    have e : joinWith [',', ' '] ((a :: b :: l).map f) =
        f a ++ (',' :: ' ' :: (joinWith [',', ' '] ((b :: l).map f))) := by simp [joinWith]
    rw [e, List.length_append]
    simp only [List.length_cons]
    omega

theorem readList_json {α : Type} (f : α → Str) (p : Str → Option (α × Str))
    (hp : ∀ a r, p (f a ++ r) = some (a, r)) (hf : ∀ a, ∃ d t, f a = d :: t ∧ d ≠ ']')
    (l : List α) (r : Str) : readList p (jsonList f l ++ r) = some (l, r) := by
  cases l with
  | nil => simp [jsonList, joinWith, readList]
  | cons a l =>
    have e : jsonList f (a :: l) ++ r = '[' :: (joinWith [',', ' '] ((a :: l).map f) ++ ']' :: r) := by
      simp [jsonList]
    have hi := readItems_json f p hp a l r
      ((joinWith [',', ' '] ((a :: l).map f) ++ ']' :: r).length + 1) (by
        have := length_joinWith_ge f a l
        simp only [List.length_append]
        omega)
    obtain ⟨d, t, hd, hne⟩ := hf a
    have hs : ∃ u, joinWith [',', ' '] ((a :: l).map f) ++ ']' :: r = d :: u := by
      cases l with
      | nil => exact ⟨t ++ ']' :: r, by simp [joinWith, hd]⟩
      | cons b l => exact ⟨_, by simp only [List.map_cons, joinWith, hd, List.cons_append]; rfl⟩
    obtain ⟨u, hu⟩ := hs
    rw [e]
    rw [hu] at hi ⊢
    rw [readList]
    · exact hi
    · intro x hx
      cases hx
      exact hne rfl

theorem jsonStr_cons (s : Str) : ∃ d t, jsonStr s = d :: t ∧ d ≠ ']' := ⟨'"', _, rfl, by decide⟩

theorem readPair_json (q : Str × Str) (r : Str) : readPair (jsonPair q ++ r) = some (q, r) := by
  unfold readPair jsonPair
  rw [readList_json jsonStr readStr readStr_json jsonStr_cons]
  rfl

theorem expect_append (p r : Str) : expect p (p ++ r) = some r := by
  induction p with
  | nil => rfl
  | cons c p ih => simp [expect, ih]

/-- **C125.** The line that is written for an article gives back the article: its title, the titles and
the texts of its sections in their order, and the links exactly if they were asked for. -/
theorem C125_json (r : Record) : readRecord (jsonRecord r) = some r := by
  obtain ⟨t, ts, bs, ls⟩ := r
  unfold readRecord jsonRecord
  simp only [List.append_assoc]
  rw [expect_append]
  simp only [Option.bind_eq_bind, Option.bind_some]
  rw [readStr_json]
  simp only [Option.bind_some]
  rw [expect_append]
  simp only [Option.bind_some]
  rw [readList_json jsonStr readStr readStr_json jsonStr_cons]
  simp only [Option.bind_some]
  rw [expect_append]
  simp only [Option.bind_some]
  rw [readList_json jsonStr readStr readStr_json jsonStr_cons]
  simp only [Option.bind_some]
  cases ls with
  | none => simp
  | some ls =>
    dsimp only
    rw [if_neg (by intro h; cases h), List.append_assoc, expect_append]
    simp only [Option.bind_some]
    rw [readList_json jsonPair readPair readPair_json (fun q => ⟨'[', _, rfl, by decide⟩)]
    simp

/-- printable ASCII -/
def Printable (s : Str) : Prop := ∀ c ∈ s, 32 ≤ c.toNat ∧ c.toNat ≤ 126

theorem Printable.append {s t : Str} (hs : Printable s) (ht : Printable t) : Printable (s ++ t) := by
  intro c hc
  rcases List.mem_append.mp hc with h | h
  · exact hs c h
  · exact ht c h

theorem printable_hexEscape (n : Nat) : Printable (hexEscape n) := by
  intro c hc
  simp only [hexEscape, List.mem_cons, List.not_mem_nil, or_false] at hc
  rcases hc with rfl | rfl | rfl | rfl | rfl | rfl
  · decide
  · decide
  all_goals exact hexDigit_ascii (Nat.mod_lt _ (by decide))

theorem printable_jsonChar (c : Char) : Printable (jsonChar c) := by
  unfold jsonChar
  repeat' split
  all_goals first
    | (unfold Printable; decide)
    | exact printable_hexEscape _
    | exact (printable_hexEscape _).append (printable_hexEscape _)
    | (rename_i h; intro d hd; rw [List.mem_singleton.mp hd]; exact h)

theorem printable_jsonStr (s : Str) : Printable (jsonStr s) := by
  have h : Printable (s.flatMap jsonChar) := by
    intro c hc
    obtain ⟨d, _, hd⟩ := List.mem_flatMap.mp hc
    exact printable_jsonChar d c hd
  have q : Printable ['"'] := by unfold Printable; decide
  exact q.append (h.append q)

theorem printable_jsonList {α : Type} (f : α → Str) (hf : ∀ a, Printable (f a)) (l : List α) :
    Printable (jsonList f l) := by
  have hs : Printable [',', ' '] := by unfold Printable; decide
  have hj : Printable (joinWith [',', ' '] (l.map f)) := by
    induction l with
    | nil => intro c hc; exact absurd hc List.not_mem_nil
    | cons a l ih =>
      cases l with
      | nil => simpa [joinWith] using hf a
      | cons b l =>
        have e : joinWith [',', ' '] ((a :: b :: l).map f) =
          f a ++ ([',', ' '] ++ (joinWith [',', ' '] ((b :: l).map f))) := by simp [joinWith]
        rw [e]
        exact (hf a).append (hs.append ih)
  have h1 : Printable ['['] := by unfold Printable; decide
  have h2 : Printable [']'] := by unfold Printable; decide
  exact h1.append (hj.append h2)

/-- **C125.** A line is printable ASCII whatever the article holds, so it has no line end inside and its
bytes are its characters. -/
theorem C125_json_ascii (r : Record) : ∀ c ∈ jsonRecord r, 32 ≤ c.toNat ∧ c.toNat ≤ 126 := by
  have h : Printable (jsonRecord r) := by
    obtain ⟨t, ts, bs, ls⟩ := r
    unfold jsonRecord
    have l1 : Printable "{\"title\": ".toList := by unfold Printable; decide
    have l2 : Printable ", \"section_titles\": ".toList := by unfold Printable; decide
    have l3 : Printable ", \"section_texts\": ".toList := by unfold Printable; decide
    have l4 : Printable ", \"interlinks\": ".toList := by unfold Printable; decide
    have l5 : Printable ['}'] := by unfold Printable; decide
    have hl := printable_jsonList jsonStr printable_jsonStr
    refine Printable.append (Printable.append (((((l1.append (printable_jsonStr _)).append l2).append
      (hl _)).append l3).append (hl _)) ?_) l5
    cases ls with
    | none => intro c hc; exact absurd hc List.not_mem_nil
    | some ls => exact l4.append (printable_jsonList jsonPair (fun p => hl _) ls)
  exact h

/-- **C125.** The file written for the articles has one line per article, in their order, and every
line gives back its article; whether or not an exception has ended the run. -/
theorem C125_file_json (out : List Article × Option Err) :
    (writeAll jsonRecord out).2 = out.2 ∧
    (pyLines (writeAll jsonRecord out).1).map (fun l => readRecord l.dropLast) =
      out.1.map fun a => some ⟨a.1, a.2.1.map Prod.fst, a.2.1.map Prod.snd, a.2.2⟩ :=
  C125_file jsonRecord readRecord C125_json
    (fun r h => absurd (C125_json_ascii r '\n' h).1 (by decide)) out

/-- **C125.** Different articles have different lines. -/
theorem C125_json_injective (r s : Record) (h : jsonRecord r = jsonRecord s) : r = s := by
  have := C125_json r
  rw [h, C125_json s] at this
  exact (Option.some.inj this).symm

example : jsonStr "a\"\n\\é𝄞".toList = "\"a\\\"\\n\\\\\\u00e9\\ud834\\udd1e\"".toList := by decide

example : jsonRecord ⟨"T".toList, ["Intro".toList], ["x\ny".toList], some [("A".toList, "b".toList)]⟩ =
    "{\"title\": \"T\", \"section_titles\": [\"Intro\"], \"section_texts\": [\"x\\ny\"], \"interlinks\": [[\"A\", \"b\"]]}".toList := by
  decide

end Verif.WikiSeg
