import Verif.Utils.HelperModel
import Verif.Utils.ChunkProps
import Mathlib.Data.Nat.Digits.Defs
import Mathlib.Data.Nat.Digits.Lemmas

/-!
# C133: helpers for texts, nested lists, files and uploads
-/

namespace Verif.Helper

/-! ## Specification -/

/-- a number written in decimal -/
def dec (n : Nat) : Txt := if n = 0 then [48] else (Nat.digits 10 n).reverse.map (48 + ·)

/-- a number written in hexadecimal -/
def hex (n : Nat) : Txt :=
  if n = 0 then [48] else (Nat.digits 16 n).reverse.map fun d => if d < 10 then 48 + d else 87 + d

/-- a text with every character written as a numeric entity `&#n;` -/
def escapeDec (t : Txt) : Txt := t.flatMap fun c => [38, 35] ++ dec c ++ [59]

/-- a text with every character written as `&#xn;` -/
def escapeHex (t : Txt) : Txt := t.flatMap fun c => [38, 35, 120] ++ hex c ++ [59]

/-- what is assumed of the libraries: letters and digits are word characters, `&`, `#` and `;` are not; `int` reads what
was written -/
structure EnvOk (env : Env) : Prop where
  digit : ∀ c, 48 ≤ c → c ≤ 57 → env.isWord c = true
  lower : ∀ c, 97 ≤ c → c ≤ 122 → env.isWord c = true
  upper : ∀ c, 65 ≤ c → c ≤ 90 → env.isWord c = true
  amp : env.isWord 38 = false
  hash : env.isWord 35 = false
  semi : env.isWord 59 = false
  intDec : ∀ n, env.intDec (dec n) = some n
  intHex : ∀ n, env.intHex (hex n) = some n

/-! ## Lemmas -/

theorem takeWhile_run (p : Nat → Bool) (w rest : Txt) (c : Nat) (hw : ∀ x ∈ w, p x = true) (hc : p c = false) :
    (w ++ c :: rest).takeWhile p = w ∧ (w ++ c :: rest).dropWhile p = c :: rest := by
  induction w with
  | nil => simp [hc]
  | cons x w ih =>
    have h1 := hw x (by simp)
    have := ih fun y hy => hw y (by simp [hy])
    simp [h1, this.1, this.2]

theorem matchName_run (env : Env) (ok : EnvOk env) (w rest : Txt) (hw : ∀ x ∈ w, env.isWord x = true)
    (h1 : 1 ≤ w.length) (h8 : w.length ≤ 8) : matchName env (w ++ 59 :: rest) = some (w, rest) := by
  obtain ⟨a, b⟩ := takeWhile_run env.isWord w rest 59 hw ok.semi
  unfold matchName
  rw [a, b]
  simp [h1, h8]

theorem matchX_plain (env : Env) (ok : EnvOk env) (w rest : Txt) (hw : ∀ x ∈ w, env.isWord x = true)
    (h1 : 1 ≤ w.length) (h8 : w.length ≤ 8) (hx : ∀ c, w.head? = some c → c ≠ 120 ∧ c ≠ 88) :
    matchX env (w ++ 59 :: rest) = some (false, w, rest) := by
  cases w with
  | nil => simp at h1
  | cons c r =>
    obtain ⟨ha, hb⟩ := hx c rfl
    have := matchName_run env ok (c :: r) rest hw h1 h8
    simp only [List.cons_append] at this ⊢
    unfold matchX
    simp only [ha, hb, or_self, if_false, this, Option.map_some]

theorem matchX_x (env : Env) (ok : EnvOk env) (c : Nat) (hc : c = 120 ∨ c = 88) (w rest : Txt)
    (hw : ∀ x ∈ w, env.isWord x = true) (h1 : 1 ≤ w.length) (h8 : w.length ≤ 8) :
    matchX env (c :: (w ++ 59 :: rest)) = some (true, w, rest) := by
  unfold matchX
  simp only [hc, if_true, matchName_run env ok w rest hw h1 h8]

theorem decode_cons_ne (env : Env) (c : Nat) (r : Txt) (h : c ≠ 38) : decode env (c :: r) = c :: decode env r := by
  rw [decode]
  simp [h]

theorem decode_match (env : Env) (r : Txt) (hash hex : Bool) (ent rest : Txt)
    (h : matchEntity env r = some (hash, hex, ent, rest)) :
    decode env (38 :: r) = match substitute env hash hex ent with
      | some cp => cp :: decode env rest
      | none => 38 :: (r.take (r.length - rest.length) ++ decode env rest) := by
  rw [decode]
  simp only [if_true]
  split
  · rename_i h' _ _ _ heq
    rw [h] at heq
    cases heq
    rfl
  · rename_i heq
    rw [h] at heq
    cases heq

theorem decode_numeric (env : Env) (ok : EnvOk env) (n : Nat) (w rest : Txt) (hw : ∀ x ∈ w, env.isWord x = true)
    (h1 : 1 ≤ w.length) (h8 : w.length ≤ 8) (hx : ∀ c, w.head? = some c → c ≠ 120 ∧ c ≠ 88) (hi : env.intDec w = some n)
    (hn : n < 1114112) : decode env (38 :: 35 :: (w ++ 59 :: rest)) = n :: decode env rest := by
  have hm : matchEntity env (35 :: (w ++ 59 :: rest)) = some (true, false, w, rest) := by
    unfold matchEntity
    simp [matchX_plain env ok w rest hw h1 h8 hx]
  rw [decode_match env _ _ _ _ _ hm]
  have hs : substitute env true false w = some n := by simp [substitute, hi, safeUnichr, hn]
  rw [hs]

theorem decode_numeric_hex (env : Env) (ok : EnvOk env) (n c : Nat) (hc : c = 120 ∨ c = 88) (w rest : Txt)
    (hw : ∀ x ∈ w, env.isWord x = true) (h1 : 1 ≤ w.length) (h8 : w.length ≤ 8) (hi : env.intHex w = some n)
    (hn : n < 1114112) : decode env (38 :: 35 :: c :: (w ++ 59 :: rest)) = n :: decode env rest := by
  have hm : matchEntity env (35 :: c :: (w ++ 59 :: rest)) = some (true, true, w, rest) := by
    unfold matchEntity
    simp [matchX_x env ok c hc w rest hw h1 h8]
  rw [decode_match env _ _ _ _ _ hm]
  have hs : substitute env true true w = some n := by simp [substitute, hi, safeUnichr, hn]
  rw [hs]

theorem digits_length_le (b n k : Nat) (hb : 1 < b) (h : n < b ^ k) : (Nat.digits b n).length ≤ k :=
  (Nat.digits_length_le_iff hb n).2 h

theorem dec_ok (n : Nat) (hn : n < 1114112) : (∀ x ∈ dec n, 48 ≤ x ∧ x ≤ 57) ∧ 1 ≤ (dec n).length ∧ (dec n).length ≤ 8 := by
  unfold dec
  by_cases h : n = 0
  · simp [h]
  · rw [if_neg h]
    refine ⟨?_, ?_, ?_⟩
    · intro x hx
      obtain ⟨d, hd, rfl⟩ := List.mem_map.1 hx
      have := Nat.digits_lt_base (by norm_num : 1 < 10) (List.mem_reverse.1 hd)
      omega
    · have : Nat.digits 10 n ≠ [] := Nat.digits_ne_nil_iff_ne_zero.2 h
      have h2 := List.length_pos_of_ne_nil this
      simp only [List.length_map, List.length_reverse]
      omega
    · simpa using digits_length_le 10 n 8 (by norm_num) (by omega)

theorem hex_ok (n : Nat) (hn : n < 1114112) :
    (∀ x ∈ hex n, (48 ≤ x ∧ x ≤ 57) ∨ (97 ≤ x ∧ x ≤ 122)) ∧ 1 ≤ (hex n).length ∧ (hex n).length ≤ 8 := by
  unfold hex
  by_cases h : n = 0
  · simp [h]
  · rw [if_neg h]
    refine ⟨?_, ?_, ?_⟩
    · intro x hx
      obtain ⟨d, hd, rfl⟩ := List.mem_map.1 hx
      have := Nat.digits_lt_base (by norm_num : 1 < 16) (List.mem_reverse.1 hd)
      split <;> omega
    · have : Nat.digits 16 n ≠ [] := Nat.digits_ne_nil_iff_ne_zero.2 h
      have h2 := List.length_pos_of_ne_nil this
      simp only [List.length_map, List.length_reverse]
      omega
    · simpa using digits_length_le 16 n 8 (by norm_num) (by omega)

/-! ## HTML entities -/

/-- **C133.** Text without ampersands is not changed. -/
theorem C133_plain (env : Env) (t : Txt) (h : 38 ∉ t) : decode env t = t := by
  induction t with
  | nil => rw [decode]
  | cons c r ih =>
    rw [decode_cons_ne env c r (fun e => h (by simp [e])), ih (fun e => h (by simp [e]))]

/-- **C133.** Every text is recovered from its decimal and from its hexadecimal entities. -/
theorem C133_round_trip (env : Env) (ok : EnvOk env) (t : Txt) (h : ∀ c ∈ t, c < 1114112) :
    decode env (escapeDec t) = t ∧ decode env (escapeHex t) = t := by
  induction t with
  | nil => constructor <;> (simp only [escapeDec, escapeHex, List.flatMap_nil]; rw [decode])
  | cons c t ih =>
    obtain ⟨i1, i2⟩ := ih fun x hx => h x (by simp [hx])
    have hc := h c (by simp)
    constructor
    · obtain ⟨a1, a2, a3⟩ := dec_ok c hc
      have e : escapeDec (c :: t) = 38 :: 35 :: (dec c ++ 59 :: escapeDec t) := by simp [escapeDec]
      rw [e, decode_numeric env ok c (dec c) _ (fun x hx => ok.digit x (a1 x hx).1 (a1 x hx).2) a2 a3 ?_ (ok.intDec c) hc, i1]
      intro x hx
      have := a1 x (List.mem_of_mem_head? hx)
      omega
    · obtain ⟨a1, a2, a3⟩ := hex_ok c hc
      have e : escapeHex (c :: t) = 38 :: 35 :: 120 :: (hex c ++ 59 :: escapeHex t) := by simp [escapeHex]
      rw [e, decode_numeric_hex env ok c 120 (Or.inl rfl) (hex c) _ (fun x hx => (a1 x hx).elim (fun y => ok.digit x y.1 y.2) (fun y => ok.lower x y.1 y.2)) a2 a3 (ok.intHex c) hc, i2]

/-- **C133.** A name of up to eight word characters that does not begin with `x` or `X` is replaced by its character if
the table has it, and left alone otherwise; decoding goes on behind it, so what was decoded is not decoded again. -/
theorem C133_names (env : Env) (ok : EnvOk env) (w rest : Txt) (hw : ∀ x ∈ w, env.isWord x = true)
    (h1 : 1 ≤ w.length) (h8 : w.length ≤ 8) (hx : ∀ c, w.head? = some c → c ≠ 120 ∧ c ≠ 88) :
    (∀ cp, env.n2cp w = some cp → 0 < cp → cp < 1114112 → decode env (38 :: (w ++ 59 :: rest)) = cp :: decode env rest) ∧
    (env.n2cp w = none → decode env (38 :: (w ++ 59 :: rest)) = 38 :: (w ++ 59 :: decode env rest)) := by
  have hm : matchEntity env (w ++ 59 :: rest) = some (false, false, w, rest) := by
    cases w with
    | nil => simp at h1
    | cons c r =>
      have hc : c ≠ 35 := by
        rintro rfl
        have := hw 35 (by simp)
        rw [ok.hash] at this
        cases this
      have := matchX_plain env ok (c :: r) rest hw h1 h8 hx
      simp only [List.cons_append] at this ⊢
      unfold matchEntity
      simp only [hc, if_false, this, Option.map_some]
  rw [decode_match env _ _ _ _ _ hm]
  constructor
  · intro cp hcp h0 hlt
    have hs : substitute env false false w = some cp := by
      simp [substitute, hcp, safeUnichr, hlt, Nat.pos_iff_ne_zero.1 h0]
    rw [hs]
  · intro hcp
    have hs : substitute env false false w = none := by simp [substitute, hcp]
    rw [hs]
    have hl : (w ++ 59 :: rest).length - rest.length = (w ++ [59]).length := by simp; omega
    have ht : (w ++ 59 :: rest).take ((w ++ 59 :: rest).length - rest.length) = w ++ [59] := by
      rw [hl, (by simp : w ++ 59 :: rest = (w ++ [59]) ++ rest), List.take_left]
    simp only [ht]
    simp

/-- **C133 (finding).** In a longer name that begins with `x` or `X` this letter is ignored: the rest is looked up.  So
`&xi;` and `&Xi;` are not decoded (there is no entity `i`), and what is no entity at all, like `&xlt;`, becomes a
character. -/
theorem C133_names_with_x (env : Env) (ok : EnvOk env) (c : Nat) (hc : c = 120 ∨ c = 88) (w rest : Txt)
    (hw : ∀ x ∈ w, env.isWord x = true) (h1 : 1 ≤ w.length) (h8 : w.length ≤ 8) :
    (∀ cp, env.n2cp w = some cp → 0 < cp → cp < 1114112 →
      decode env (38 :: c :: (w ++ 59 :: rest)) = cp :: decode env rest) ∧
    (env.n2cp w = none → decode env (38 :: c :: (w ++ 59 :: rest)) = 38 :: c :: (w ++ 59 :: decode env rest)) := by
  have hm : matchEntity env (c :: (w ++ 59 :: rest)) = some (false, true, w, rest) := by
    unfold matchEntity
    have : c ≠ 35 := by omega
    simp only [this, if_false, matchX_x env ok c hc w rest hw h1 h8, Option.map_some]
  rw [decode_match env _ _ _ _ _ hm]
  constructor
  · intro cp hcp h0 hlt
    have hs : substitute env false true w = some cp := by
      simp [substitute, hcp, safeUnichr, hlt, Nat.pos_iff_ne_zero.1 h0]
    rw [hs]
  · intro hcp
    have hs : substitute env false true w = none := by simp [substitute, hcp]
    rw [hs]
    have hl : (c :: (w ++ 59 :: rest)).length - rest.length = (c :: (w ++ [59])).length := by simp; omega
    have ht : (c :: (w ++ 59 :: rest)).take ((c :: (w ++ 59 :: rest)).length - rest.length) = c :: (w ++ [59]) := by
      rw [hl, (by simp : c :: (w ++ 59 :: rest) = (c :: (w ++ [59])) ++ rest), List.take_left]
    simp only [ht]
    simp

/-- **C133.** A number that is no code point stays as it is. -/
theorem C133_no_code_point (env : Env) (ok : EnvOk env) (n : Nat) (w rest : Txt) (hw : ∀ x ∈ w, env.isWord x = true)
    (h1 : 1 ≤ w.length) (h8 : w.length ≤ 8) (hx : ∀ c, w.head? = some c → c ≠ 120 ∧ c ≠ 88)
    (hi : env.intDec w = none ∨ env.intDec w = some n ∧ 1114112 ≤ n) :
    decode env (38 :: 35 :: (w ++ 59 :: rest)) = 38 :: 35 :: (w ++ 59 :: decode env rest) := by
  have hm : matchEntity env (35 :: (w ++ 59 :: rest)) = some (true, false, w, rest) := by
    unfold matchEntity
    simp [matchX_plain env ok w rest hw h1 h8 hx]
  rw [decode_match env _ _ _ _ _ hm]
  have hs : substitute env true false w = none := by
    rcases hi with h | ⟨h, h'⟩
    · simp [substitute, h]
    · simp [substitute, h, safeUnichr, h']
  rw [hs]
  have hl : (35 :: (w ++ 59 :: rest)).length - rest.length = (35 :: (w ++ [59])).length := by simp; omega
  have ht : (35 :: (w ++ 59 :: rest)).take ((35 :: (w ++ 59 :: rest)).length - rest.length) = 35 :: (w ++ [59]) := by
    rw [hl, (by simp : 35 :: (w ++ 59 :: rest) = (35 :: (w ++ [59])) ++ rest), List.take_left]
  simp only [ht]
  simp

/-- **C133.** An ampersand that begins no entity is left alone: no semicolon after the name, no name, or more than nine
word characters. -/
theorem C133_no_entity (env : Env) (ok : EnvOk env) (w rest : Txt) (c : Nat) (hw : ∀ x ∈ w, env.isWord x = true)
    (hc : env.isWord c = false) (h : c ≠ 59 ∨ w = [] ∨ 9 < w.length) (h35 : w = [] → c ≠ 35) :
    decode env (38 :: (w ++ c :: rest)) = 38 :: (w ++ decode env (c :: rest)) := by
  have hpass : ∀ v : Txt, (∀ x ∈ v, env.isWord x = true) → decode env (v ++ c :: rest) = v ++ decode env (c :: rest) := by
    intro v
    induction v with
    | nil => intro _; rfl
    | cons x v ih =>
      intro hv
      have hx : x ≠ 38 := by
        rintro rfl
        have := hv 38 (by simp)
        rw [ok.amp] at this
        cases this
      rw [List.cons_append, decode_cons_ne env x _ hx, ih fun y hy => hv y (by simp [hy])]
      rfl
  have hname : ∀ v : Txt, (∀ x ∈ v, env.isWord x = true) → (c ≠ 59 ∨ v = [] ∨ 8 < v.length) →
      matchName env (v ++ c :: rest) = none := by
    intro v hv hh
    obtain ⟨a, b⟩ := takeWhile_run env.isWord v rest c hv hc
    unfold matchName
    rw [a, b]
    dsimp only
    rw [if_neg]
    rintro ⟨h1, h2, h3⟩
    rcases hh with hh | hh | hh
    · exact hh h1
    · subst hh; simp at h2
    · omega
  have hX : matchX env (w ++ c :: rest) = none := by
    cases w with
    | nil =>
      have h1 := hname [] (by simp) (Or.inr (Or.inl rfl))
      simp only [List.nil_append] at h1 ⊢
      unfold matchX
      have hcx : ¬ (c = 120 ∨ c = 88) := by
        rintro (rfl | rfl)
        · rw [ok.lower 120 (by omega) (by omega)] at hc; cases hc
        · rw [ok.upper 88 (by omega) (by omega)] at hc; cases hc
      simp only [hcx, if_false, h1, Option.map_none]
    | cons x v =>
      have h1 := hname (x :: v) hw (by
        rcases h with h | h | h
        · exact Or.inl h
        · cases h
        · exact Or.inr (Or.inr (by omega)))
      have h2 : c ≠ 59 ∨ 9 < (x :: v).length → matchName env (v ++ c :: rest) = none := fun hh =>
        hname v (fun y hy => hw y (by simp [hy])) (by
          rcases hh with hh | hh
          · exact Or.inl hh
          · exact Or.inr (Or.inr (by simp at hh; omega)))
      have h3 := h2 (by
        rcases h with h | h | h
        · exact Or.inl h
        · cases h
        · exact Or.inr h)
      simp only [List.cons_append] at h1 ⊢
      unfold matchX
      simp only [h1, h3, Option.map_none, ite_self]
  have hE : matchEntity env (w ++ c :: rest) = none := by
    cases w with
    | nil =>
      simp only [List.nil_append] at hX ⊢
      unfold matchEntity
      simp only [h35 rfl, if_false, hX, Option.map_none]
    | cons x v =>
      have hx : x ≠ 35 := by
        rintro rfl
        have := hw 35 (by simp)
        rw [ok.hash] at this
        cases this
      simp only [List.cons_append] at hX ⊢
      unfold matchEntity
      simp only [hx, if_false, hX, Option.map_none]
  rw [decode]
  simp only [if_true]
  split
  · rename_i heq
    rw [hE] at heq
    cases heq
  · rw [hpass w hw]

/-! ## Nested lists -/

/-- an element that flattening does not open -/
def isLeaf : Item → Prop
  | .atom _ => True
  | .str _ => True
  | _ => False

theorem flatten_append (a b : List Item) : flatten (a ++ b) = flatten a ++ flatten b := by
  induction a with
  | nil => simp [flatten]
  | cons x a ih => cases x <;> simp [flatten, ih]

/-- **C133.** Flattening keeps the order, opens every list, however deep, keeps strings whole, and yields only elements
that need no flattening. -/
theorem C133_flatten :
    (∀ a b, flatten (a ++ b) = flatten a ++ flatten b) ∧ (∀ l, flatten [.seq l] = flatten l) ∧
    (∀ s, flatten [.str s] = [.str s]) ∧ (∀ n, flatten [.atom n] = [.atom n]) ∧
    ∀ l, (∀ x ∈ flatten l, isLeaf x) ∧ flatten (flatten l) = flatten l := by
  refine ⟨flatten_append, fun l => by simp [flatten], fun s => by simp [flatten], fun n => by simp [flatten], ?_⟩
  have hleaf : ∀ l, ∀ x ∈ flatten l, isLeaf x := by
    intro l
    induction l using flatten.induct with
    | case1 => intro x hx; simp [flatten] at hx
    | case2 n l ih =>
      intro x hx
      rw [flatten] at hx
      rcases List.mem_cons.1 hx with rfl | hx
      · trivial
      · exact ih x hx
    | case3 s l ih =>
      intro x hx
      rw [flatten] at hx
      rcases List.mem_cons.1 hx with rfl | hx
      · trivial
      · exact ih x hx
    | case4 b l ih =>
      intro x hx
      rw [flatten] at hx
      rcases List.mem_append.1 hx with hx | hx
      · obtain ⟨n, _, rfl⟩ := List.mem_map.1 hx; trivial
      · exact ih x hx
    | case5 s l ih1 ih2 =>
      intro x hx
      rw [flatten] at hx
      rcases List.mem_append.1 hx with hx | hx
      · exact ih1 x hx
      · exact ih2 x hx
  have hfix : ∀ l : List Item, (∀ x ∈ l, isLeaf x) → flatten l = l := by
    intro l
    induction l with
    | nil => intro _; simp [flatten]
    | cons x l ih =>
      intro h
      have hx := h x (by simp)
      have hl := ih fun y hy => h y (by simp [hy])
      cases x with
      | atom n => simp [flatten, hl]
      | str s => simp [flatten, hl]
      | bytes b => exact absurd hx (by simp [isLeaf])
      | seq s => exact absurd hx (by simp [isLeaf])
  exact fun l => ⟨hleaf l, hfix _ (hleaf l)⟩

/-- **C133 (finding).** Bytes are not kept whole as strings are: their byte values come out. -/
theorem C133_flatten_bytes (b : List Nat) : flatten [.bytes b] = b.map .atom := by simp [flatten]

/-! ## Files -/

/-- **C133.** A file opened by name is closed however the body ends; a file that was passed in is rewound and never
closed; exceptions reach the caller. -/
theorem C133_open_file (body : Body) (pos : Nat) :
    (openFile false .name body).closed = true ∧ (openFile false (.file pos) body).closed = false ∧
    (openFile false (.file pos) body).start = 0 ∧
    ∀ i, (openFile false i body).raised = true ↔ body ≠ .normal := by
  cases body <;> (refine ⟨rfl, rfl, rfl, fun i => ?_⟩; cases i <;> simp [openFile])

/-- a call at its beginning -/
def begin : Thread := ⟨0, .copy, none⟩

/-- **C133.** Calls of `copytree_hardlink` one after the other make hard links and leave `shutil.copy2` as it was. -/
theorem C133_hardlink (g : Fn) (ts : Nat → Thread) (l : List Nat) (hl : l.Nodup) (h : ∀ i ∈ l, ts i = begin) :
    (linkRun (l.flatMap fun i => [i, i, i, i]) (g, ts)).1 = g ∧
    ∀ i ∈ l, ((linkRun (l.flatMap fun i => [i, i, i, i]) (g, ts)).2 i).used = some .link := by
  have hrun : ∀ (a b : List Nat) s, linkRun (a ++ b) s = linkRun b (linkRun a s) := by
    intro a b
    induction a with
    | nil => intro s; rfl
    | cons x a ih => intro s; exact ih _
  have hone : ∀ (i : Nat) (g : Fn) (ts : Nat → Thread), ts i = begin →
      linkRun [i, i, i, i] (g, ts) = (g, fun j => if j = i then ⟨4, g, some .link⟩ else ts j) := by
    intro i g ts hi
    simp only [linkRun, hi, begin, linkStep, if_true]
    congr 1
    funext j
    by_cases hj : j = i <;> simp [hj]
  have hother : ∀ (l : List Nat) (s : Fn × (Nat → Thread)) (i : Nat), i ∉ l →
      (linkRun (l.flatMap fun i => [i, i, i, i]) s).2 i = s.2 i := by
    have : ∀ (m : List Nat) (s : Fn × (Nat → Thread)) (i : Nat), i ∉ m → (linkRun m s).2 i = s.2 i := by
      intro m
      induction m with
      | nil => intro s i _; rfl
      | cons x m ih =>
        intro s i hi
        rw [linkRun, ih _ _ (fun h => hi (by simp [h]))]
        have hx : i ≠ x := fun h => hi (by simp [h])
        simp [hx]
    intro l s i hi
    apply this
    intro hm
    obtain ⟨a, ha, hb⟩ := List.mem_flatMap.1 hm
    simp at hb
    exact hi (hb ▸ ha)
  induction l generalizing g ts with
  | nil => exact ⟨rfl, fun i hi => by cases hi⟩
  | cons i l ih =>
    obtain ⟨hi, hl'⟩ := List.nodup_cons.1 hl
    rw [List.flatMap_cons, hrun, hone i g ts (h i (by simp))]
    have h' : ∀ j ∈ l, (fun j => if j = i then (⟨4, g, some .link⟩ : Thread) else ts j) j = begin := by
      intro j hj
      have : j ≠ i := fun e => hi (e ▸ hj)
      simp [this, h j (by simp [hj])]
    obtain ⟨a, b⟩ := ih g _ hl' h'
    refine ⟨a, ?_⟩
    intro j hj
    rcases List.mem_cons.1 hj with rfl | hj
    · rw [hother l _ _ hi]; simp
    · exact b j hj

/-- **C133 (finding).** Two calls in different threads can leave the process with hard links in place of copies for
good: both calls are finished and `shutil.copy2` is `os.link`. -/
theorem C133_hardlink_race : ∃ sched : List Nat, ∀ ts, ts 0 = begin → ts 1 = begin →
    ((linkRun sched (.copy, ts)).2 0).pc = 4 ∧ ((linkRun sched (.copy, ts)).2 1).pc = 4 ∧
    (linkRun sched (.copy, ts)).1 = .link := by
  refine ⟨[0, 0, 1, 1, 0, 0, 1, 1], fun ts h0 h1 => ?_⟩
  simp [linkRun, linkStep, h0, h1, begin]

/-! ## Uploading -/

theorem prepare_ok (pre : Txt → List Txt) (ds : List Document) (h : ∀ d ∈ ds, d.text ≠ none) :
    prepare pre ds = (ds.map fun d => ⟨none, d.text.map pre⟩, true) := by
  induction ds with
  | nil => rfl
  | cons d ds ih =>
    have hd := h d (by simp)
    cases ht : d.text with
    | none => exact absurd ht hd
    | some t => simp [prepare, ht, ih fun x hx => h x (by simp [hx])]

theorem uploadLoop_ok (pre : Txt → List Txt) (cs : List (List Document)) (h : ∀ c ∈ cs, ∀ d ∈ c, d.text ≠ none) :
    uploadLoop (some pre) cs = (cs.map fun c => c.map fun d => ⟨none, d.text.map pre⟩,
      (cs.flatten.map fun d => ⟨none, d.text.map pre⟩), true) := by
  induction cs with
  | nil => rfl
  | cons c cs ih =>
    rw [uploadLoop, prepare_ok pre c (h c (by simp)), ih fun x hx => h x (by simp [hx])]
    simp

/-- **C133.** Uploading documents with text sends every document once, in order, in non-empty chunks of at most
`chunksize`, with its tokens in place of the text. -/
theorem C133_upload (pre : Txt → List Txt) (n : Nat) (hn : 0 < n) (docs : List Document) (h : ∀ d ∈ docs, d.text ≠ none) :
    (upload (some pre) n docs).1.flatten = docs.map (fun d => ⟨none, d.text.map pre⟩) ∧
    (upload (some pre) n docs).2.2 = true ∧
    (∀ c ∈ (upload (some pre) n docs).1, c ≠ [] ∧ c.length ≤ n) := by
  have hc : (Chunk.chunks n docs).flatten = docs := Chunk.C15_concat hn docs
  have hmem : ∀ c ∈ Chunk.chunks n docs, ∀ d ∈ c, d.text ≠ none := by
    intro c hcm d hd
    apply h
    rw [← hc]
    exact List.mem_flatten.2 ⟨c, hcm, hd⟩
  unfold upload
  rw [uploadLoop_ok pre _ hmem]
  refine ⟨?_, rfl, ?_⟩
  · have e : ((Chunk.chunks n docs).map fun c => c.map fun d => (⟨none, d.text.map pre⟩ : Document)).flatten =
        (Chunk.chunks n docs).flatten.map fun d => ⟨none, d.text.map pre⟩ := by
      rw [List.map_flatten]
    simp only [e, hc]
  · intro c hcm
    obtain ⟨c', hc', rfl⟩ := List.mem_map.1 hcm
    have hz := (Chunk.C15_sizes hn docs).1 c' hc'
    have hs : c' ≠ [] ∧ c'.length ≤ n := ⟨List.ne_nil_of_length_pos hz.1, hz.2⟩
    exact ⟨by simpa using hs.1, by simpa using hs.2⟩

/-- **C133 (finding).** The text is removed from the caller's documents: uploading the same documents again fails at
the first one, and nothing is sent. -/
theorem C133_upload_twice (pre : Txt → List Txt) (n : Nat) (hn : 0 < n) (docs : List Document) (hne : docs ≠ [])
    (h : ∀ d ∈ docs, d.text ≠ none) :
    (upload (some pre) n (upload (some pre) n docs).2.1).1 = [] ∧
    (upload (some pre) n (upload (some pre) n docs).2.1).2.2 = false := by
  have hc : (Chunk.chunks n docs).flatten = docs := Chunk.C15_concat hn docs
  have hmem : ∀ c ∈ Chunk.chunks n docs, ∀ d ∈ c, d.text ≠ none := by
    intro c hcm d hd
    apply h
    rw [← hc]
    exact List.mem_flatten.2 ⟨c, hcm, hd⟩
  have e : (upload (some pre) n docs).2.1 = docs.map fun d => ⟨none, d.text.map pre⟩ := by
    unfold upload
    rw [uploadLoop_ok pre _ hmem]
    simp only [hc]
  rw [e]
  cases docs with
  | nil => exact absurd rfl hne
  | cons d docs =>
    unfold upload
    rw [Chunk.chunks_cons hn (by simp)]
    obtain ⟨m, rfl⟩ : ∃ m, n = m + 1 := ⟨n - 1, by omega⟩
    simp only [List.map_cons, List.take_succ_cons, uploadLoop, prepare]
    simp

/-- **C133.** The number of jobs is at least one, whatever is asked for, except that zero is refused. -/
theorem C133_jobs (cpus : Nat) (n : Option Int) :
    (effectiveNJobs cpus n = none ↔ n = some 0) ∧ (∀ k, effectiveNJobs cpus n = some k → 1 ≤ k) ∧
    (∀ k : Int, 0 < k → effectiveNJobs cpus (some k) = some k) ∧ (0 < cpus → effectiveNJobs cpus (some (-1)) = some (cpus : Int)) := by
  refine ⟨?_, ?_, ?_, ?_⟩
  · cases n with
    | none => simp [effectiveNJobs]
    | some k =>
      by_cases h0 : k = 0
      · simp [effectiveNJobs, h0]
      · by_cases h1 : k < 0 <;> simp [effectiveNJobs, h0, h1]
  · intro k hk
    cases n with
    | none => simp only [effectiveNJobs, Option.some.injEq] at hk; omega
    | some j =>
      unfold effectiveNJobs at hk
      dsimp only at hk
      split at hk
      · cases hk
      · split at hk
        · cases hk; exact le_max_right _ _
        · cases hk; omega
  · intro k hk
    have h1 : k ≠ 0 := by omega
    have h2 : ¬ k < 0 := by omega
    simp only [effectiveNJobs, if_neg h1, if_neg h2]
  · intro hc
    simp only [effectiveNJobs]
    norm_num
    omega

/-! ## Cases -/

/-- libraries that meet the assumptions -/
def envCase : Env where
  isWord c := (48 ≤ c && c ≤ 57) || (97 ≤ c && c ≤ 122) || (65 ≤ c && c ≤ 90) || c == 95
  intDec w := if w.all (fun c => 48 ≤ c && c ≤ 57) then some (Nat.ofDigits 10 (w.map (· - 48)).reverse) else none
  intHex w := some (Nat.ofDigits 16 (w.map fun c => if c < 58 then c - 48 else c - 87).reverse)
  n2cp w := if w = [120, 105] then some 958 else if w = [108, 116] then some 60 else if w = [97, 109, 112] then some 38 else none

example : EnvOk envCase where
  digit c h1 h2 := by simp [envCase, h1, h2]
  lower c h1 h2 := by simp [envCase, h1, h2]
  upper c h1 h2 := by simp [envCase, h1, h2]
  amp := by decide
  hash := by decide
  semi := by decide
  intDec n := by
    have hall : (dec n).all (fun c => 48 ≤ c && c ≤ 57) = true := by
      rw [List.all_eq_true]
      intro x hx
      unfold dec at hx
      split at hx
      · simp at hx; simp [hx]
      · obtain ⟨d, hd, rfl⟩ := List.mem_map.1 hx
        have := Nat.digits_lt_base (by norm_num : 1 < 10) (List.mem_reverse.1 hd)
        simp; omega
    simp only [envCase, hall, if_true]
    unfold dec
    by_cases h : n = 0
    · simp [h]
    · rw [if_neg h, List.map_map]
      have : ((fun x => x - 48) ∘ fun x => 48 + x) = id := by funext x; simp
      rw [this, List.map_id, List.reverse_reverse, Nat.ofDigits_digits]
  intHex n := by
    simp only [envCase]
    unfold hex
    by_cases h : n = 0
    · simp [h]
    · rw [if_neg h, List.map_map]
      have : (Nat.digits 16 n).reverse.map ((fun c => if c < 58 then c - 48 else c - 87) ∘ fun d => if d < 10 then 48 + d else 87 + d) =
          (Nat.digits 16 n).reverse := by
        conv_rhs => rw [← List.map_id (Nat.digits 16 n).reverse]
        apply List.map_congr_left
        intro d hd
        have := Nat.digits_lt_base (by norm_num : 1 < 16) (List.mem_reverse.1 hd)
        simp only [Function.comp, id]
        split <;> split <;> omega
      rw [this, List.reverse_reverse, Nat.ofDigits_digits]

end Verif.Helper
