import Mathlib.Tactic.Common
import Verif.Utils.Utf8Model
import Verif.FastText.NgramProps

/-! Property C173: text survives the way through UTF-8, and working on bytes is working on characters. -/

namespace Verif.Utf8
open Text
open FastText (encode encChar encode_cons encode_append encode_length_ge)

/-! ### specification -/

/-- Spec of C173: the parts of a sequence between the occurrences of `x`, as `split(x)` gives them -/
def parts {α : Type} [DecidableEq α] (x : α) : List α → List (List α)
  | [] => [[]]
  | y :: s =>
    match parts x s with
    | [] => [[y]]
    | h :: t => if y = x then [] :: h :: t else (y :: h) :: t

/-- Spec of C173: the lines of a file, each with the line end `x` it has -/
def fileLines {α : Type} [DecidableEq α] (x : α) : List α → List (List α)
  | [] => []
  | y :: s =>
    if y = x then [y] :: fileLines x s
    else match fileLines x s with
      | [] => [[y]]
      | h :: t => (y :: h) :: t

/-! ### one character -/

theorem char_range (c : Char) : c.toNat < 55296 ∨ (57343 < c.toNat ∧ c.toNat < 1114112) := c.valid

theorem toNat_ofNat {n : Nat} (h : n < 55296 ∨ (57343 < n ∧ n < 1114112)) : (Char.ofNat n).toNat = n := by
  have hv : n.isValidChar := h
  unfold Char.ofNat
  rw [dif_pos hv]
  rfl

theorem cont_iff (b : Nat) : cont b = true ↔ 128 ≤ b ∧ b < 192 := by simp [cont]

theorem strictChar_enc (c : Char) (f : List Nat) : strictChar (encChar c ++ f) = some (c, f) := by
  have hb := char_range c
  have hc : Char.ofNat c.toNat = c := Char.ofNat_toNat c
  unfold encChar
  dsimp only
  split
  · next h => simp [strictChar, h, hc]
  split
  · next h h2 =>
    have a3 : (0xC0 + c.toNat / 64 - 0xC0) * 64 + (0x80 + c.toNat % 64 - 0x80) = c.toNat := by omega
    simp only [List.cons_append, List.nil_append, strictChar, cont_iff]
    rw [if_neg (by omega), if_neg (by omega), if_pos (by omega), a3, if_pos (by omega), hc]
  split
  · next h h2 h3 =>
    have a4 : (0xE0 + c.toNat / 4096 - 0xE0) * 4096 + (0x80 + c.toNat / 64 % 64 - 0x80) * 64 +
      (0x80 + c.toNat % 64 - 0x80) = c.toNat := by omega
    simp only [List.cons_append, List.nil_append, strictChar, cont_iff]
    rw [if_neg (by omega), if_neg (by omega), if_neg (by omega), if_pos (by omega), a4,
      if_pos (by omega), hc]
  · next h h2 h3 =>
    have a4 : (0xF0 + c.toNat / 262144 - 0xF0) * 262144 +
      (0x80 + c.toNat / 4096 % 64 - 0x80) * 4096 + (0x80 + c.toNat / 64 % 64 - 0x80) * 64 +
      (0x80 + c.toNat % 64 - 0x80) = c.toNat := by omega
    simp only [List.cons_append, List.nil_append, strictChar, cont_iff]
    rw [if_neg (by omega), if_neg (by omega), if_neg (by omega), if_neg (by omega), a4,
      if_pos (by omega), hc]

theorem enc_strictChar {b r : List Nat} {c : Char} (h : strictChar b = some (c, r)) :
    b = encChar c ++ r := by
  cases b with
  | nil => cases h
  | cons a f =>
    unfold strictChar at h
    dsimp only at h
    split at h
    · next ha =>
      cases h
      simp only [encChar]
      rw [toNat_ofNat (by omega), if_pos (by omega)]
      rfl
    split at h
    · cases h
    split at h
    · next h1 h2 h3 =>
      split at h
      · next b f =>
        split at h
        · next hv =>
          rw [cont_iff] at hv
          simp only [Option.some.injEq, Prod.mk.injEq] at h
          obtain ⟨rfl, rfl⟩ := h
          generalize hw : (a - 0xC0) * 64 + (b - 0x80) = v at hv
          simp only [encChar]
          rw [toNat_ofNat (by omega), if_neg (by omega), if_pos (by omega)]
          simp only [List.cons_append, List.nil_append, List.cons.injEq, and_true]
          omega
        · cases h
      · cases h
    split at h
    · next h1 h2 h3 h4 =>
      split at h
      · next b c f =>
        split at h
        · next hv =>
          rw [cont_iff, cont_iff] at hv
          simp only [Option.some.injEq, Prod.mk.injEq] at h
          obtain ⟨rfl, rfl⟩ := h
          generalize hw : (a - 0xE0) * 4096 + (b - 0x80) * 64 + (c - 0x80) = v at hv
          simp only [encChar]
          rw [toNat_ofNat (by omega), if_neg (by omega), if_neg (by omega), if_pos (by omega)]
          simp only [List.cons_append, List.nil_append, List.cons.injEq, and_true]
          omega
        · cases h
      · cases h
    · next h1 h2 h3 h4 =>
      split at h
      · next b c d f =>
        split at h
        · next hv =>
          rw [cont_iff, cont_iff, cont_iff] at hv
          simp only [Option.some.injEq, Prod.mk.injEq] at h
          obtain ⟨rfl, rfl⟩ := h
          generalize hw : (a - 0xF0) * 262144 + (b - 0x80) * 4096 + (c - 0x80) * 64 + (d - 0x80) = v at hv
          simp only [encChar]
          rw [toNat_ofNat (by omega), if_neg (by omega), if_neg (by omega), if_neg (by omega)]
          simp only [List.cons_append, List.nil_append, List.cons.injEq, and_true]
          omega
        · cases h
      · cases h

theorem encChar_cons (c : Char) : ∃ a f, encChar c = a :: f := by
  unfold encChar
  dsimp only
  repeat' split
  all_goals exact ⟨_, _, rfl⟩

/-! ### texts -/

theorem strictAux_encode (s : Str) (n : Nat) (h : s.length ≤ n) : strictAux n (encode s) = some s := by
  induction s generalizing n with
  | nil => cases n <;> rfl
  | cons c s ih =>
    cases n with
    | zero => simp at h
    | succ n =>
      obtain ⟨a, f, e⟩ := encChar_cons c
      have hs := strictChar_enc c (encode s)
      rw [encode_cons]
      rw [e, List.cons_append] at hs ⊢
      rw [strictAux, hs]
      simp only [Option.bind_some]
      rw [ih n (by simpa using h)]
      rfl

theorem encode_strictAux {n : Nat} {b : List Nat} {s : Str} (h : strictAux n b = some s) :
    encode s = b := by
  induction n generalizing b s with
  | zero =>
    cases b with
    | nil => cases h; rfl
    | cons a f => cases h
  | succ n ih =>
    cases b with
    | nil => cases h; rfl
    | cons a f =>
      rw [strictAux] at h
      obtain ⟨⟨c, r⟩, hc, hr⟩ := Option.bind_eq_some_iff.mp h
      obtain ⟨t, ht, rfl⟩ := Option.map_eq_some_iff.mp hr
      rw [encode_cons, ih ht, enc_strictChar hc]

/-- **C173.** Bytes decode to `s` exactly when they are the encoding of `s`: encoding loses nothing and
nothing else is read as `s`. -/
theorem C173_decode (b : List Nat) (s : Str) : any2unicode (.bytes b) = some s ↔ any2utf8 (.text s) = some b := by
  constructor
  · intro h
    exact congrArg some (encode_strictAux h)
  · intro h
    cases h
    exact strictAux_encode s _ (encode_length_ge s)

theorem strictDecode_iff (b : List Nat) (s : Str) : strictDecode b = some s ↔ encode s = b := by
  have := C173_decode b s
  simpa [any2unicode, any2utf8] using this

/-- **C173.** `any2utf8` returns bytes unchanged if it returns, and it raises exactly for those that
encode no text. -/
theorem C173_bytes (b : List Nat) :
    (∀ r, any2utf8 (.bytes b) = some r → r = b) ∧
    (any2utf8 (.bytes b) = none ↔ ∀ s, any2utf8 (.text s) ≠ some b) := by
  constructor
  · intro r h
    obtain ⟨s, hs, rfl⟩ := Option.map_eq_some_iff.mp h
    exact (strictDecode_iff b s).mp hs
  · simp only [any2utf8, Option.map_eq_none_iff, ne_eq, Option.some.injEq]
    rw [Option.eq_none_iff_forall_ne_some]
    exact forall_congr' fun s => not_congr (strictDecode_iff b s)

/-- **C173.** Different texts have different bytes. -/
theorem C173_injective (s t : Str) (h : any2utf8 (.text s) = any2utf8 (.text t)) : s = t := by
  have h2 := (C173_decode (encode s) s).mpr rfl
  rw [(C173_decode (encode s) t).mpr h.symm] at h2
  exact (Option.some.inj h2).symm

/-- an ASCII character is one byte, which is in no longer sequence -/
theorem mem_encChar {c : Char} (hc : c.toNat < 128) (d : Char) : c.toNat ∈ encChar d ↔ c = d := by
  constructor
  · intro h
    unfold encChar at h
    dsimp only at h
    split at h
    · have e := List.mem_singleton.mp h
      have := congrArg Char.ofNat e
      rwa [Char.ofNat_toNat, Char.ofNat_toNat] at this
    · exfalso
      repeat' split at h
      all_goals (simp at h; omega)
  · rintro rfl
    unfold encChar
    simp [hc]

theorem encChar_ascii {c : Char} (hc : c.toNat < 128) : encChar c = [c.toNat] := by
  unfold encChar
  simp [hc]

/-- **C173.** An ASCII character stands in a text exactly when its byte stands in the encoding. -/
theorem C173_ascii (c : Char) (hc : c.toNat < 128) (s : Str) : c.toNat ∈ encode s ↔ c ∈ s := by
  unfold encode
  rw [List.mem_flatMap]
  constructor
  · rintro ⟨d, hd, h⟩
    rw [(mem_encChar hc d).mp h]; exact hd
  · intro h
    exact ⟨c, h, (mem_encChar hc c).mpr rfl⟩

theorem parts_ne_nil {α : Type} [DecidableEq α] (x : α) (s : List α) : parts x s ≠ [] := by
  cases s with
  | nil => simp [parts]
  | cons y s =>
    rw [parts]
    cases parts x s with
    | nil => simp
    | cons h t => dsimp only; split <;> simp

theorem parts_cons_eq {α : Type} [DecidableEq α] (x : α) (s : List α) :
    parts x (x :: s) = [] :: parts x s := by
  rw [parts]
  cases h : parts x s with
  | nil => exact absurd h (parts_ne_nil x s)
  | cons a t => simp

theorem parts_prefix {α : Type} [DecidableEq α] {x : α} {p : List α} (hp : x ∉ p) (s : List α)
    {h : List α} {t : List (List α)} (e : parts x s = h :: t) : parts x (p ++ s) = (p ++ h) :: t := by
  induction p with
  | nil => exact e
  | cons y p ih =>
    simp only [List.mem_cons, not_or] at hp
    rw [List.cons_append, parts, ih hp.2]
    dsimp only
    rw [if_neg (fun h => hp.1 h.symm)]
    rfl

/-- **C173.** Cutting the bytes at an ASCII character (a space, a tab, a line end, …) cuts the text there:
the parts of the bytes are the encodings of the parts of the text. -/
theorem C173_split (c : Char) (hc : c.toNat < 128) (s : Str) :
    parts c.toNat (encode s) = (parts c s).map encode := by
  induction s with
  | nil => rfl
  | cons d s ih =>
    by_cases e : d = c
    · subst e
      rw [encode_cons, encChar_ascii hc, List.singleton_append, parts_cons_eq, parts_cons_eq, ih]
      rfl
    · cases hp : parts c s with
      | nil => exact absurd hp (parts_ne_nil c s)
      | cons h t =>
        rw [hp] at ih
        rw [encode_cons, parts_prefix (fun hm => e ((mem_encChar hc d).mp hm).symm) _ ih]
        have := parts_prefix (x := c) (p := [d]) (by simp; exact fun h => e h.symm) s hp
        rw [List.singleton_append] at this
        rw [this]
        simp [encode_cons]

theorem fileLines_prefix {α : Type} [DecidableEq α] {x : α} {p : List α} (hp : x ∉ p) (hne : p ≠ [])
    (s : List α) : fileLines x (p ++ s) =
      match fileLines x s with
      | [] => [p]
      | h :: t => (p ++ h) :: t := by
  induction p with
  | nil => exact absurd rfl hne
  | cons y p ih =>
    simp only [List.mem_cons, not_or] at hp
    rw [List.cons_append, fileLines, if_neg (fun h => hp.1 h.symm)]
    cases p with
    | nil => rw [List.nil_append]; cases fileLines x s <;> rfl
    | cons z p =>
      rw [ih hp.2 (by simp)]
      cases fileLines x s <;> rfl

/-- **C173.** The lines of a file read as bytes are the encodings of the lines of its text, and so
decoding it line by line is decoding it at once. -/
theorem C173_lines (s : Str) :
    fileLines '\n'.toNat (encode s) = (fileLines '\n' s).map encode ∧
    (fileLines '\n'.toNat (encode s)).map (fun l => any2unicode (.bytes l)) =
      (fileLines '\n' s).map some := by
  have hc : '\n'.toNat < 128 := by decide
  have main : fileLines '\n'.toNat (encode s) = (fileLines '\n' s).map encode := by
    induction s with
    | nil => rfl
    | cons d s ih =>
      by_cases e : d = '\n'
      · subst e
        rw [encode_cons, encChar_ascii hc, List.singleton_append, fileLines, if_pos rfl, fileLines,
          if_pos rfl, ih]
        rfl
      · obtain ⟨a, f, ha⟩ := encChar_cons d
        rw [encode_cons, fileLines_prefix (fun hm => e ((mem_encChar hc d).mp hm).symm)
          (by rw [ha]; simp), ih, fileLines, if_neg e]
        cases fileLines '\n' s with
        | nil => simp [encode]
        | cons h t => simp [encode_cons]
  refine ⟨main, ?_⟩
  rw [main, List.map_map]
  refine List.map_congr_left fun l _ => ?_
  exact (C173_decode _ l).mpr rfl

/-- **C173.** Positions in bytes stand for positions in characters: from the position behind the first `n`
characters one reads the encoding of the rest, and no two positions in a text have the same position in
bytes. -/
theorem C173_seek (s : Str) (n : ℕ) :
    (encode s).drop (encode (s.take n)).length = encode (s.drop n) ∧
    ∀ m, n < m → m ≤ s.length → (encode (s.take n)).length < (encode (s.take m)).length := by
  constructor
  · conv_lhs => rw [← List.take_append_drop n s, encode_append]
    rw [List.take_append_drop, List.drop_left]
  · intro m hnm hm
    have e : s.take m = s.take n ++ (s.drop n).take (m - n) := by
      rw [← List.take_add]; congr 1; omega
    have hl := encode_length_ge ((s.drop n).take (m - n))
    rw [List.length_take, List.length_drop] at hl
    rw [e, encode_append, List.length_append]
    omega

/-- **C173.** A file that was cut anywhere never decodes to another text: what its first `n` bytes
decode to, if they decode, is a beginning of the text. -/
theorem C173_cut (s t : Str) (n : ℕ) (h : any2unicode (.bytes ((encode s).take n)) = some t) :
    t <+: s := by
  have e : encode t = (encode s).take n := (strictDecode_iff _ t).mp h
  have hp : encode t <+: encode s := e ▸ List.take_prefix _ _
  clear h e
  induction t generalizing s with
  | nil => exact List.nil_prefix
  | cons c t ih =>
    obtain ⟨r, hr⟩ := hp
    rw [encode_cons, List.append_assoc] at hr
    have h1 := strictChar_enc c (encode t ++ r)
    rw [hr] at h1
    cases s with
    | nil => cases h1
    | cons d s =>
      rw [encode_cons, strictChar_enc] at h1
      simp only [Option.some.injEq, Prod.mk.injEq] at h1
      obtain ⟨rfl, h2⟩ := h1
      exact List.cons_prefix_cons.mpr ⟨rfl, ih s ⟨r, h2.symm⟩⟩

/-- **C173.** A cut inside a character is an error: the bytes before a whole number of characters and a
proper, non-empty part of the next do not decode. -/
theorem C173_cut_inside (s : Str) (c : Char) (k : ℕ) (h0 : 0 < k) (hk : k < (encChar c).length) :
    any2unicode (.bytes (encode s ++ (encChar c).take k)) = none := by
  cases h : any2unicode (.bytes (encode s ++ (encChar c).take k)) with
  | none => rfl
  | some t =>
    exfalso
    have e : encode t = encode s ++ (encChar c).take k := (strictDecode_iff _ t).mp h
    have hp : any2unicode (.bytes ((encode (s ++ [c])).take ((encode s).length + k))) = some t := by
      have : (encode (s ++ [c])).take ((encode s).length + k) = encode s ++ (encChar c).take k := by
        have hc0 : encode [c] = encChar c := by simp [encode]
        rw [encode_append, List.take_append, hc0, List.take_of_length_le (by omega),
          Nat.add_sub_cancel_left]
      rw [this]; exact h
    obtain ⟨u, hu⟩ := C173_cut (s ++ [c]) t _ hp
    have hl : (encode t).length = (encode s).length + k := by
      rw [e, List.length_append, List.length_take, Nat.min_eq_left (by omega)]
    have ht := congrArg encode hu
    rw [encode_append, encode_append] at ht
    have hc1 : encode [c] = encChar c := by simp [encode]
    rw [hc1] at ht
    rcases List.eq_nil_or_concat u with rfl | ⟨v, d, rfl⟩
    · have := congrArg List.length ht
      simp only [List.length_append, FastText.encode_nil, List.length_nil] at this
      omega
    · rw [List.concat_eq_append, ← List.append_assoc] at hu
      have hd := (List.append_inj' hu rfl).1
      have := congrArg (fun l => (encode l).length) hd
      simp only [encode_append, List.length_append] at this
      omega

example : any2unicode (.bytes [0xC3, 0xA9, 10, 0xF0, 0x9D, 0x84, 0x9E]) = some "é\n𝄞".toList := by decide

example : any2utf8 (.bytes [0xC0, 0x80]) = none ∧ any2utf8 (.bytes [0xED, 0xA0, 0x80]) = none ∧
    any2utf8 (.bytes [0xF4, 0x90, 0x80, 0x80]) = none ∧ any2utf8 (.bytes [0xC3]) = none := by decide

end Verif.Utf8
