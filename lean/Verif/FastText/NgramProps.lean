/-
Properties C42 and C43: fastText n-grams and their hashes.
-/
import Verif.FastText.NgramModel
import Mathlib.Data.List.Range
import Mathlib.Data.List.Nodup

namespace Verif.FastText

/-! ### Specification (independent of the loops of the model) -/

/-- The `n`-character substring of `s` that starts at position `p`. -/
def substring {α : Type} (s : List α) (p n : Nat) : List α := (s.drop p).take n

/-- The n-grams fastText defines for a bracketed word, as (start, length) pairs: every start
    position in order, every length from `minN` to `maxN` that fits, except a lone first or
    last character. -/
def ngramSpans (len minN maxN : Nat) : List (Nat × Nat) :=
  (List.range len).flatMap fun p =>
    ((List.range' 1 (len - p)).filter fun n =>
      decide (minN ≤ n ∧ n ≤ maxN ∧ ¬ (n = 1 ∧ (p = 0 ∨ p + 1 = len)))).map fun n => (p, n)

/-- The standard 32-bit FNV-1a hash (offset basis 2166136261, prime 16777619). -/
def fnv1a (bs : List Nat) : Nat :=
  bs.foldl (fun h b => (h ^^^ b) * 16777619 % 2 ^ 32) 2166136261

/-! ### UTF-8 facts -/

theorem isCont_iff (b : Nat) (h : b < 256) : isCont b = true ↔ 128 ≤ b ∧ b < 192 := by
  have H : ∀ b < 256, (isCont b = true ↔ 128 ≤ b ∧ b < 192) := by decide +kernel
  exact H b h

theorem char_bound (c : Char) : c.toNat < 0x110000 := by
  have h := c.valid
  have e : c.toNat = c.val.toNat := rfl
  rcases h with h | ⟨_, h⟩ <;> · rw [e]; simp only [UInt32.toNat] at *; omega

/-- A character is encoded as one leading byte followed by continuation bytes. -/
theorem encChar_shape (c : Char) : ∃ b bs, encChar c = b :: bs ∧ isCont b = false ∧
    (∀ x ∈ bs, isCont x = true) ∧ (∀ x ∈ b :: bs, x < 256) := by
  have hb := char_bound c
  have nc : ∀ b, b < 256 → ¬ (128 ≤ b ∧ b < 192) → isCont b = false := fun b h1 h2 => by
    rw [Bool.eq_false_iff]; intro h; exact h2 ((isCont_iff b h1).1 h)
  have cc : ∀ b, 128 ≤ b → b < 192 → isCont b = true := fun b h1 h2 =>
    (isCont_iff b (by omega)).2 ⟨h1, h2⟩
  unfold encChar
  dsimp only
  split
  · refine ⟨_, _, rfl, nc _ (by omega) (by omega), by simp, ?_⟩
    intro x hx; simp only [List.mem_cons, List.not_mem_nil, or_false] at hx; omega
  · split
    · refine ⟨_, _, rfl, nc _ (by omega) (by omega), ?_, ?_⟩
      · intro x hx; simp only [List.mem_cons, List.not_mem_nil, or_false] at hx
        exact cc _ (by omega) (by omega)
      · intro x hx; simp only [List.mem_cons, List.not_mem_nil, or_false] at hx; omega
    · split
      · refine ⟨_, _, rfl, nc _ (by omega) (by omega), ?_, ?_⟩
        · intro x hx; simp only [List.mem_cons, List.not_mem_nil, or_false] at hx
          exact cc _ (by omega) (by omega)
        · intro x hx; simp only [List.mem_cons, List.not_mem_nil, or_false] at hx; omega
      · refine ⟨_, _, rfl, nc _ (by omega) (by omega), ?_, ?_⟩
        · intro x hx; simp only [List.mem_cons, List.not_mem_nil, or_false] at hx
          exact cc _ (by omega) (by omega)
        · intro x hx; simp only [List.mem_cons, List.not_mem_nil, or_false] at hx; omega

theorem encode_nil : encode [] = [] := rfl

theorem encode_cons (c : Char) (s : List Char) : encode (c :: s) = encChar c ++ encode s := by
  simp [encode]

theorem encode_append (s t : List Char) : encode (s ++ t) = encode s ++ encode t := by
  simp [encode]

theorem encode_length_ge (s : List Char) : s.length ≤ (encode s).length := by
  induction s with
  | nil => simp [encode]
  | cons c s ih =>
    obtain ⟨b, bs, e, -⟩ := encChar_shape c
    rw [encode_cons, e]; simp only [List.length_append, List.length_cons]; omega

theorem encode_eq_nil {s : List Char} (h : (encode s).length = 0) : s = [] := by
  have := encode_length_ge s
  exact List.length_eq_zero_iff.1 (by omega)

/-- What follows a character boundary is never a continuation byte. -/
theorem takeWhile_encode (s : List Char) : (encode s).takeWhile isCont = [] := by
  cases s with
  | nil => rfl
  | cons c s =>
    obtain ⟨b, bs, e, h, -⟩ := encChar_shape c
    rw [encode_cons, e, List.cons_append, List.takeWhile_cons, h]; rfl

theorem skip_boundary (pre : List Nat) (c : Char) (s : List Char) :
    skipCont (pre ++ encode (c :: s)) (pre.length + 1) = pre.length + (encChar c).length := by
  obtain ⟨b, bs, e, -, hbs, -⟩ := encChar_shape c
  have hd : (pre ++ encode (c :: s)).drop (pre.length + 1) = bs ++ encode s := by
    rw [encode_cons, e]; simp
  have ht : (bs ++ encode s).takeWhile isCont = bs := by
    rw [List.takeWhile_append_of_pos hbs, takeWhile_encode, List.append_nil]
  unfold skipCont
  rw [hd, ht, e]
  simp only [List.length_cons]; omega

/-! ### The inner loop -/

theorem slice_mid {α : Type} (a b c : List α) :
    slice (a ++ b ++ c) a.length (a.length + b.length) = b := by
  unfold slice
  have : (a ++ b ++ c).take (a.length + b.length) = a ++ b := by
    rw [← List.length_append, List.take_left]
  rw [this, List.drop_left]

theorem grow_eq (minN maxN : Nat) (a : List Char) (cs : List Char) :
    ∀ (m : List Char) (fuel : Nat), cs.length ≤ fuel →
    growNgrams (encode (a ++ m ++ cs)) minN maxN (encode a).length fuel
        (encode (a ++ m)).length (m.length + 1) =
      ((List.range' (m.length + 1) cs.length).filter fun k =>
        decide (minN ≤ k ∧ k ≤ maxN ∧
          ¬ (k = 1 ∧ (a.length = 0 ∨ a.length + 1 = (a ++ m ++ cs).length)))).map
        fun k => encode ((m ++ cs).take k) := by
  induction cs with
  | nil =>
    intro m fuel _
    cases fuel with
    | zero => rfl
    | succ f =>
      simp only [growNgrams, List.append_nil, Nat.lt_irrefl, false_and, if_false,
        List.length_nil, List.range'_zero, List.filter_nil, List.map_nil]
  | cons c cs ih =>
    intro m fuel hf
    cases fuel with
    | zero => simp at hf
    | succ f =>
      have hlt : (encode (a ++ m)).length < (encode (a ++ m ++ c :: cs)).length := by
        rw [encode_append (a ++ m)]
        have := encode_length_ge (c :: cs)
        simp only [List.length_append, List.length_cons] at *; omega
      have hre : a ++ m ++ c :: cs = a ++ (m ++ [c]) ++ cs := by simp
      have hj : skipCont (encode (a ++ m ++ c :: cs)) ((encode (a ++ m)).length + 1) =
          (encode (a ++ (m ++ [c]))).length := by
        have h1 : encode (a ++ m ++ c :: cs) = encode (a ++ m) ++ encode (c :: cs) :=
          encode_append _ _
        rw [h1, skip_boundary, ← List.append_assoc, encode_append (a ++ m) [c],
          List.length_append, encode_cons, encode_nil, List.append_nil]
      have hih := ih (m ++ [c]) f (by simpa using hf)
      rw [← hre] at hih
      rw [List.length_append, List.length_cons, List.length_nil, Nat.zero_add] at hih
      have hmc : m ++ [c] ++ cs = m ++ c :: cs := by simp
      rw [hmc] at hih
      rw [List.length_cons, List.range'_succ]
      unfold growNgrams
      dsimp only
      by_cases hmax : m.length + 1 ≤ maxN
      · rw [if_pos ⟨hlt, hmax⟩, hj, hih]
        have hsl : slice (encode (a ++ m ++ c :: cs)) (encode a).length
            (encode (a ++ (m ++ [c]))).length = encode ((m ++ c :: cs).take (m.length + 1)) := by
          have h2 : (m ++ c :: cs).take (m.length + 1) = m ++ [c] := by
            have := List.take_left' (l₁ := m ++ [c]) (l₂ := cs) (i := m.length + 1) (by simp)
            simpa using this
          rw [h2, hre, encode_append _ cs, encode_append a]
          have := slice_mid (encode a) (encode (m ++ [c])) (encode cs)
          rw [← this, List.length_append]
          congr 2 <;> rw [this]
        have hcond : (minN ≤ m.length + 1 ∧ ¬ (m.length + 1 = 1 ∧
              ((encode a).length = 0 ∨
                (encode (a ++ (m ++ [c]))).length = (encode (a ++ m ++ c :: cs)).length))) ↔
            (minN ≤ m.length + 1 ∧ m.length + 1 ≤ maxN ∧ ¬ (m.length + 1 = 1 ∧
              (a.length = 0 ∨ a.length + 1 = (a ++ m ++ c :: cs).length))) := by
          have ha : (encode a).length = 0 ↔ a.length = 0 := by
            constructor
            · intro h; rw [encode_eq_nil h]; rfl
            · intro h; rw [List.length_eq_zero_iff.1 h]; rfl
          have hcs : (encode cs).length = 0 ↔ cs.length = 0 := by
            constructor
            · intro h; rw [encode_eq_nil h]; rfl
            · intro h; rw [List.length_eq_zero_iff.1 h]; rfl
          have hE : (encode (a ++ m ++ c :: cs)).length =
              (encode (a ++ (m ++ [c]))).length + (encode cs).length := by
            rw [hre, encode_append _ cs, List.length_append]
          have hL : (a ++ m ++ c :: cs).length = a.length + m.length + 1 + cs.length := by
            simp only [List.length_append, List.length_cons]; omega
          rw [hE, hL, ha]
          constructor
          · rintro ⟨h1, h2⟩
            refine ⟨h1, hmax, fun h3 => h2 ⟨h3.1, ?_⟩⟩
            rcases h3.2 with h | h
            · exact Or.inl h
            · right; have : cs.length = 0 := by omega
              rw [hcs.2 this]; omega
          · rintro ⟨h1, -, h2⟩
            refine ⟨h1, fun h3 => h2 ⟨h3.1, ?_⟩⟩
            rcases h3.2 with h | h
            · exact Or.inl h
            · right; have : cs.length = 0 := hcs.1 (by omega)
              omega
        by_cases hp : minN ≤ m.length + 1 ∧ m.length + 1 ≤ maxN ∧ ¬ (m.length + 1 = 1 ∧
              (a.length = 0 ∨ a.length + 1 = (a ++ m ++ c :: cs).length))
        · rw [if_pos (hcond.2 hp), List.filter_cons, if_pos (decide_eq_true hp), List.map_cons, hsl]
        · rw [if_neg (fun h => hp (hcond.1 h)), List.filter_cons,
            if_neg (by rw [decide_eq_false hp]; exact Bool.false_ne_true)]
      · rw [if_neg (fun h => hmax h.2)]
        symm
        rw [List.map_eq_nil_iff, List.filter_eq_nil_iff]
        intro k hk hd
        have h2 := (of_decide_eq_true hd).2.1
        rw [← List.range'_succ, List.mem_range'_1] at hk
        omega

/-! ### The outer loop -/

theorem outer_eq (f : Nat → List (List Nat)) (g : Nat → List (List Nat)) (cs : List Char) :
    ∀ (B : List Nat) (pre : List Char), B = encode (pre ++ cs) →
    (∀ p, p < (pre ++ cs).length → f (encode ((pre ++ cs).take p)).length = g p) →
    (List.range' (encode pre).length (encode cs).length).flatMap
        (fun i => if isCont (B.getD i 0) then [] else f i) =
      (List.range' pre.length cs.length).flatMap g := by
  induction cs with
  | nil => intro B pre _ _; simp [encode]
  | cons c cs ih =>
    intro B pre hB hfg
    have hre : pre ++ c :: cs = (pre ++ [c]) ++ cs := by simp
    have hih := ih B (pre ++ [c]) (by rw [hB, hre]) (by rw [← hre]; exact hfg)
    obtain ⟨b, bs, e, hb, hbs, -⟩ := encChar_shape c
    have hl1 : (encode (pre ++ [c])).length = (encode pre).length + (bs.length + 1) := by
      rw [encode_append, encode_cons, e]; simp [encode]
    have hl2 : (encode (c :: cs)).length = (bs.length + 1) + (encode cs).length := by
      rw [encode_cons, e, List.length_append, List.length_cons]
    have hBe : B = encode pre ++ (b :: bs) ++ encode cs := by
      rw [hB, encode_append, encode_cons, e]; simp
    rw [hl2, ← List.range'_append_1, List.flatMap_append, ← hl1, hih, List.length_append,
      List.length_cons, List.length_nil, Nat.zero_add, List.length_cons, List.range'_succ (s := pre.length),
      List.flatMap_cons, List.range'_succ (s := (encode pre).length), List.flatMap_cons]
    have h0 : B.getD (encode pre).length 0 = b := by
      rw [hBe]; simp [List.getD_eq_getElem?_getD]
    have hg : f (encode pre).length = g pre.length := by
      have := hfg pre.length (by simp)
      rwa [List.take_left] at this
    have htail : (List.range' ((encode pre).length + 1) bs.length).flatMap
        (fun i => if isCont (B.getD i 0) then [] else f i) = [] := by
      rw [List.flatMap_eq_nil_iff]
      intro i hi
      rw [List.mem_range'_1] at hi
      obtain ⟨k, rfl⟩ : ∃ k, i = (encode pre).length + 1 + k := ⟨i - ((encode pre).length + 1), by omega⟩
      have hk : k < bs.length := by omega
      have hget : B.getD ((encode pre).length + 1 + k) 0 = bs[k] := by
        rw [hBe, List.getD_eq_getElem?_getD, List.append_assoc, List.getElem?_append_right (by omega),
          show (encode pre).length + 1 + k - (encode pre).length = k + 1 by omega, List.cons_append,
          List.getElem?_cons_succ, List.getElem?_append_left hk, List.getElem?_eq_getElem hk]
        rfl
      rw [hget, hbs _ (List.getElem_mem hk)]; rfl
    rw [h0, hb, htail, List.append_nil, hg]; rfl

/-- The word between the boundary characters `<` and `>`. -/
def bracketed (word : List Char) : List Char := ['<'] ++ word ++ ['>']

theorem bracketed_eq (word : List Char) : bracketed word = extended word := rfl

/-- **C42 (bytes)**: `compute_ngrams_bytes` returns, in order, the UTF-8 encodings of exactly the
    character substrings of the bracketed word listed by `ngramSpans` — so it never splits a
    multi-byte character. -/
theorem C42_byte_ngrams (word : List Char) (minN maxN : Nat) :
    computeNgramsBytes word minN maxN =
      (ngramSpans (bracketed word).length minN maxN).map fun pn =>
        encode (substring (bracketed word) pn.1 pn.2) := by
  rw [bracketed_eq]
  unfold computeNgramsBytes ngramSpans
  dsimp only
  generalize extended word = ext
  rw [List.map_flatMap]
  have hstart : ∀ p, p < ext.length →
      growNgrams (encode ext) minN maxN (encode (ext.take p)).length (encode ext).length
        (encode (ext.take p)).length 1 =
      (((List.range' 1 (ext.length - p)).filter fun n =>
          decide (minN ≤ n ∧ n ≤ maxN ∧ ¬ (n = 1 ∧ (p = 0 ∨ p + 1 = ext.length)))).map
        fun n => (p, n)).map fun pn => encode (substring ext pn.1 pn.2) := by
    intro p hp
    have h := grow_eq minN maxN (ext.take p) (ext.drop p) [] (encode ext).length
      (by have := encode_length_ge ext; rw [List.length_drop]; omega)
    simp only [List.append_nil, List.take_append_drop, List.length_nil, Nat.zero_add,
      List.nil_append, List.length_take, List.length_drop, Nat.min_eq_left hp.le] at h
    rw [h, List.map_map]
    rfl
  have := outer_eq (fun i => growNgrams (encode ext) minN maxN i (encode ext).length i 1) _ ext
    (encode ext) [] rfl (fun p hp => hstart p (by simpa using hp))
  simpa only [encode_nil, List.length_nil, ← List.range_eq_range'] using this

/-- The spans are exactly the admissible (start, length) pairs, each once. -/
theorem C42_spans (len minN maxN : Nat) :
    (ngramSpans len minN maxN).Nodup ∧
    ∀ p n, (p, n) ∈ ngramSpans len minN maxN ↔
      1 ≤ n ∧ minN ≤ n ∧ n ≤ maxN ∧ p + n ≤ len ∧ ¬ (n = 1 ∧ (p = 0 ∨ p + n = len)) := by
  constructor
  · unfold ngramSpans
    rw [List.nodup_flatMap]
    refine ⟨fun p _ => ?_, ?_⟩
    · exact ((List.nodup_range' (s := 1)).filter _).map (fun a b h => (Prod.mk.inj h).2)
    · refine (List.nodup_range (n := len)).imp ?_
      intro p q hpq x hx hy
      simp only [List.mem_map] at hx hy
      obtain ⟨_, -, rfl⟩ := hx
      obtain ⟨_, -, h⟩ := hy
      exact hpq (Prod.mk.inj h).1.symm
  · intro p n
    unfold ngramSpans
    simp only [List.mem_flatMap, List.mem_range, List.mem_map, List.mem_filter,
      List.mem_range'_1, decide_eq_true_eq, Prod.mk.injEq]
    constructor
    · rintro ⟨p', hp, n', ⟨h1, h2, h3, h4⟩, rfl, rfl⟩
      exact ⟨by omega, h2, h3, by omega, by omega⟩
    · rintro ⟨h0, h1, h2, h3, h4⟩
      exact ⟨p, by omega, n, ⟨by omega, h1, h2, by omega⟩, rfl, rfl⟩

/-- **C42 (characters)**: `compute_ngrams` returns every substring of the bracketed word whose
    length is between `minN` and `maxN`, once for every position where it occurs. -/
theorem C42_ngrams (word g : List Char) (minN maxN : Nat) :
    (computeNgrams word minN maxN).count g =
      if minN ≤ g.length ∧ g.length ≤ maxN then
        (List.range ((bracketed word).length + 1)).countP fun p =>
          decide (p + g.length ≤ (bracketed word).length ∧
            substring (bracketed word) p g.length = g)
      else 0 := by
  rw [bracketed_eq]
  unfold computeNgrams
  dsimp only
  generalize extended word = ext
  have hsl : ∀ i k, slice ext i (i + k) = substring ext i k := by
    intro i k; unfold slice substring; rw [List.drop_take]; congr 1; omega
  simp only [hsl]
  have hinner : ∀ k, k ≤ ext.length →
      ((List.range (ext.length - k + 1)).map fun i => substring ext i k).count g =
        if k = g.length then (List.range (ext.length + 1)).countP fun p =>
          decide (p + g.length ≤ ext.length ∧ substring ext p g.length = g) else 0 := by
    intro k hk
    split
    · next h =>
      subst h
      rw [List.count, List.countP_map]
      have hsplit : ext.length + 1 = (ext.length - g.length + 1) + g.length := by omega
      rw [hsplit, List.range_add (n := ext.length - g.length + 1) (m := g.length), List.countP_append]
      have h2 : List.countP (fun p => decide (p + g.length ≤ ext.length ∧
          substring ext p g.length = g)) ((List.range g.length).map (fun x => ext.length - g.length + 1 + x)) = 0 := by
        rw [List.countP_eq_zero]
        intro p hp
        simp only [List.mem_map, List.mem_range] at hp
        obtain ⟨x, _, rfl⟩ := hp
        simp only [decide_eq_true_eq]; omega
      rw [h2, Nat.add_zero]
      apply List.countP_congr
      intro p hp
      rw [List.mem_range] at hp
      simp only [Function.comp_apply, beq_iff_eq, decide_eq_true_eq]
      exact ⟨fun h => ⟨by omega, h⟩, fun h => h.2⟩
    · next h =>
      rw [List.count_eq_zero]
      intro hm
      simp only [List.mem_map, List.mem_range] at hm
      obtain ⟨i, hi, rfl⟩ := hm
      apply h
      unfold substring
      rw [List.length_take, List.length_drop]; omega
  generalize hC : (List.range (ext.length + 1)).countP (fun p =>
          decide (p + g.length ≤ ext.length ∧ substring ext p g.length = g)) = C at hinner ⊢
  have hC0 : ext.length < g.length → C = 0 := by
    intro h
    rw [← hC, List.countP_eq_zero]
    intro p _
    simp only [decide_eq_true_eq]; omega
  have hsum : ∀ (m s : Nat), s + m ≤ ext.length + 1 →
      ((List.range' s m).flatMap fun k =>
        (List.range (ext.length - k + 1)).map fun i => substring ext i k).count g =
      if s ≤ g.length ∧ g.length < s + m then C else 0 := by
    intro m
    induction m with
    | zero => intro s _; rw [if_neg (by omega)]; rfl
    | succ m ih =>
      intro s hs
      rw [List.range'_succ, List.flatMap_cons, List.count_append, ih (s + 1) (by omega),
        hinner s (by omega)]
      split <;> split <;> split <;> omega
  by_cases hle : minN ≤ min ext.length maxN + 1
  · rw [hsum _ _ (by omega)]
    split <;> split
    · rfl
    · omega
    · rw [hC0 (by omega)]
    · rfl
  · have : min ext.length maxN + 1 - minN = 0 := by omega
    rw [this, List.range'_zero]
    split
    · rw [hC0 (by omega)]; rfl
    · rfl

/-- The two functions agree up to order and the lone boundary characters: for `minN ≥ 1` an
    n-gram is produced in bytes iff it is a character n-gram other than `<` or `>` taken from the
    first or last position. -/
theorem C42_same_ngrams (word : List Char) (minN maxN : Nat) (b : List Nat) (h : 1 ≤ minN) :
    b ∈ computeNgramsBytes word minN maxN ↔
      ∃ p n, minN ≤ n ∧ n ≤ maxN ∧ p + n ≤ (bracketed word).length ∧
        ¬ (n = 1 ∧ (p = 0 ∨ p + n = (bracketed word).length)) ∧
        b = encode (substring (bracketed word) p n) := by
  rw [C42_byte_ngrams, List.mem_map]
  constructor
  · rintro ⟨⟨p, n⟩, hm, rfl⟩
    obtain ⟨-, h1, h2, h3, h4⟩ := ((C42_spans _ _ _).2 p n).1 hm
    exact ⟨p, n, h1, h2, h3, h4, rfl⟩
  · rintro ⟨p, n, h1, h2, h3, h4, rfl⟩
    exact ⟨(p, n), ((C42_spans _ _ _).2 p n).2 ⟨by omega, h1, h2, h3, h4⟩, rfl⟩

example : computeNgramsBytes ['é', 'a'] 1 2 =
    [[60, 195, 169], [195, 169], [195, 169, 97], [97], [97, 62]] := by decide +kernel

example : computeNgrams ['a', 'a'] 1 2 =
    [['<'], ['a'], ['a'], ['>'], ['<', 'a'], ['a', 'a'], ['a', '>']] := by decide +kernel

/-! ### C43: hashing -/

/-- **C43**: on ASCII bytes the hash is the standard FNV-1a hash. -/
theorem C43_ascii (bs : List Nat) (h : ∀ b ∈ bs, b < 128) : ftHash bs = fnv1a bs := by
  have H : ∀ h0 : Nat, bs.foldl hashStep h0 =
      bs.foldl (fun h b => (h ^^^ b) * 16777619 % 2 ^ 32) h0 := by
    induction bs with
    | nil => intro h0; simp only [List.foldl_nil]
    | cons b bs ih =>
      intro h0
      rw [List.foldl_cons, List.foldl_cons, ih (fun x hx => h x (List.mem_cons_of_mem _ hx))]
      have : hashStep h0 b = (h0 ^^^ b) * 16777619 % 2 ^ 32 := by
        unfold hashStep signExtend
        rw [if_pos (h b List.mem_cons_self)]
      rw [this]
  exact H _

/-- On other bytes it is FNV-1a with every byte sign-extended to 32 bits first: adding 2³² − 256 to
    a byte from 128 up sets its upper 24 bits. -/
theorem C43_sign_extended (bs : List Nat) :
    ftHash bs = fnv1a (bs.map fun b => if b < 128 then b else b + 4294967040) := by
  unfold ftHash fnv1a
  rw [List.foldl_map]
  rfl

/-- … which differs from the standard hash: the two UTF-8 bytes of `é`. -/
theorem C43_not_standard : ftHash (encode ['é']) ≠ fnv1a (encode ['é']) := by decide +kernel

/-- **C43**: every hash is a 32-bit number and every bucket index is a valid row number. -/
theorem C43_bucket_range (word : List Char) (minN maxN buckets : Nat) (h : 0 < buckets) :
    (∀ x ∈ ngramHashes word minN maxN buckets, x < buckets) ∧
    (ngramHashes word minN maxN buckets).length =
      (ngramSpans (bracketed word).length minN maxN).length ∧
    ∀ bs, ftHash bs < 2 ^ 32 := by
  refine ⟨?_, ?_, ?_⟩
  · intro x hx
    unfold ngramHashes at hx
    rw [List.mem_map] at hx
    obtain ⟨n, -, rfl⟩ := hx
    exact Nat.mod_lt _ h
  · unfold ngramHashes
    rw [List.length_map, C42_byte_ngrams, List.length_map]
  · intro bs
    unfold ftHash
    have : ∀ h0, h0 < 2 ^ 32 → bs.foldl hashStep h0 < 2 ^ 32 := by
      induction bs with
      | nil => intro h0 hh; exact hh
      | cons b bs ih => intro h0 _; exact ih _ (Nat.mod_lt _ (by decide))
    exact this _ (by decide)

example : ngramHashes ['h', 'e', 'y'] 3 4 2000000 ≠ [] := by decide +kernel

/-- A published FNV-1a test vector: the hash of the letter `a`. -/
example : ftHash [97] = 0xE40C292C := by decide +kernel

end Verif.FastText
