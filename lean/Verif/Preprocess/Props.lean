import Mathlib.Tactic.IntervalCases
import Mathlib.Data.List.Basic
import Mathlib.Tactic.Tauto
import Verif.Preprocess.Model
import Verif.Porter.Props
import Verif.Porter.RuleProps

/-!
# C100: text preprocessing
-/

namespace Verif.Preprocess

/-! ## Specification -/

/-- `ws` are the longest runs of characters outside `sep` in `s`, from left to right. -/
inductive Runs (sep : Char → Bool) : Str → List Str → Prop
  | gap (g : Str) : (∀ c ∈ g, sep c = true) → Runs sep g []
  | last (g w : Str) : (∀ c ∈ g, sep c = true) → w ≠ [] → (∀ c ∈ w, sep c = false) → Runs sep (g ++ w) [w]
  | cons (g w : Str) (c : Char) (s : Str) (ws : List Str) : (∀ c ∈ g, sep c = true) → w ≠ [] →
      (∀ c ∈ w, sep c = false) → sep c = true → Runs sep (c :: s) ws → Runs sep (g ++ w ++ c :: s) (w :: ws)

/-- A tag: `<`, at least one character other than `>`, and `>`. -/
def HasTag (s : Str) : Prop := ∃ a t b : Str, s = a ++ '<' :: t ++ '>' :: b ∧ t ≠ [] ∧ '>' ∉ t

/-- A word: not empty, no white space. -/
def Token (u : Uni) (w : Str) : Prop := w ≠ [] ∧ ∀ c ∈ w, u.space c = false

/-- What is assumed of the Unicode tables. -/
structure UniOk (u : Uni) : Prop where
  blank : u.space ' ' = true
  letter : ∀ c, isLower c = true → u.space c = false
  number : ∀ c, isDigit c = true → u.space c = false
  lower : ∀ w, Token u w → Token u (u.lower w)

/-- A space between any two neighbours for which `p` holds. -/
def insertSpaces (p : Char → Char → Bool) : Str → Str
  | [] => []
  | [c] => [c]
  | c :: d :: s => if p c d then c :: ' ' :: insertSpaces p (d :: s) else c :: insertSpaces p (d :: s)

/-! ## Splitting -/

theorem mem_takeWhile_imp {p : Char → Bool} {l : Str} {x : Char} (h : x ∈ l.takeWhile p) : p x = true := by
  induction l with
  | nil => simp at h
  | cons a l ih =>
    by_cases ha : p a = true
    · rw [List.takeWhile_cons_of_pos ha] at h
      rcases List.mem_cons.1 h with rfl | h
      · exact ha
      · exact ih h
    · rw [List.takeWhile_cons_of_neg ha] at h
      simp at h

theorem chain_tail {r : Char → Char → Prop} {c : Char} {t : Str} (h : (c :: t).IsChain r) : t.IsChain r := by
  cases h with
  | singleton => exact List.IsChain.nil
  | cons_cons _ h => exact h

theorem head_dropWhile {p : Char → Bool} {l t : Str} {d : Char} (h : l.dropWhile p = d :: t) : p d = false := by
  induction l with
  | nil => simp at h
  | cons a l ih =>
    by_cases ha : p a = true
    · rw [List.dropWhile_cons_of_pos ha] at h; exact ih h
    · rw [List.dropWhile_cons_of_neg ha] at h
      cases h; simpa using ha

theorem splitAux_word (sep : Char → Bool) (w s : Str) (h : ∀ c ∈ w, sep c = false) (cur : Str) :
    splitAux sep cur (w ++ s) = splitAux sep (cur ++ w) s := by
  induction w generalizing cur with
  | nil => simp
  | cons c w ih =>
    rw [List.cons_append, splitAux, if_neg (by simp [h c (by simp)]), ih (fun d hd => h d (by simp [hd]))]
    simp

theorem splitAux_gap (sep : Char → Bool) (g s : Str) (h : ∀ c ∈ g, sep c = true) :
    splitAux sep [] (g ++ s) = splitAux sep [] s := by
  induction g with
  | nil => rfl
  | cons c g ih =>
    rw [List.cons_append, splitAux, if_pos (h c (by simp)), if_pos rfl]
    exact ih fun d hd => h d (by simp [hd])

theorem splitAux_sep (sep : Char → Bool) (c : Char) (s : Str) (hc : sep c = true) :
    splitAux sep [] (c :: s) = splitAux sep [] s := by
  rw [splitAux, if_pos hc, if_pos rfl]

theorem splitAux_flush (sep : Char → Bool) (w s : Str) (c : Char) (hw : w ≠ []) (hc : sep c = true) :
    splitAux sep w (c :: s) = w :: splitAux sep [] s := by
  rw [splitAux, if_pos hc, if_neg hw]

theorem runs_splitAux (sep : Char → Bool) (s : Str) (ws : List Str) (h : Runs sep s ws) :
    splitAux sep [] s = ws := by
  induction h with
  | gap g hg =>
    have := splitAux_gap sep g [] hg
    rw [List.append_nil] at this
    rw [this]; rfl
  | last g w hg hw hs =>
    rw [splitAux_gap sep g w hg]
    have := splitAux_word sep w [] hs []
    rw [List.append_nil] at this
    rw [this, List.nil_append, splitAux, if_neg hw]
  | cons g w c s ws hg hw hs hc _ ih =>
    rw [List.append_assoc, splitAux_gap sep g _ hg, splitAux_word sep w _ hs, List.nil_append,
      splitAux_flush sep w s c hw hc, ← ih, splitAux_sep sep c s hc]

theorem splitAux_runs (sep : Char → Bool) (s cur : Str) (hcur : ∀ c ∈ cur, sep c = false) :
    Runs sep (cur ++ s) (splitAux sep cur s) := by
  induction s generalizing cur with
  | nil =>
    rw [List.append_nil, splitAux]
    split
    · rename_i h; subst h; exact Runs.gap [] (by simp)
    · rename_i h; exact Runs.last [] cur (by simp) h hcur
  | cons c s ih =>
    rw [splitAux]
    split
    · rename_i hc
      have hrest : Runs sep (c :: s) (splitAux sep [] s) := by
        have := ih [] (by simp)
        rw [List.nil_append] at this
        generalize splitAux sep [] s = ws at this
        cases this with
        | gap g hg => exact Runs.gap _ (by simpa using ⟨hc, hg⟩)
        | last g w hg hw hs => exact Runs.last (c :: g) w (by simpa using ⟨hc, hg⟩) hw hs
        | cons g w d t ws hg hw hs hd hr =>
          exact Runs.cons (c :: g) w d t ws (by simpa using ⟨hc, hg⟩) hw hs hd hr
      split
      · rename_i h; subst h; exact hrest
      · rename_i h
        have := Runs.cons [] cur c s _ (by simp) h hcur hc hrest
        simpa using this
    · rename_i hc
      have := ih (cur ++ [c]) (by
        intro d hd
        rcases List.mem_append.1 hd with h | h
        · exact hcur d h
        · simp at h; subst h; simpa using hc)
      simpa using this

theorem splitAux_iff (sep : Char → Bool) (s : Str) (ws : List Str) : splitAux sep [] s = ws ↔ Runs sep s ws := by
  constructor
  · rintro rfl; exact splitAux_runs sep s [] (by simp)
  · exact runs_splitAux sep s ws

theorem runs_tokens (sep : Char → Bool) (s : Str) (ws : List Str) (h : Runs sep s ws) :
    ∀ w ∈ ws, w ≠ [] ∧ ∀ c ∈ w, sep c = false := by
  induction h with
  | gap => simp
  | last g w _ hw hs => simpa using ⟨hw, hs⟩
  | cons g w c s ws _ hw hs _ _ ih =>
    intro v hv
    rcases List.mem_cons.1 hv with rfl | h
    · exact ⟨hw, hs⟩
    · exact ih v h

theorem split_tokens (u : Uni) (s : Str) : ∀ w ∈ split u s, Token u w :=
  runs_tokens u.space s _ ((splitAux_iff _ _ _).1 rfl)

theorem split_join (u : Uni) (h : UniOk u) (ws : List Str) (hw : ∀ w ∈ ws, Token u w) : split u (join ws) = ws := by
  unfold split
  induction ws with
  | nil => rfl
  | cons w ws ih =>
    have h1 := hw w (by simp)
    cases ws with
    | nil =>
      rw [join]
      have := splitAux_word u.space w [] h1.2 []
      rw [List.append_nil] at this
      rw [this, List.nil_append, splitAux, if_neg h1.1]
    | cons v ws =>
      rw [join, splitAux_word u.space w _ h1.2, List.nil_append, splitAux_flush _ _ _ _ h1.1 h.blank,
        ih fun x hx => hw x (by simp [hx])]

/-! ## Replacing runs -/

theorem subRuns_nil (p : Char → Bool) (out : Str) : subRuns p out [] = [] := by rw [subRuns]

theorem subRuns_cons (p : Char → Bool) (out : Str) (c : Char) (s : Str) :
    subRuns p out (c :: s) = if p c then out ++ subRuns p out (s.dropWhile p) else c :: subRuns p out s := by
  rw [subRuns]

theorem length_ind {P : Str → Prop} (h : ∀ s, (∀ t : Str, t.length < s.length → P t) → P s) (s : Str) : P s := by
  induction hn : s.length using Nat.strongRecOn generalizing s with
  | ind n ih => exact h s fun t ht => ih t.length (by omega) t rfl

theorem dropWhile_lt (p : Char → Bool) (c : Char) (s : Str) : (s.dropWhile p).length < (c :: s).length := by
  have := (List.dropWhile_suffix (l := s) p).length_le
  simp; omega

theorem splitAux_subRuns (sp p : Char → Bool) (hsp : sp ' ' = true) (s : Str) :
    ∀ cur, splitAux sp cur (subRuns p [' '] s) = splitAux (fun c => sp c || p c) cur s := by
  induction s using length_ind with
  | h s ih =>
    intro cur
    cases s with
    | nil => rw [subRuns_nil]; rfl
    | cons c s =>
      rw [subRuns_cons]
      by_cases hp : p c = true
      · rw [if_pos hp, List.singleton_append]
        have hor : (sp c || p c) = true := by simp [hp]
        have e : splitAux (fun c => sp c || p c) [] (s.dropWhile p) = splitAux (fun c => sp c || p c) [] s := by
          conv_rhs => rw [← List.takeWhile_append_dropWhile (p := p) (l := s)]
          rw [splitAux_gap]
          intro d hd
          have := mem_takeWhile_imp hd
          simp [this]
        rw [splitAux, if_pos hsp, splitAux, if_pos hor, ih _ (dropWhile_lt p c s), e]
      · rw [if_neg hp, splitAux, splitAux]
        have hor : (sp c || p c) = sp c := by simp [hp]
        rw [hor, ih s (by simp), ih s (by simp)]

theorem subRuns_drop (p : Char → Bool) (s : Str) : subRuns p [] s = s.filter fun c => !p c := by
  induction s using length_ind with
  | h s ih =>
    cases s with
    | nil => rw [subRuns_nil]; rfl
    | cons c s =>
      rw [subRuns_cons]
      by_cases hp : p c = true
      · rw [if_pos hp, List.nil_append, ih _ (dropWhile_lt p c s), List.filter_cons_of_neg (by simp [hp])]
        have e : (s.takeWhile p).filter (fun c => !p c) = [] := by
          rw [List.filter_eq_nil_iff]
          intro d hd
          simp [mem_takeWhile_imp hd]
        conv_rhs => rw [← List.takeWhile_append_dropWhile (p := p) (l := s), List.filter_append, e, List.nil_append]
      · rw [if_neg hp, ih s (by simp), List.filter_cons_of_pos (by simp [hp])]

theorem subRuns_mem (p : Char → Bool) (out : Str) (s : Str) :
    ∀ c ∈ subRuns p out s, (c ∈ s ∧ p c = false) ∨ c ∈ out := by
  induction s using length_ind with
  | h s ih =>
    intro d hd
    cases s with
    | nil => rw [subRuns_nil] at hd; simp at hd
    | cons c s =>
      rw [subRuns_cons] at hd
      by_cases hp : p c = true
      · rw [if_pos hp] at hd
        rcases List.mem_append.1 hd with h | h
        · exact Or.inr h
        · rcases ih _ (dropWhile_lt p c s) d h with ⟨h, h'⟩ | h
          · exact Or.inl ⟨List.mem_cons_of_mem _ ((List.dropWhile_suffix p).subset h), h'⟩
          · exact Or.inr h
      · rw [if_neg hp] at hd
        rcases List.mem_cons.1 hd with rfl | h
        · exact Or.inl ⟨by simp, by simpa using hp⟩
        · rcases ih s (by simp) d h with ⟨h, h'⟩ | h
          · exact Or.inl ⟨by simp [h], h'⟩
          · exact Or.inr h

theorem subRuns_id (p : Char → Bool) (out : Str) (s : Str) (h : ∀ c ∈ s, p c = false) : subRuns p out s = s := by
  induction s with
  | nil => rw [subRuns_nil]
  | cons c s ih => rw [subRuns_cons, if_neg (by simp [h c (by simp)]), ih fun d hd => h d (by simp [hd])]

/-! ## The filters -/

/-- **C100.** `str.split()` as modelled gives exactly the longest runs without white space. -/
theorem C100_split (u : Uni) (s : Str) (ws : List Str) : split u s = ws ↔ Runs u.space s ws :=
  splitAux_iff u.space s ws

/-- **C100.** Removing stop words keeps all other words, in order, joined by single spaces; doing it twice changes
nothing. -/
theorem C100_remove_stopwords (u : Uni) (h : UniOk u) (s : Str) :
    split u (removeStopwords u s) = (split u s).filter (fun w => w ∉ stopwords) ∧
    removeStopwords u s = join (split u (removeStopwords u s)) ∧
    removeStopwords u (removeStopwords u s) = removeStopwords u s := by
  have e : split u (removeStopwords u s) = (split u s).filter (fun w => w ∉ stopwords) :=
    split_join u h _ fun w hw => split_tokens u s w (List.mem_of_mem_filter hw)
  refine ⟨e, by rw [e]; rfl, ?_⟩
  rw [removeStopwords, e, List.filter_filter]
  simp only [Bool.and_self]
  rfl

/-- **C100.** Removing short words keeps exactly the words of at least the minimum size, in order. -/
theorem C100_strip_short (u : Uni) (h : UniOk u) (n : Nat) (s : Str) :
    split u (stripShort u n s) = (split u s).filter (fun w => n ≤ w.length) ∧
    stripShort u n (stripShort u n s) = stripShort u n s := by
  have e : split u (stripShort u n s) = (split u s).filter (fun w => n ≤ w.length) :=
    split_join u h _ fun w hw => split_tokens u s w (List.mem_of_mem_filter hw)
  refine ⟨e, ?_⟩
  rw [stripShort, e, List.filter_filter]
  simp only [Bool.and_self]
  rfl

/-- **C100.** Stripping punctuation separates words at punctuation and changes nothing else: no
punctuation is left, and the words are the runs between white space and punctuation. -/
theorem C100_strip_punctuation (u : Uni) (h : UniOk u) (s : Str) :
    (∀ ws, split u (stripPunctuation s) = ws ↔ Runs (fun c => u.space c || decide (c ∈ punctuation)) s ws) ∧
    (∀ c ∈ stripPunctuation s, c ∉ punctuation) ∧
    ((∀ c ∈ s, c ∉ punctuation) → stripPunctuation s = s) ∧
    stripPunctuation (stripPunctuation s) = stripPunctuation s := by
  have hno : ∀ c ∈ stripPunctuation s, c ∉ punctuation := by
    intro c hc
    rcases subRuns_mem _ _ s c hc with ⟨-, h⟩ | h
    · simpa using h
    · have : c = ' ' := by simpa using h
      subst this; decide
  have hid : ∀ t : Str, (∀ c ∈ t, c ∉ punctuation) → stripPunctuation t = t :=
    fun t ht => subRuns_id _ _ t fun c hc => by simpa using ht c hc
  refine ⟨fun ws => ?_, hno, hid s, hid _ hno⟩
  rw [← splitAux_iff, split, stripPunctuation, splitAux_subRuns _ _ h.blank]

/-- **C100.** Collapsing white space leaves the words alone, leaves no white space but single spaces, and
doing it twice changes nothing. -/
theorem C100_strip_multiple_whitespaces (u : Uni) (h : UniOk u) (s : Str) :
    split u (stripMultipleWhitespaces u s) = split u s ∧
    (∀ c ∈ stripMultipleWhitespaces u s, u.space c = true → c = ' ') ∧
    (stripMultipleWhitespaces u s).IsChain (fun a b => ¬ (a = ' ' ∧ b = ' ')) ∧
    stripMultipleWhitespaces u (stripMultipleWhitespaces u s) = stripMultipleWhitespaces u s := by
  have hsp : ∀ c ∈ stripMultipleWhitespaces u s, u.space c = true → c = ' ' := by
    intro c hc hs
    rcases subRuns_mem _ _ s c hc with ⟨-, h⟩ | h
    · rw [hs] at h; cases h
    · simpa using h
  have hchain : ∀ s : Str, (stripMultipleWhitespaces u s).IsChain (fun a b => ¬ (a = ' ' ∧ b = ' ')) := by
    intro s
    induction s using length_ind with
    | h s ih =>
      unfold stripMultipleWhitespaces at *
      cases s with
      | nil => rw [subRuns_nil]; exact List.IsChain.nil
      | cons c s =>
        rw [subRuns_cons]
        by_cases hc : u.space c = true
        · rw [if_pos hc, List.singleton_append]
          have hd := ih _ (dropWhile_lt u.space c s)
          cases hw : s.dropWhile u.space with
          | nil => rw [subRuns_nil]; exact List.IsChain.singleton _
          | cons d t =>
            have hd' : u.space d = false := head_dropWhile hw
            rw [hw, subRuns_cons, if_neg (by simp [hd'])] at hd
            rw [subRuns_cons, if_neg (by simp [hd'])]
            refine List.IsChain.cons_cons ?_ hd
            rintro ⟨-, rfl⟩
            rw [h.blank] at hd'; cases hd'
        · rw [if_neg hc]
          have hs := ih s (by simp)
          cases hw : subRuns u.space [' '] s with
          | nil => exact List.IsChain.singleton _
          | cons d t =>
            rw [hw] at hs
            refine List.IsChain.cons_cons ?_ hs
            rintro ⟨rfl, -⟩
            exact hc h.blank
  have hid : ∀ t : Str, (∀ c ∈ t, u.space c = true → c = ' ') → t.IsChain (fun a b => ¬ (a = ' ' ∧ b = ' ')) →
      stripMultipleWhitespaces u t = t := by
    intro t
    unfold stripMultipleWhitespaces
    induction t with
    | nil => intro _ _; rw [subRuns_nil]
    | cons c t ih =>
      intro h1 h2
      rw [subRuns_cons]
      have hrest := ih (fun d hd => h1 d (by simp [hd])) (chain_tail h2)
      by_cases hc : u.space c = true
      · rw [if_pos hc]
        have e := h1 c (by simp) hc
        subst e
        have hdrop : t.dropWhile u.space = t := by
          cases t with
          | nil => rfl
          | cons d t =>
            have : u.space d = false := by
              cases hd : u.space d with
              | false => rfl
              | true =>
                exfalso
                have hx := h1 d (by simp) hd
                subst hx
                rw [List.isChain_cons_cons] at h2
                exact h2.1 ⟨rfl, rfl⟩
            rw [List.dropWhile_cons_of_neg (by simp [this])]
        rw [hdrop, hrest]; rfl
      · rw [if_neg hc, hrest]
  refine ⟨?_, hsp, hchain s, hid _ hsp (hchain s)⟩
  rw [split, stripMultipleWhitespaces, splitAux_subRuns _ _ h.blank]
  simp only [Bool.or_self]
  rfl

/-- **C100.** Stripping numbers deletes exactly the digits 0 to 9. -/
theorem C100_strip_numeric (s : Str) :
    stripNumeric s = (s.filter fun c => !isDigit c) ∧
    stripNumeric s = s.filter fun c => c ∉ "0123456789".toList := by
  refine ⟨subRuns_drop isDigit s, ?_⟩
  rw [show stripNumeric s = _ from subRuns_drop isDigit s]
  congr 1
  funext c
  rw [Bool.eq_iff_iff]
  simp only [Bool.not_eq_true', isDigit, Bool.and_eq_false_iff, decide_eq_false_iff_not, decide_eq_true_eq]
  have key : ('0' ≤ c ∧ c ≤ '9') ↔ c ∈ "0123456789".toList := by
    constructor
    · rintro ⟨h1, h2⟩
      have h1' : 48 ≤ c.toNat := h1
      have h2' : c.toNat ≤ 57 := h2
      have : c = Char.ofNat c.toNat := (Char.ofNat_toNat c).symm
      rw [this]
      generalize c.toNat = n at h1' h2'
      interval_cases n <;> decide
    · intro h
      simp only [String.toList] at h
      revert h
      have : ∀ d ∈ "0123456789".toList, '0' ≤ d ∧ d ≤ '9' := by decide
      exact this c
  rw [← key]
  tauto

/-- **C100.** Stripping everything that is not alphanumeric keeps the length, and the words are the runs of
word characters. -/
theorem C100_strip_non_alphanum (u : Uni) (h : UniOk u) (hw : ∀ c, u.word c = true → u.space c = false) (s : Str) :
    (stripNonAlphanum u s).length = s.length ∧
    ∀ ws, split u (stripNonAlphanum u s) = ws ↔ Runs (fun c => !u.word c) s ws := by
  refine ⟨by simp [stripNonAlphanum], fun ws => ?_⟩
  rw [← splitAux_iff, split, stripNonAlphanum]
  have : ∀ cur, splitAux u.space cur (s.map fun c => if u.word c then c else ' ')
      = splitAux (fun c => !u.word c) cur s := by
    induction s with
    | nil => intro cur; rfl
    | cons c s ih =>
      intro cur
      rw [List.map_cons, splitAux, splitAux, ih, ih]
      by_cases hc : u.word c = true
      · simp only [hc, if_true, hw c hc, Bool.not_true]
      · simp only [hc, Bool.false_eq_true, if_false, h.blank, Bool.not_false, if_true]
  rw [this]

/-! ### Tags -/

theorem tagRest_some (s rest : Str) :
    tagRest s = some rest ↔ ∃ t, t ≠ [] ∧ '>' ∉ t ∧ s = t ++ '>' :: rest := by
  constructor
  · intro h
    unfold tagRest at h
    split at h
    · cases h
    · rename_i a b e
      split at h
      · cases h
      · rename_i hh
        cases h
        have ha : a = '>' := by simpa using head_dropWhile e
        subst ha
        refine ⟨s.takeWhile (· ≠ '>'), ?_, ?_, ?_⟩
        · intro hn
          rw [← List.takeWhile_append_dropWhile (p := (· ≠ '>')) (l := s), hn, e] at hh
          simp at hh
        · intro hm
          have := mem_takeWhile_imp hm
          simp at this
        · conv_lhs => rw [← List.takeWhile_append_dropWhile (p := (· ≠ '>')) (l := s), e]
  · rintro ⟨t, ht, hn, rfl⟩
    have hall : ∀ x ∈ t, decide (x ≠ '>') = true := by
      intro x hx
      simp only [decide_eq_true_eq]
      rintro rfl; exact hn hx
    have e : (t ++ '>' :: rest).dropWhile (· ≠ '>') = '>' :: rest := by
      rw [List.dropWhile_append_of_pos hall]; simp
    unfold tagRest
    rw [e]
    simp only
    rw [if_neg]
    cases t with
    | nil => exact absurd rfl ht
    | cons x t =>
      simp only [List.cons_append, List.head?_cons, Option.some.injEq]
      rintro rfl; simp at hn

theorem tagRest_none (s : Str) (h : tagRest s = none) : '>' ∉ s ∨ s.head? = some '>' := by
  by_cases hm : '>' ∈ s
  · right
    by_contra hh
    have hne : s.dropWhile (· ≠ '>') ≠ [] := by
      intro e
      have h' := List.takeWhile_append_dropWhile (p := fun x => decide (x ≠ '>')) (l := s)
      rw [e, List.append_nil] at h'
      rw [← h'] at hm
      have := mem_takeWhile_imp hm
      simp at this
    unfold tagRest at h
    split at h
    · rename_i e; exact hne e
    · rw [if_neg hh] at h; cases h
  · exact Or.inl hm

theorem stripTags_cons (c : Char) (s : Str) :
    stripTags (c :: s) = if c = '<' then
      match tagRest s with
      | some rest => stripTags rest
      | none => c :: stripTags s
    else c :: stripTags s := by
  rw [stripTags]
  split
  · split
    · rename_i h; rw [h]
    · rename_i h; rw [h]
  · rfl

theorem stripTags_mem (s : Str) : ∀ c ∈ stripTags s, c ∈ s := by
  induction s using length_ind with
  | h s ih =>
    intro d hd
    cases s with
    | nil => rw [stripTags] at hd; exact hd
    | cons c s =>
      rw [stripTags_cons] at hd
      have keep : d ∈ c :: stripTags s → d ∈ c :: s := by
        intro h
        rcases List.mem_cons.1 h with rfl | h
        · simp
        · exact List.mem_cons_of_mem _ (ih s (by simp) d h)
      split at hd
      · cases e : tagRest s with
        | none => rw [e] at hd; exact keep hd
        | some rest =>
          rw [e] at hd
          obtain ⟨t, -, -, rfl⟩ := (tagRest_some s rest).1 e
          have := ih rest (by simp; omega) d hd
          simp [this]
      · exact keep hd

theorem hasTag_cons (c : Char) (s : Str) :
    HasTag (c :: s) ↔ HasTag s ∨ (c = '<' ∧ ∃ rest, tagRest s = some rest) := by
  constructor
  · rintro ⟨a, t, b, e, ht, hn⟩
    cases a with
    | nil =>
      simp only [List.nil_append, List.cons_append, List.cons.injEq] at e
      exact Or.inr ⟨e.1, b, (tagRest_some s b).2 ⟨t, ht, hn, e.2⟩⟩
    | cons x a =>
      simp only [List.cons_append, List.cons.injEq] at e
      exact Or.inl ⟨a, t, b, by simpa using e.2, ht, hn⟩
  · rintro (⟨a, t, b, rfl, ht, hn⟩ | ⟨rfl, rest, h⟩)
    · exact ⟨c :: a, t, b, by simp, ht, hn⟩
    · obtain ⟨t, ht, hn, rfl⟩ := (tagRest_some s rest).1 h
      exact ⟨[], t, rest, by simp, ht, hn⟩

theorem not_hasTag_nil : ¬ HasTag [] := by
  rintro ⟨a, t, b, e, -, -⟩
  simp at e

theorem stripTags_noTag (s : Str) : ¬ HasTag (stripTags s) := by
  induction s using length_ind with
  | h s ih =>
    cases s with
    | nil => rw [stripTags]; exact not_hasTag_nil
    | cons c s =>
      rw [stripTags_cons]
      split
      · rename_i hc
        subst hc
        cases e : tagRest s with
        | some rest =>
          have := tagRest_length s rest e
          exact ih rest (by simp; omega)
        | none =>
          simp only
          rw [hasTag_cons]
          rintro (h | ⟨-, rest, h⟩)
          · exact ih s (by simp) h
          · obtain ⟨t, ht, hn, h⟩ := (tagRest_some _ _).1 h
            rcases tagRest_none s e with h' | h'
            · exact h' (stripTags_mem s '>' (by rw [h]; simp))
            · cases s with
              | nil => simp at h'
              | cons x s =>
                simp only [List.head?_cons, Option.some.injEq] at h'
                subst h'
                rw [stripTags_cons, if_neg (by decide)] at h
                cases t with
                | nil => exact ht rfl
                | cons y t =>
                  simp only [List.cons_append, List.cons.injEq] at h
                  apply hn
                  rw [← h.1]; simp
      · rename_i hc
        rw [hasTag_cons]
        rintro (h | ⟨h, -⟩)
        · exact ih s (by simp) h
        · exact hc h

theorem stripTags_id (s : Str) (h : ¬ HasTag s) : stripTags s = s := by
  induction s with
  | nil => rw [stripTags]
  | cons c s ih =>
    rw [hasTag_cons] at h
    rw [stripTags_cons, ih (fun h' => h (Or.inl h'))]
    split
    · rename_i hc
      cases e : tagRest s with
      | none => rfl
      | some rest => exact absurd (Or.inr ⟨hc, rest, e⟩) h
    · rfl

theorem stripTags_first (a t b : Str) (ha : ∀ x y, a = x ++ '<' :: y → y.head? = some '>') (ht : t ≠ [])
    (hn : '>' ∉ t) : stripTags (a ++ '<' :: t ++ '>' :: b) = a ++ stripTags b := by
  induction a with
  | nil =>
    have e : tagRest (t ++ '>' :: b) = some b := (tagRest_some _ _).2 ⟨t, ht, hn, rfl⟩
    simp only [List.nil_append, List.cons_append]
    rw [stripTags_cons, if_pos rfl, e]
  | cons c a ih =>
    have ih' := ih fun x y e => ha (c :: x) y (by rw [e]; rfl)
    simp only [List.cons_append] at ih' ⊢
    rw [stripTags_cons, ih']
    split
    · rename_i hc
      subst hc
      have := ha [] a rfl
      cases a with
      | nil => simp at this
      | cons d a =>
        simp only [List.head?_cons, Option.some.injEq] at this
        subst this
        have e : tagRest ('>' :: a ++ '<' :: t ++ '>' :: b) = none := by
          cases h : tagRest ('>' :: a ++ '<' :: t ++ '>' :: b) with
          | none => rfl
          | some rest =>
            obtain ⟨t', ht', hn', e⟩ := (tagRest_some _ _).1 h
            cases t' with
            | nil => exact absurd rfl ht'
            | cons x t' =>
              simp only [List.cons_append, List.cons.injEq] at e
              exfalso; apply hn'; rw [← e.1]; simp
        rw [e]
    · rfl

/-- **C100.** `strip_tags` deletes the tags from left to right and nothing else: text without tags is unchanged, the
first tag goes and the rest is treated alike, and no tag is left. -/
theorem C100_strip_tags (s : Str) :
    (¬ HasTag s → stripTags s = s) ∧
    (∀ a t b : Str, (∀ x y, a = x ++ '<' :: y → y.head? = some '>') → t ≠ [] → '>' ∉ t →
      s = a ++ '<' :: t ++ '>' :: b → stripTags s = a ++ stripTags b) ∧
    ¬ HasTag (stripTags s) ∧ stripTags (stripTags s) = stripTags s :=
  ⟨stripTags_id s, fun a t b h1 h2 h3 e => e ▸ stripTags_first a t b h1 h2 h3, stripTags_noTag s,
    stripTags_id _ (stripTags_noTag s)⟩

/-- **C100 (finding).** Tags are replaced by nothing: the words on both sides of a tag become one word. -/
theorem C100_tags_glue_words (u : Uni) (v w : Str) (hv : v ≠ []) (hw : w ≠ []) (h1 : ∀ c ∈ v ++ w, u.space c = false)
    (h2 : ∀ c ∈ v ++ w, c ≠ '<' ∧ c ≠ '>') :
    split u (stripTags (v ++ "<br>".toList ++ w)) = [v ++ w] := by
  have hid : stripTags w = w := by
    apply stripTags_id
    rintro ⟨a, t, b, rfl, -, -⟩
    exact (h2 '<' (by simp)).1 rfl
  have e : v ++ "<br>".toList ++ w = v ++ '<' :: "br".toList ++ '>' :: w := by simp
  rw [e, stripTags_first v _ w _ (by decide) (by decide), hid]
  · have := splitAux_word u.space (v ++ w) [] h1 []
    rw [List.append_nil] at this
    rw [split, this, List.nil_append, splitAux, if_neg (by simp [hv])]
  · rintro x y rfl
    exact absurd rfl (h2 '<' (by simp)).1

/-! ### Letters and digits -/

theorem insertSpaces_cons (p : Char → Char → Bool) (c : Char) (s : Str) :
    insertSpaces p (c :: s) = if ∃ d ∈ s.head?, p c d = true then c :: ' ' :: insertSpaces p s
      else c :: insertSpaces p s := by
  cases s with
  | nil => simp [insertSpaces]
  | cons d s => simp [insertSpaces]

theorem subPair_cons (p q : Char → Bool) (c : Char) (s : Str) :
    subPair p q (c :: s) = if p c then
      (if ((s.dropWhile p).takeWhile q) = [] then c :: subPair p q s
      else c :: s.takeWhile p ++ ' ' :: (s.dropWhile p).takeWhile q ++ subPair p q ((s.dropWhile p).dropWhile q))
    else c :: subPair p q s := by
  rw [subPair]

theorem insertSpaces_run (p q : Char → Bool) (hpq : ∀ c, p c = true → q c = false) (r s : Str)
    (h : (∀ c ∈ r, q c = true)) :
    insertSpaces (fun a b => p a && q b) (r ++ s) = r ++ insertSpaces (fun a b => p a && q b) s := by
  induction r with
  | nil => rfl
  | cons c r ih =>
    rw [List.cons_append, insertSpaces_cons, if_neg, ih fun d hd => h d (by simp [hd])]
    · rfl
    · rintro ⟨d, -, hd⟩
      simp only [Bool.and_eq_true] at hd
      have := hpq c hd.1
      rw [h c (by simp)] at this; cases this

theorem insertSpaces_letters (p q : Char → Bool) (hpq : ∀ c, p c = true → q c = false) (r s : Str)
    (h : (∀ c ∈ r, p c = true)) (c : Char) (hc : p c = true) (d : Char) (hd : q d = true) :
    insertSpaces (fun a b => p a && q b) (c :: r ++ d :: s) =
      c :: r ++ ' ' :: insertSpaces (fun a b => p a && q b) (d :: s) := by
  induction r generalizing c with
  | nil =>
    rw [List.singleton_append, insertSpaces_cons, if_pos ⟨d, by simp, by simp [hc, hd]⟩]
    rfl
  | cons x r ih =>
    have hx := h x (by simp)
    rw [List.cons_append, List.cons_append, insertSpaces_cons, if_neg]
    · rw [← List.cons_append, ih (fun y hy => h y (by simp [hy])) x hx]
      rfl
    · rintro ⟨y, hy, hyq⟩
      simp only [List.head?_cons, Option.mem_def, Option.some.injEq] at hy
      subst hy
      simp [hpq x hx] at hyq

theorem subPair_insert (p q : Char → Bool) (hpq : ∀ c, p c = true → q c = false) (s : Str) :
    subPair p q s = insertSpaces (fun a b => p a && q b) s := by
  induction s using length_ind with
  | h s ih =>
    cases s with
    | nil => rw [subPair]; rfl
    | cons c s =>
      rw [subPair_cons]
      by_cases hc : p c = true
      · rw [if_pos hc]
        by_cases he : ((s.dropWhile p).takeWhile q) = []
        · rw [if_pos he, ih s (by simp), insertSpaces_cons, if_neg]
          rintro ⟨d, hd, hdq⟩
          simp only [Bool.and_eq_true] at hdq
          cases s with
          | nil => simp at hd
          | cons x s =>
            simp only [List.head?_cons, Option.mem_def, Option.some.injEq] at hd
            subst hd
            have hp : p x = false := by
              cases hx : p x with
              | false => rfl
              | true => rw [hpq x hx] at hdq; exact absurd hdq.2 (by simp)
            rw [List.dropWhile_cons_of_neg (by simp [hp]), List.takeWhile_cons_of_pos hdq.2] at he
            cases he
        · rw [if_neg he]
          have hlen : ((s.dropWhile p).dropWhile q).length < (c :: s).length := by
            have h1 := (List.dropWhile_suffix (l := s) p).length_le
            have h2 := (List.dropWhile_suffix (l := s.dropWhile p) q).length_le
            simp; omega
          rw [ih _ hlen]
          have hrun : insertSpaces (fun a b => p a && q b) (s.dropWhile p) = (s.dropWhile p).takeWhile q ++
              insertSpaces (fun a b => p a && q b) ((s.dropWhile p).dropWhile q) := by
            conv_lhs => rw [← List.takeWhile_append_dropWhile (p := q) (l := s.dropWhile p)]
            exact insertSpaces_run p q hpq _ _ fun d hd => mem_takeWhile_imp hd
          cases hs : s.dropWhile p with
          | nil => rw [hs] at he; exact absurd rfl he
          | cons d t =>
            have hd : q d = true := by
              by_contra hd
              rw [hs, List.takeWhile_cons_of_neg hd] at he
              exact he rfl
            have := insertSpaces_letters p q hpq (s.takeWhile p) t (fun x hx => mem_takeWhile_imp hx) c hc d hd
            rw [← hs, List.cons_append, List.takeWhile_append_dropWhile] at this
            rw [this, hrun, hs]
            simp
      · rw [if_neg hc, ih s (by simp), insertSpaces_cons, if_neg]
        rintro ⟨d, -, hd⟩
        simp [hc] at hd

theorem insertSpaces_head (p : Char → Char → Bool) (s : Str) : (insertSpaces p s).head? = s.head? := by
  cases s with
  | nil => rfl
  | cons c s =>
    rw [insertSpaces_cons]
    split <;> rfl

theorem insertSpaces_twice (p q : Char → Char → Bool) (hq : ∀ c, q c ' ' = false) (hq' : ∀ c, q ' ' c = false)
    (hpq : ∀ c d, p c d = true → q c d = false) (s : Str) :
    insertSpaces q (insertSpaces p s) = insertSpaces (fun a b => p a b || q a b) s := by
  induction s with
  | nil => rfl
  | cons c s ih =>
    rw [insertSpaces_cons, insertSpaces_cons]
    by_cases h : ∃ d ∈ s.head?, p c d = true
    · obtain ⟨d, hd, hp⟩ := h
      rw [if_pos ⟨d, hd, hp⟩, if_pos ⟨d, hd, by simp [hp]⟩, insertSpaces_cons, if_neg, insertSpaces_cons, if_neg, ih]
      · rintro ⟨x, -, hx⟩; rw [hq'] at hx; cases hx
      · rintro ⟨x, hx, hx'⟩
        simp only [List.head?_cons, Option.mem_def, Option.some.injEq] at hx
        subst hx; rw [hq] at hx'; cases hx'
    · rw [if_neg h, insertSpaces_cons, insertSpaces_head, ih]
      have : (∃ d ∈ s.head?, q c d = true) ↔ ∃ d ∈ s.head?, (p c d || q c d) = true := by
        constructor
        · rintro ⟨d, hd, hx⟩; exact ⟨d, hd, by simp [hx]⟩
        · rintro ⟨d, hd, hx⟩
          refine ⟨d, hd, ?_⟩
          rcases Bool.or_eq_true_iff.1 hx with hx | hx
          · exact absurd ⟨d, hd, hx⟩ h
          · exact hx
      simp only [this]

theorem lower_not_digit (c : Char) (h : isLower c = true) : isDigit c = false := by
  simp only [isLower, isDigit, Bool.and_eq_true, decide_eq_true_eq, Bool.and_eq_false_iff, decide_eq_false_iff_not] at *
  right
  intro h'
  have h1 := Char.le_def.1 h.1
  have h2 := Char.le_def.1 h'
  have : ('a' : Char).val ≤ ('9' : Char).val := UInt32.le_trans h1 h2
  exact absurd this (by decide)

/-- **C100.** `split_alphanum` inserts a space at every boundary between a lower case letter a-z and a digit 0-9, in
both directions, and changes nothing else. -/
theorem C100_split_alphanum (s : Str) :
    splitAlphanum s = insertSpaces (fun a b => (isLower a && isDigit b) || (isDigit a && isLower b)) s := by
  rw [splitAlphanum, subPair_insert _ _ lower_not_digit, subPair_insert, insertSpaces_twice]
  · intro c; simp [isLower]
  · intro c; simp [isDigit]
  · intro c d h
    simp only [Bool.and_eq_true] at h
    simp [lower_not_digit c h.1]
  · intro c hc
    cases h : isLower c with
    | false => rfl
    | true => rw [lower_not_digit c h] at hc; cases hc

/-- **C100 (finding).** Upper case letters and letters with accents are not separated from digits. -/
theorem C100_split_alphanum_upper (c d : Char) (hc : isLower c = false) (hd : isDigit d = true) (hc' : isDigit c = false) :
    splitAlphanum [c, d] = [c, d] := by
  rw [C100_split_alphanum]
  simp [insertSpaces, hc, hc']

/-! ### Stems and the default pipeline -/

/-- The letters of `v` are letters of `w` or lower case letters. -/
def From (w v : Str) : Prop := ∀ c ∈ v, c ∈ w ∨ isLower c = true

theorem from_refl (w : Str) : From w w := fun _ h => Or.inl h

theorem from_trans {w v x : Str} (h1 : From w v) (h2 : From v x) : From w x := by
  intro c hc
  rcases h2 c hc with h | h
  · exact h1 c h
  · exact Or.inr h

theorem from_append {w v t : Str} (h : From w v) (ht : ∀ c ∈ t, isLower c = true) : From w (v ++ t) := by
  intro c hc
  rcases List.mem_append.1 hc with h' | h'
  · exact h c h'
  · exact Or.inr (ht c h')

theorem from_strip {s w v : Str} (h : Porter.Spec.strip s w = some v) : From w v := by
  unfold Porter.Spec.strip at h
  split at h
  · cases h
    exact fun c hc => Or.inl (List.mem_of_mem_take hc)
  · cases h

theorem from_rewrite (cond : Str → Bool) (rules : List (Str × Str)) (h : ∀ r ∈ rules, ∀ c ∈ r.2, isLower c = true)
    (w : Str) : From w (Porter.Spec.rewrite cond rules w) := by
  induction rules with
  | nil => exact from_refl w
  | cons r rules ih =>
    obtain ⟨s, t⟩ := r
    rw [Porter.Spec.rewrite]
    split
    · rename_i e
      split
      · exact from_append (from_strip e) (h (s, t) (by simp))
      · exact from_refl w
    · exact ih fun r hr => h r (by simp [hr])

theorem from_dropLast (w : Str) : From w w.dropLast := fun _ h => Or.inl ((List.dropLast_sublist w).subset h)

theorem from_repair (w : Str) : From w (Porter.Spec.repair w) := by
  unfold Porter.Spec.repair
  split
  · rename_i e; exact from_append (from_strip e) (by decide)
  · split
    · rename_i e; exact from_append (from_strip e) (by decide)
    · split
      · rename_i e; exact from_append (from_strip e) (by decide)
      · split
        · split
          · exact from_refl w
          · exact from_dropLast w
        · split
          · exact from_append (from_refl w) (by decide)
          · exact from_refl w

theorem from_step1a (w : Str) : From w (Porter.Spec.step1a w) := by
  unfold Porter.Spec.step1a
  split
  · rename_i e; exact from_append (from_strip e) (by decide)
  · split
    · rename_i e; exact from_append (from_strip e) (by decide)
    · split
      · rename_i e
        split
        · exact from_refl w
        · exact from_strip e
      · exact from_refl w

theorem from_step1b (w : Str) : From w (Porter.Spec.step1b w) := by
  unfold Porter.Spec.step1b
  split
  · rename_i e
    split
    · exact from_append (from_strip e) (by decide)
    · exact from_refl w
  · split
    · rename_i e
      split
      · exact from_trans (from_strip e) (from_repair _)
      · exact from_refl w
    · split
      · rename_i e
        split
        · exact from_trans (from_strip e) (from_repair _)
        · exact from_refl w
      · exact from_refl w

theorem from_step4 (w : Str) : From w (Porter.Spec.step4 w) := by
  unfold Porter.Spec.step4
  split
  · rename_i e
    split
    · exact from_strip e
    · exact from_refl w
  · refine from_rewrite _ _ ?_ w
    intro r hr
    obtain ⟨s, -, rfl⟩ := List.mem_map.1 hr
    simp

theorem from_step1c (w : Str) : From w (Porter.Spec.step1c w) := from_rewrite _ _ (by decide +kernel) w

theorem from_step2 (w : Str) : From w (Porter.Spec.step2 w) := from_rewrite _ _ (by decide +kernel) w

theorem from_step3 (w : Str) : From w (Porter.Spec.step3 w) := from_rewrite _ _ (by decide +kernel) w

theorem from_step5a (w : Str) : From w (Porter.Spec.step5a w) := from_rewrite _ _ (by decide +kernel) w

theorem from_stem (w : Str) : From w (Porter.Spec.stem w) := by
  unfold Porter.Spec.stem
  split
  · exact from_refl w
  · refine from_trans (from_step1a w) (from_trans (from_step1b _) (from_trans (from_step1c _)
      (from_trans (from_step2 _) (from_trans (from_step3 _)
      (from_trans (from_step4 _) (from_trans (from_step5a _) ?_))))))
    unfold Porter.Spec.step5b
    split
    · exact from_dropLast _
    · exact from_refl _

theorem stem_token (u : Uni) (h : UniOk u) (w : Str) (hw : Token u w) : Token u (Porter.Spec.stem w) := by
  refine ⟨?_, fun c hc => ?_⟩
  · obtain ⟨s, e, -, -, hne, -⟩ := Porter.C57_total 0 w
    rw [Porter.C57_rules] at e
    cases e
    exact hne hw.1
  · rcases from_stem w c hc with h' | h'
    · exact hw.2 c h'
    · exact h.letter c h'

theorem mapM_stem (u : Uni) (j : Nat → Int) (l : List (Str × Nat)) :
    l.mapM (fun e => Porter.stemWord u.lower (j e.2) e.1) = some (l.map fun e => Porter.Spec.stem (u.lower e.1)) := by
  induction l with
  | nil => rfl
  | cons e l ih =>
    rw [List.mapM_cons, Porter.stemWord, Porter.C57_rules, ih]
    rfl

/-- **C100.** Stemming a text never fails and replaces every word by its stem, in order. -/
theorem C100_stem_text (u : Uni) (h : UniOk u) (j : Nat → Int) (s : Str) :
    ∃ t, stemText u j s = some t ∧ split u t = (split u s).map fun w => Porter.Spec.stem (u.lower w) := by
  have e : stemText u j s = some (join ((split u s).map fun w => Porter.Spec.stem (u.lower w))) := by
    rw [stemText, mapM_stem]
    simp only [Option.map_some, Option.some.injEq]
    congr 1
    rw [show (fun e : Str × Nat => Porter.Spec.stem (u.lower e.1)) = (fun w => Porter.Spec.stem (u.lower w)) ∘ Prod.fst from rfl,
      ← List.map_map, List.zipIdx_map_fst]
  refine ⟨_, e, split_join u h _ ?_⟩
  intro w hw
  obtain ⟨v, hv, rfl⟩ := List.mem_map.1 hw
  exact stem_token u h _ (h.lower _ (split_tokens u s v hv))

theorem splitAux_filter (sp p : Char → Bool) (hp : ∀ c, p c = true → sp c = false) (s : Str) : ∀ cur : Str,
    splitAux sp (cur.filter fun c => !p c) (s.filter fun c => !p c) =
      ((splitAux sp cur s).map fun w => w.filter fun c => !p c).filter (· ≠ []) := by
  induction s with
  | nil =>
    intro cur
    rw [List.filter_nil, splitAux, splitAux]
    by_cases hc : cur = []
    · subst hc; rfl
    · rw [if_neg hc]
      by_cases hf : (cur.filter fun c => !p c) = []
      · simp [hf]
      · simp [hf]
  | cons c s ih =>
    intro cur
    by_cases hc : p c = true
    · rw [List.filter_cons_of_neg (by simp [hc]), splitAux, if_neg (by simp [hp c hc]), ← ih]
      congr 1
      simp [hc]
    · rw [List.filter_cons_of_pos (by simp [hc]), splitAux, splitAux]
      by_cases hs : sp c = true
      · rw [if_pos hs, if_pos hs]
        have e := ih []
        rw [List.filter_nil] at e
        rw [e]
        by_cases hcur : cur = []
        · subst hcur; rw [if_pos (by simp), if_pos rfl]
        · rw [if_neg hcur]
          by_cases hf : (cur.filter fun c => !p c) = []
          · rw [if_pos hf, List.map_cons, hf, List.filter_cons_of_neg (by simp)]
          · rw [if_neg hf, List.map_cons, List.filter_cons_of_pos (by simp [hf])]
      · rw [if_neg hs, if_neg hs, ← ih]
        congr 1
        simp [hc]

/-- **C100.** `preprocess_string` with the default filters never fails, whatever the text: the lower-cased text
without tags is cut at white space and punctuation; digits are deleted from the words; stop
words and words of fewer than three characters are dropped; the others are stemmed, in order. -/
theorem C100_preprocess_string (u : Uni) (h : UniOk u) (j : Nat → Int) (s : Str) (ws : List Str)
    (hws : Runs (fun c => u.space c || decide (c ∈ punctuation)) (stripTags (u.lower s)) ws) :
    preprocessString u j s = some (((((ws.map fun w => w.filter fun c => !isDigit c).filter fun w => w ≠ []).filter
      fun w => w ∉ stopwords).filter fun w => 3 ≤ w.length).map fun w => Porter.Spec.stem (u.lower w)) := by
  unfold preprocessString
  obtain ⟨t, e1, e2⟩ := C100_stem_text u h j (stripShort u 3 (removeStopwords u (stripNumeric
    (stripMultipleWhitespaces u (stripPunctuation (stripTags (u.lower s)))))))
  rw [e1, Option.map_some, e2, (C100_strip_short u h 3 _).1, (C100_remove_stopwords u h _).1, (C100_strip_numeric _).1]
  have e3 := splitAux_filter u.space isDigit h.number (stripMultipleWhitespaces u (stripPunctuation (stripTags (u.lower s)))) []
  rw [List.filter_nil] at e3
  rw [show split u ((stripMultipleWhitespaces u (stripPunctuation (stripTags (u.lower s)))).filter fun c => !isDigit c) = _ from e3]
  have e4 : splitAux u.space [] (stripMultipleWhitespaces u (stripPunctuation (stripTags (u.lower s)))) = ws := by
    have := (C100_strip_multiple_whitespaces u h (stripPunctuation (stripTags (u.lower s)))).1
    rw [split, split] at this
    rw [this]
    exact ((C100_strip_punctuation u h _).1 ws).2 hws
  rw [e4]

/-- **C100.** `preprocess_documents` treats every document by itself. -/
theorem C100_preprocess_documents (u : Uni) (h : UniOk u) (j : Nat → Int) (docs : List Str) :
    ∃ r, preprocessDocuments u j docs = some r ∧ r.map some = docs.map (preprocessString u j) := by
  induction docs with
  | nil => exact ⟨[], rfl, rfl⟩
  | cons d docs ih =>
    obtain ⟨r, e, hr⟩ := ih
    have := C100_preprocess_string u h j d _ ((splitAux_iff _ _ _).1 rfl)
    refine ⟨_ :: r, ?_, by rw [List.map_cons, List.map_cons, hr, this]⟩
    unfold preprocessDocuments at *
    rw [List.mapM_cons, this, e]
    rfl

/-- **C100.** Filters given by the user are applied from left to right, then the text is split. -/
theorem C100_preprocess_with (u : Uni) (f g : Str → Str) (fs : List (Str → Str)) (s : Str) :
    preprocessWith u [] s = split u s ∧ preprocessWith u (f :: fs) s = preprocessWith u fs (f s) ∧
    preprocessWith u (fs ++ [g]) s = split u (g (fs.foldl (fun s f => f s) s)) := by
  refine ⟨rfl, rfl, ?_⟩
  simp [preprocessWith]

/-- Tables for plain ASCII text. -/
def ascii : Uni where
  space c := c = ' ' || ('\t' ≤ c && c ≤ '\r')
  word c := isLower c || isDigit c || ('A' ≤ c && c ≤ 'Z') || c = '_'
  digit := isDigit
  lower s := s.map fun c => if 'A' ≤ c && c ≤ 'Z' then Char.ofNat (c.toNat + 32) else c

/-- **C100 (finding).** The default filters stem last: a token may be shorter than the minimum of three characters, and
may be a stop word. -/
theorem C100_tokens_after_stemming (u : Uni) (h : UniOk u) (j : Nat → Int)
    (hl : u.lower "ones".toList = "ones".toList) :
    preprocessString u j "ones".toList = some ["on".toList] ∧ "on".toList ∈ stopwords ∧ "on".toList.length < 3 := by
  have ht : stripTags (u.lower "ones".toList) = "ones".toList := by
    rw [hl]
    apply stripTags_id
    rintro ⟨a, t, b, e, -, -⟩
    have : '<' ∈ "ones".toList := by rw [e]; simp
    exact absurd this (by decide)
  have hr : Runs (fun c => u.space c || decide (c ∈ punctuation)) "ones".toList ["ones".toList] := by
    have := Runs.last (sep := fun c => u.space c || decide (c ∈ punctuation)) [] "ones".toList (by simp) (by decide) ?_
    · simpa using this
    · intro c hc
      have h1 : isLower c = true := by revert c; decide
      have h2 : c ∉ punctuation := by revert c; decide
      simp [h.letter c h1, h2]
  rw [C100_preprocess_string u h j _ _ (by rw [ht]; exact hr)]
  refine ⟨?_, by decide +kernel, by decide⟩
  have e : ((((["ones".toList].map fun w => w.filter fun c => !isDigit c).filter fun w => w ≠ []).filter
      fun w => w ∉ stopwords).filter fun w => 3 ≤ w.length) = ["ones".toList] := by decide +kernel
  rw [e, List.map_singleton, hl]
  decide +kernel

/-! ### Tokenisers -/

theorem simpleTokenize_eq (u : Uni) (s : Str) : simpleTokenize u s = splitAux (fun c => !alphabetic u c) [] s := by
  induction s using length_ind with
  | h s ih =>
    cases s with
    | nil => rw [simpleTokenize]; rfl
    | cons c s =>
      rw [simpleTokenize]
      by_cases hc : alphabetic u c = true
      · rw [if_pos hc, ih _ (dropWhile_lt _ c s)]
        conv_rhs => rw [← List.takeWhile_append_dropWhile (p := alphabetic u) (l := s), ← List.cons_append]
        rw [splitAux_word, List.nil_append]
        · cases hd : s.dropWhile (alphabetic u) with
          | nil => simp [splitAux]
          | cons d t =>
            have : alphabetic u d = false := head_dropWhile hd
            rw [splitAux_flush _ (c :: s.takeWhile (alphabetic u)) t d (by simp) (by simp [this]), splitAux_sep _ _ _ (by simp [this])]
        · intro d hd
          rcases List.mem_cons.1 hd with rfl | h
          · simp [hc]
          · simp [mem_takeWhile_imp h]
      · rw [if_neg hc, ih s (by simp), splitAux_sep _ _ _ (by simpa using hc)]

/-- **C100.** `tokenize` gives exactly the longest runs of word characters that are no digits, in order. -/
theorem C100_tokenize (u : Uni) (deacc : Str → Str) (lowercase useDeacc : Bool) (s : Str) (ws : List Str) :
    tokenize u deacc lowercase useDeacc s = ws ↔
      Runs (fun c => u.digit c || !u.word c)
        ((if useDeacc then deacc else id) ((if lowercase then u.lower else id) s)) ws := by
  rw [← splitAux_iff, tokenize, simpleTokenize_eq]
  have e : (fun c => !alphabetic u c) = fun c => u.digit c || !u.word c := by
    funext c; simp [alphabetic]
  rw [e]
  cases lowercase <;> cases useDeacc <;> rfl

/-- **C100.** `simple_preprocess` keeps exactly the tokens whose length is within the bounds, both
included, and that do not start with an underscore. -/
theorem C100_simple_preprocess (u : Uni) (deacc : Str → Str) (useDeacc : Bool) (minLen maxLen : Nat) (s : Str) :
    (simplePreprocess u deacc useDeacc minLen maxLen s).Sublist (tokenize u deacc true useDeacc s) ∧
    ∀ w, (simplePreprocess u deacc useDeacc minLen maxLen s).count w =
      if minLen ≤ w.length ∧ w.length ≤ maxLen ∧ w.head? ≠ some '_' then (tokenize u deacc true useDeacc s).count w
      else 0 := by
  refine ⟨List.filter_sublist, fun w => ?_⟩
  unfold simplePreprocess
  by_cases h : minLen ≤ w.length ∧ w.length ≤ maxLen ∧ w.head? ≠ some '_'
  · rw [if_pos h, List.count_filter]
    simp [h.1, h.2.1, h.2.2]
  · rw [if_neg h, List.count_eq_zero]
    intro hm
    have := (List.mem_filter.1 hm).2
    apply h
    simpa [and_assoc] using this

/-- **C100 (finding).** The documentation promises "contiguous sequences of alphabetic characters"; underscores
(and every other word character that is no decimal digit) belong to the tokens. -/
theorem C100_underscores (u : Uni) (deacc : Str → Str) (w : Str) (hw : w ≠ [])
    (h : ∀ c ∈ w, u.word c = true ∧ u.digit c = false) : tokenize u deacc false false w = [w] := by
  rw [C100_tokenize]
  have := Runs.last (sep := fun c => u.digit c || !u.word c) [] w (by simp) hw fun c hc => by simp [h c hc]
  simpa using this

/-- **C100.** For normal forms that do not depend on composition, and texts that stay decomposed without their
accents, `deaccent` leaves no accent, changes nothing the second time, and only normalises text without accents. -/
theorem C100_deaccent (nfd nfc : Str → Str) (mark : Char → Bool) (h1 : ∀ s, nfd (nfc s) = nfd s)
    (h2 : ∀ s, nfd ((nfd s).filter fun c => !mark c) = (nfd s).filter fun c => !mark c) (s : Str) :
    nfd (deaccent nfd nfc mark s) = (nfd s).filter (fun c => !mark c) ∧
    (∀ c ∈ nfd (deaccent nfd nfc mark s), mark c = false) ∧
    deaccent nfd nfc mark (deaccent nfd nfc mark s) = deaccent nfd nfc mark s ∧
    ((∀ c ∈ nfd s, mark c = false) → deaccent nfd nfc mark s = nfc (nfd s)) := by
  have e : nfd (deaccent nfd nfc mark s) = (nfd s).filter fun c => !mark c := by rw [deaccent, h1, h2]
  refine ⟨e, ?_, ?_, ?_⟩
  · intro c hc
    rw [e] at hc
    simpa using (List.mem_filter.1 hc).2
  · rw [deaccent, e, List.filter_filter]
    simp only [Bool.and_self]
    rfl
  · intro h
    rw [deaccent, List.filter_eq_self.2]
    intro c hc
    simp [h c hc]

theorem code_of_space (c : Char) (h : ascii.space c = true) : c.toNat ≤ 32 := by
  simp only [ascii, Bool.or_eq_true, Bool.and_eq_true, decide_eq_true_eq] at h
  rcases h with rfl | h
  · decide
  · have h1 : c.val ≤ ('\r' : Char).val := Char.le_def.1 h.2
    have h2 : c.val.toNat ≤ ('\r' : Char).val.toNat := UInt32.le_iff_toNat_le.1 h1
    have h3 : ('\r' : Char).val.toNat = 13 := by decide
    show c.val.toNat ≤ 32
    omega

/-- The ASCII tables satisfy what is assumed. -/
example : UniOk ascii := by
  have low : ∀ c d : Char, d ≤ c → 33 ≤ d.toNat → ascii.space c = false := by
    intro c d h hd
    cases hs : ascii.space c with
    | false => rfl
    | true =>
      have h1 := code_of_space c hs
      have h2 : d.val.toNat ≤ c.val.toNat := UInt32.le_iff_toNat_le.1 (Char.le_def.1 h)
      have h3 : c.toNat = c.val.toNat := rfl
      have h4 : d.toNat = d.val.toNat := rfl
      omega
  refine ⟨by decide, fun c h => ?_, fun c h => ?_, fun w hw => ⟨by simpa [ascii] using hw.1, ?_⟩⟩
  · simp only [isLower, Bool.and_eq_true, decide_eq_true_eq] at h
    exact low c 'a' h.1 (by decide)
  · simp only [isDigit, Bool.and_eq_true, decide_eq_true_eq] at h
    exact low c '0' h.1 (by decide)
  · intro c hc
    simp only [ascii, List.mem_map] at hc
    obtain ⟨d, hd, rfl⟩ := hc
    split
    · rename_i h
      simp only [Bool.and_eq_true, decide_eq_true_eq] at h
      have h1 : ('A' : Char).val.toNat ≤ d.val.toNat := UInt32.le_iff_toNat_le.1 (Char.le_def.1 h.1)
      have h2 : d.val.toNat ≤ ('Z' : Char).val.toNat := UInt32.le_iff_toNat_le.1 (Char.le_def.1 h.2)
      have h3 : ('A' : Char).val.toNat = 65 := by decide
      have h4 : ('Z' : Char).val.toNat = 90 := by decide
      have h5 : d.toNat = d.val.toNat := rfl
      cases hs : ascii.space (Char.ofNat (d.toNat + 32)) with
      | false => rfl
      | true =>
        have h6 := code_of_space _ hs
        have key : ∀ n < 91, 65 ≤ n → ¬ (Char.ofNat (n + 32)).toNat ≤ 32 := by decide
        exact absurd h6 (key _ (by omega) (by omega))
    · exact hw.2 d hd
example : ascii.space ' ' = true ∧ ascii.space '\n' = true ∧ ascii.space 'a' = false := by decide
example : ascii.lower "Ones".toList = "ones".toList := by decide
example : insertSpaces (fun a b => (isLower a && isDigit b) || (isDigit a && isLower b)) "a1b2".toList = "a 1 b 2".toList := by
  decide
example : HasTag "x<i>y".toList := ⟨['x'], ['i'], ['y'], by decide, by decide, by decide⟩

end Verif.Preprocess
