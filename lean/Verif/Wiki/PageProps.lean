import Verif.Wiki.PageModel
import Verif.Wiki.MarkupLinkProps
import Verif.Wiki.SegProps

/-!
# C140: the text and the links of a page with any number of links
-/

namespace Verif.Wiki
open Verif Text Regex

/-! ## Specification -/

/-- a link, `[[target]]` or `[[target|label]]` -/
structure Link where
  target : Str
  label : Option Str

/-- how it is written -/
def Link.source (l : Link) : Str :=
  cs "[[" ++ l.target ++ (match l.label with | none => [] | some d => cs "|" ++ d) ++ cs "]]"

/-- what the reader sees -/
def Link.shown (l : Link) : Str := l.label.getD l.target

/-- a link to an article: not to a file, a category or another language -/
structure Link.Ok (l : Link) : Prop where
  target : Simple l.target
  nonempty : l.target ≠ []
  colon : ':' ∉ l.target
  image : ¬ cs "image" <+: l.target ∧ ¬ cs "Image" <+: l.target
  label : ∀ d, l.label = some d → Simple d ∧ d ≠ [] ∧ ¬ cs "://" <:+: d

/-- The bar in the link is not taken for the bar of a table, and the link is on one line. -/
structure Link.Tidy (l : Link) : Prop where
  line : '\n' ∉ l.target
  label : ∀ d, l.label = some d → '\n' ∉ d ∧ (∀ c, d.head? = some c → c ≠ '-' ∧ c ≠ '}') ∧ ∀ c, l.target.getLast? = some c → c ≠ ' ' ∧ c ≠ '\t'

/-- a page: text, and links that are followed by text -/
def source (before : Str) (doc : List (Link × Str)) : Str := before ++ doc.flatMap fun p => p.1.source ++ p.2

/-! ## Pages in brackets -/

/-- something in brackets, and the text after it -/
structure Item where
  dbl : Bool
  inner : Str
  after : Str

def Item.text (e : Item) : Str := if e.dbl then '[' :: '[' :: (e.inner ++ ']' :: ']' :: e.after) else '[' :: (e.inner ++ ']' :: e.after)

def pageOf (before : Str) (l : List Item) : Str := before ++ l.flatMap Item.text

theorem pageOf_dbl (before i a : Str) (l : List Item) :
    pageOf before (⟨true, i, a⟩ :: l) = before ++ '[' :: ('[' :: pageOf (i ++ ']' :: ']' :: a) l) := by
  simp [pageOf, Item.text]

theorem pageOf_one (before i a : Str) (l : List Item) :
    pageOf before (⟨false, i, a⟩ :: l) = before ++ '[' :: pageOf (i ++ ']' :: a) l := by
  simp [pageOf, Item.text]

theorem split_next {α} {c : α} {p q x y : List α} (hp : c ∉ p) (h : x ++ c :: y = p ++ c :: q) :
    (x = p ∧ y = q) ∨ ∃ x', x' ++ c :: y = q := by
  induction p generalizing x with
  | nil =>
    cases x with
    | nil => left; simpa using h
    | cons d x =>
      simp only [List.cons_append, List.nil_append, List.cons.injEq] at h
      exact Or.inr ⟨x, h.2⟩
  | cons d p ih =>
    cases x with
    | nil =>
      simp only [List.nil_append, List.cons_append, List.cons.injEq] at h
      exact absurd (by simp [h.1]) hp
    | cons e x =>
      simp only [List.cons_append, List.cons.injEq] at h
      rcases ih (fun m => hp (by simp [m])) h.2 with ⟨h1, h2⟩ | h2
      · left; exact ⟨by rw [h.1, h1], h2⟩
      · right; exact h2

/-- where an opening bracket stands -/
theorem occ (l : List Item) (before : Str) (hb : '[' ∉ before) (hl : ∀ e ∈ l, '[' ∉ e.inner ∧ '[' ∉ e.after) (x y : Str)
    (h : x ++ '[' :: y = pageOf before l) :
    ∃ e ∈ l, ∃ z, (e.dbl = true ∧ y = '[' :: (e.inner ++ ']' :: z)) ∨ y = e.inner ++ ']' :: z := by
  induction l generalizing before x with
  | nil =>
    exfalso
    apply hb
    have : pageOf before [] = before := by simp [pageOf]
    rw [← this, ← h]
    simp
  | cons e l ih =>
    obtain ⟨dbl, i, a⟩ := e
    obtain ⟨hi, ha⟩ := hl ⟨dbl, i, a⟩ (by simp)
    dsimp only at hi ha
    cases dbl with
    | false =>
      rw [pageOf_one] at h
      rcases split_next hb h with ⟨_, h2⟩ | ⟨x', h2⟩
      · exact ⟨_, List.mem_cons_self, a ++ l.flatMap Item.text, Or.inr (by rw [h2]; simp [pageOf])⟩
      · obtain ⟨e, he, z, hz⟩ := ih (i ++ ']' :: a) (by simp [hi, ha]) (fun e he => hl e (List.mem_cons_of_mem _ he)) x' h2
        exact ⟨e, List.mem_cons_of_mem _ he, z, hz⟩
    | true =>
      rw [pageOf_dbl] at h
      rcases split_next hb h with ⟨_, h2⟩ | ⟨x', h2⟩
      · exact ⟨_, List.mem_cons_self, ']' :: (a ++ l.flatMap Item.text), Or.inl ⟨rfl, by rw [h2]; simp [pageOf]⟩⟩
      · rcases split_next (p := []) (by simp) h2 with ⟨_, h3⟩ | ⟨x'', h3⟩
        · exact ⟨_, List.mem_cons_self, ']' :: (a ++ l.flatMap Item.text), Or.inr (by rw [h3]; simp [pageOf])⟩
        · obtain ⟨e, he, z, hz⟩ := ih (i ++ ']' :: ']' :: a) (by simp [hi, ha]) (fun e he => hl e (List.mem_cons_of_mem _ he)) x'' h3
          exact ⟨e, List.mem_cons_of_mem _ he, z, hz⟩

/-- where two opening brackets stand -/
theorem occ2 (l : List Item) (before : Str) (hb : '[' ∉ before) (hl : ∀ e ∈ l, '[' ∉ e.inner ∧ '[' ∉ e.after) (x y : Str)
    (h : x ++ '[' :: '[' :: y = pageOf before l) : ∃ e ∈ l, ∃ z, e.dbl = true ∧ y = e.inner ++ ']' :: z := by
  obtain ⟨e, he, z, ⟨h1, h2⟩ | h2⟩ := occ l before hb hl x _ h
  · exact ⟨e, he, z, h1, by injection h2⟩
  · exfalso
    have hi := (hl e he).1
    cases hc : e.inner with
    | nil =>
      rw [hc] at h2
      injection h2 with h3 _
      exact absurd h3 (by decide)
    | cons c i =>
      rw [hc] at h2 hi
      injection h2 with h3 _
      exact hi (by rw [h3]; simp)

theorem page_infix (w : Str) (h1 : '[' ∉ w) (h2 : ']' ∉ w) (l : List Item) (before : Str) (h : w <:+: pageOf before l) :
    w <:+: before ∨ ∃ e ∈ l, w <:+: e.inner ∨ w <:+: e.after := by
  induction l generalizing before with
  | nil => left; simpa [pageOf] using h
  | cons e l ih =>
    obtain ⟨dbl, i, a⟩ := e
    have key : w <:+: before ∨ (∃ e ∈ l, w <:+: e.inner ∨ w <:+: e.after) ∨ w <:+: i ∨ w <:+: a := by
      cases dbl with
      | false =>
        rw [pageOf_one] at h
        rcases infix_sep h1 h with h | h
        · exact Or.inl h
        rcases ih _ h with h | h
        · rcases infix_sep h2 h with h | h
          · exact Or.inr (Or.inr (Or.inl h))
          · exact Or.inr (Or.inr (Or.inr h))
        · exact Or.inr (Or.inl h)
      | true =>
        rw [pageOf_dbl] at h
        rcases infix_sep h1 h with h | h
        · exact Or.inl h
        rcases infix_sep (x := []) h1 h with h | h
        · left; rw [List.infix_nil.1 h]; simp
        rcases ih _ h with h | h
        · rcases infix_sep h2 h with h | h
          · exact Or.inr (Or.inr (Or.inl h))
          · rcases infix_sep (x := []) h2 h with h | h
            · left; rw [List.infix_nil.1 h]; simp
            · exact Or.inr (Or.inr (Or.inr h))
        · exact Or.inr (Or.inl h)
    rcases key with h | ⟨e, he, h⟩ | h
    · exact Or.inl h
    · exact Or.inr ⟨e, List.mem_cons_of_mem _ he, h⟩
    · exact Or.inr ⟨_, List.mem_cons_self, h⟩

theorem page_mem (c : Char) (h1 : c ≠ '[') (h2 : c ≠ ']') (l : List Item) (before : Str) (hb : c ∉ before)
    (hl : ∀ e ∈ l, c ∉ e.inner ∧ c ∉ e.after) : c ∉ pageOf before l := by
  simp only [pageOf, List.mem_append, List.mem_flatMap, not_or, not_exists, not_and]
  refine ⟨hb, fun e he => ?_⟩
  obtain ⟨h3, h4⟩ := hl e he
  unfold Item.text
  split <;> simp [h1, h2, h3, h4]

/-! ### nothing to do -/

/-- a bar that looks like the bar of a table -/
def barMarks : List String := ["||", "|-", "|}", " |", "\n|", "\t|"]

/-- text in which there is no table and no empty brackets, but maybe bars -/
structure Quiet2 (s : Str) : Prop where
  brace : '{' ∉ s
  marks : ∀ w ∈ tableMarks, ¬ cs w <:+: s
  bars : ∀ w ∈ barMarks, ¬ cs w <:+: s
  empty : ¬ cs "[]" <:+: s

theorem p12_needs (k : Cls) : Needs (p12 k) [cs "{|", cs "|-", cs "|}"] := by
  apply needs_left
  apply needs_alt
  · exact needs_lit _ _ (by simp)
  apply needs_alt
  · exact needs_left (needs_lit _ _ (by simp)) _
  · exact needs_lit _ _ (by simp)

theorem p13_id2 (s : Str) (hb : ∀ w ∈ barMarks, ¬ cs w <:+: s) (hm : ∀ w ∈ tableMarks, ¬ cs w <:+: s) (repl : St → Str) :
    sub p13 repl s = s := by
  apply sub_none
  intro x y e _
  rw [List.eq_nil_iff_forall_not_mem]
  intro t ht
  obtain ⟨v, hv, ht⟩ := (mem_seq _ _ _ _).1 ht
  obtain ⟨w, hw, _⟩ := (mem_seq _ _ _ _).1 ht
  unfold Re.run at hv
  split at hv
  · rename_i hc
    rcases List.mem_singleton.1 hv with rfl
    obtain ⟨c, h1, h2, _⟩ := (mem_chr _ _ _).1 hw
    dsimp only at h2 hc
    obtain ⟨d, q, hd, hdc⟩ := cellBefore_head _ hc
    have hx : x = q.reverse ++ [d] := by
      have := congrArg List.reverse hd
      simpa using this
    have hi : [d, c] <:+: s := ⟨q.reverse, w.rest, by rw [e, h2, hx]; simp⟩
    simp only [Bool.or_eq_true, decide_eq_true_eq] at h1
    rcases h1 with rfl | rfl
    · rcases hdc with rfl | rfl | rfl
      · exact hb "\n|" (by simp [barMarks]) hi
      · exact hb " |" (by simp [barMarks]) hi
      · exact hb "\t|" (by simp [barMarks]) hi
    · rcases hdc with rfl | rfl | rfl
      · exact hm "\n!" (by simp [tableMarks]) hi
      · exact hm " !" (by simp [tableMarks]) hi
      · exact hm "\t!" (by simp [tableMarks]) hi
  · simp at hv

theorem tablePass_id2 (k : Cls) (s : Str) (h : Quiet2 s) : tablePass k s = s := by
  have e1 : ¬ cs "!!" <:+: s := h.marks "!!" (by simp [tableMarks])
  have hbb : ¬ cs "||" <:+: s := h.bars "||" (by simp [barMarks])
  have e12 : sub (p12 k) (const (cs "\n")) s = s := by
    apply sub_needs (p12_needs k)
    intro w hw
    simp only [List.mem_cons, List.not_mem_nil, or_false] at hw
    rcases hw with rfl | rfl | rfl
    · exact fun hi => h.brace (hi.subset (by simp [cs]))
    · exact h.bars "|-" (by simp [barMarks])
    · exact h.bars "|}" (by simp [barMarks])
  have e17 : sub (p17 k) (const (cs "\n")) s = s := by
    apply sub_needs (p17_needs k)
    intro w hw
    obtain ⟨v, hv, rfl⟩ := List.mem_map.1 hw
    exact h.marks v hv
  unfold tablePass
  simp only
  rw [replace_id _ _ s e1,
    replace_id (cs "|-||") _ s (fun hi => hbb (List.IsInfix.trans (⟨cs "|-", [], by decide⟩ : cs "||" <:+: cs "|-||") hi)), e12,
    replace_id (cs "|||") _ s (fun hi => hbb (List.IsInfix.trans (⟨cs "|", [], by decide⟩ : cs "||" <:+: cs "|||") hi)),
    replace_id (cs "||") _ s hbb, p13_id2 s h.bars h.marks, e17, replace_id _ _ s h.empty]

/-- what is asked of what stands in brackets -/
structure Item.Fine (e : Item) : Prop where
  inner : ∀ c ∈ cs "<[]{", c ∉ e.inner
  nonempty : e.inner ≠ []
  after : Simple e.after
  marks : ∀ w ∈ tableMarks, ¬ cs w <:+: e.inner
  url : ¬ cs "://" <:+: e.inner
  name : e.dbl = true → ∃ t r, e.inner = t ++ r ∧ (r = [] ∨ ∃ d, r = '|' :: d) ∧ ':' ∉ t ∧ ¬ cs "image" <+: t ∧ ¬ cs "Image" <+: t

theorem name_prefix {w t r : Str} (h : w <+: t ++ r) (hr : r = [] ∨ ∃ d, r = '|' :: d) (hw : '|' ∉ w) : w <+: t := by
  rcases hr with rfl | ⟨d, rfl⟩
  · simpa using h
  · exact prefix_sep hw h

section
variable (k : Cls) (hk : k.Ok) (before : Str) (l : List Item) (hb : Simple before) (hl : ∀ e ∈ l, e.Fine)
include hb hl

theorem fine_occ : '[' ∉ before ∧ ∀ e ∈ l, '[' ∉ e.inner ∧ '[' ∉ e.after :=
  ⟨hb.not_mem '[' (by decide), fun e he => ⟨(hl e he).inner '[' (by decide), (hl e he).after.not_mem '[' (by decide)⟩⟩

/-- no name of a special page behind two brackets -/
theorem page_name (w : Str) (hw : ']' ∉ w ∧ '|' ∉ w) (hbad : ':' ∈ w ∨ w = cs "image" ∨ w = cs "Image") (x z : Str) :
    x ++ '[' :: '[' :: (w ++ z) ≠ pageOf before l := by
  intro e
  obtain ⟨hb1, hl1⟩ := fine_occ before l hb hl
  obtain ⟨i, hi, z', hd, h2⟩ := occ2 l before hb1 hl1 x _ e
  have hp : w <+: i.inner := prefix_sep hw.1 ⟨z, h2⟩
  obtain ⟨t, r, h3, h4, h5, h6, h7⟩ := (hl i hi).name hd
  rw [h3] at hp
  have hp := name_prefix hp h4 hw.2
  rcases hbad with h | rfl | rfl
  · exact h5 (hp.subset h)
  · exact h6 hp
  · exact h7 hp

include hk in
theorem page_p2 : sub (p2 k) (const []) (pageOf before l) = pageOf before l := by
  apply sub_none
  intro x y e _
  rw [List.eq_nil_iff_forall_not_mem]
  intro v hv
  obtain ⟨c1, c2, u, z, h1, h2, h3, h4⟩ := p2_mem k _ _ hv
  dsimp only at h1
  have hno : ∀ c, c = ']' ∨ c = '|' → c ∉ c1 :: c2 :: (u ++ [':']) := by
    intro c hc
    have hmem : c ∈ cs "[]|:" := by rcases hc with rfl | rfl <;> decide
    have hw : k.word c = false := hk c (by rcases hc with rfl | rfl <;> decide)
    simp only [List.mem_cons, List.mem_append, List.not_mem_nil, or_false, not_or]
    refine ⟨fun h => lower_ne c1 c h2 hmem h.symm, fun h => lower_ne c2 c h3 hmem h.symm, ?_, ?_⟩
    · intro h
      rcases h4 c h with h | h
      · rw [hw] at h; cases h
      · rcases hc with rfl | rfl <;> exact absurd h (by decide)
    · rcases hc with rfl | rfl <;> decide
  refine page_name before l hb hl (c1 :: c2 :: (u ++ [':'])) ⟨hno _ (Or.inl rfl), hno _ (Or.inr rfl)⟩ (Or.inl (by simp)) (x ++ ['\n']) z ?_
  rw [e, h1]
  simp [cs]

theorem page_p14 : sub p14 (const []) (pageOf before l) = pageOf before l := by
  apply sub_needs (needs_left (needs_lit (cs "[[Category:") _ (by simp)) _ : Needs p14 [cs "[[Category:"])
  intro w hw hi
  rcases List.mem_singleton.1 hw with rfl
  obtain ⟨x, z, e⟩ := hi
  refine page_name before l hb hl (cs "Category:") ⟨by decide, by decide⟩ (Or.inl (by decide)) x z ?_
  rw [← e]
  simp [cs]

theorem page_file : removeFile (pageOf before l) = pageOf before l := by
  have : finditer p15 (pageOf before l) = [] := by
    apply find_none
    intro x y e _
    rw [List.eq_nil_iff_forall_not_mem]
    intro v hv
    obtain ⟨v1, h1, hv⟩ := (mem_seq _ _ _ _).1 hv
    obtain ⟨v2, h2, _⟩ := (mem_seq _ _ _ _).1 hv
    have e1 := ((mem_lit _ _ _).1 h1).1
    dsimp only at e1
    rcases (mem_alt _ _ _ _).1 h2 with h2 | h2
    · obtain ⟨v3, h3, h4⟩ := (mem_seq _ _ _ _).1 h2
      obtain ⟨c, e2, e3, _⟩ := (mem_chr _ _ _).1 h3
      have e4 := ((mem_lit _ _ _).1 h4).1
      simp only [Bool.or_eq_true, decide_eq_true_eq] at e2
      refine page_name before l hb hl (c :: cs "ile:") ?_ (Or.inl (by simp [cs])) x v2.rest ?_
      · rcases e2 with rfl | rfl <;> decide
      · rw [e, e1, e3, e4]; simp [cs]
    · obtain ⟨v3, h3, h4⟩ := (mem_seq _ _ _ _).1 h2
      obtain ⟨c, e2, e3, _⟩ := (mem_chr _ _ _).1 h3
      have e4 := ((mem_lit _ _ _).1 h4).1
      simp only [Bool.or_eq_true, decide_eq_true_eq] at e2
      refine page_name before l hb hl (c :: cs "mage") ?_ (Or.inr ?_) x v2.rest ?_
      · rcases e2 with rfl | rfl <;> decide
      · rcases e2 with rfl | rfl
        · left; decide
        · right; decide
      · rw [e, e1, e3, e4]; simp [cs]
  unfold removeFile
  rw [this]
  rfl

include hk in
theorem page_p5 (repl : St → Str) : sub (p5 k) repl (pageOf before l) = pageOf before l := by
  obtain ⟨hb1, hl1⟩ := fine_occ before l hb hl
  apply sub_none
  intro x y e _
  rw [List.eq_nil_iff_forall_not_mem]
  intro v hv
  obtain ⟨w, z, h1, h2, h3⟩ := p5_mem k _ _ hv
  dsimp only at h1
  rw [h1] at e
  obtain ⟨i, hi, z', ⟨_, h4⟩ | h4⟩ := occ l before hb1 hl1 x _ e.symm
  · cases w with
    | nil => exact h2 rfl
    | cons c w =>
      rw [List.cons_append] at h4
      injection h4 with e3 _
      have := h3 c (by simp)
      rw [e3, hk '[' (by decide)] at this
      cases this
  · have hp : w ++ cs "://" <+: i.inner := by
      apply prefix_sep (c := ']') (y := z')
      · simp only [List.mem_append, not_or]
        refine ⟨fun hm => ?_, by decide⟩
        have := h3 _ hm
        rw [hk ']' (by decide)] at this
        cases this
      · exact ⟨z, by rw [← h4]; simp⟩
    exact (hl i hi).url (List.IsInfix.trans (List.suffix_append w (cs "://")).isInfix hp.isInfix)

theorem page_no (c : Char) (hc : c = '<' ∨ c = '{') : c ∉ pageOf before l := by
  apply page_mem
  · rcases hc with rfl | rfl <;> decide
  · rcases hc with rfl | rfl <;> decide
  · exact hb.not_mem c (by rcases hc with rfl | rfl <;> decide)
  · intro e he
    exact ⟨(hl e he).inner c (by rcases hc with rfl | rfl <;> decide), (hl e he).after.not_mem c (by rcases hc with rfl | rfl <;> decide)⟩

/-- The page is not changed where tables are removed. -/
theorem page_quiet (hbar : ∀ e ∈ l, ∀ w ∈ barMarks, ¬ cs w <:+: e.inner) : Quiet2 (pageOf before l) := by
  obtain ⟨hb1, hl1⟩ := fine_occ before l hb hl
  refine ⟨page_no before l hb hl '{' (Or.inr rfl), ?_, ?_, ?_⟩
  · intro w hw hi
    rcases page_infix (cs w) (marks_no w hw '[' (by simp)) (marks_no w hw ']' (by simp)) l before hi with h | ⟨e, he, h | h⟩
    · exact hb.marks w hw h
    · exact (hl e he).marks w hw h
    · exact (hl e he).after.marks w hw h
  · intro w hw hi
    have hno : '[' ∉ cs w ∧ ']' ∉ cs w ∧ '|' ∈ cs w := by
      clear hi
      simp only [barMarks, List.mem_cons, List.not_mem_nil, or_false] at hw
      rcases hw with rfl | rfl | rfl | rfl | rfl | rfl <;> decide
    rcases page_infix (cs w) hno.1 hno.2.1 l before hi with h | ⟨e, he, h | h⟩
    · exact hb.not_mem '|' (by decide) (h.subset hno.2.2)
    · exact hbar e he w hw h
    · exact (hl e he).after.not_mem '|' (by decide) (h.subset hno.2.2)
  · rintro ⟨x, y, e⟩
    obtain ⟨i, hi, z, ⟨_, h⟩ | h⟩ := occ l before hb1 hl1 x (']' :: y) (by rw [← e]; simp [cs])
    · injection h with h _
      exact absurd h (by decide)
    · have h1 := (hl i hi).inner ']' (by decide)
      have h2 := (hl i hi).nonempty
      cases hc : i.inner with
      | nil => exact h2 hc
      | cons a t =>
        rw [hc] at h h1
        injection h with h3 _
        exact h1 (by rw [h3]; simp)

end

/-! ### simplifying links -/

/-- what simplifying a link leaves -/
theorem p6_head (pre t d post : Str) (ht : ∀ c ∈ cs "[]|", c ∉ t ∧ c ∉ d) :
    ∃ v, (p6.run ⟨pre, '[' :: (t ++ '|' :: (d ++ ']' :: post)), []⟩).head? = some v ∧
      v.rest = post ∧ v.pre = ('[' :: (t ++ '|' :: (d ++ [']']))).reverse ++ pre ∧ v.group 2 = d := by
  have nb' : ∀ s : Str, '[' ∉ s → ']' ∉ s → ∀ c ∈ s, notBr c = true := by
    intro s h1 h2 c hc
    have g1 : c ≠ '[' := fun e => h1 (e ▸ hc)
    have g2 : c ≠ ']' := fun e => h2 (e ▸ hc)
    simp [notBr, g1, g2]
  apply head_of_all
  · intro h
    have : (⟨']' :: (d.reverse ++ '|' :: (t.reverse ++ '[' :: pre)), post, [(2, d)]⟩ : St) ∈ p6.run ⟨pre, '[' :: (t ++ '|' :: (d ++ ']' :: post)), []⟩ := by
      refine (mem_seq _ _ _ _).2 ⟨⟨'[' :: pre, t ++ '|' :: (d ++ ']' :: post), []⟩, (mem_chr _ _ _).2 ⟨'[', by simp, by simp, rfl, rfl⟩, ?_⟩
      refine (mem_seq _ _ _ _).2 ⟨⟨t.reverse ++ '[' :: pre, '|' :: (d ++ ']' :: post), []⟩,
        (mem_star_chr _ _ _ _).2 ⟨t, nb' t (ht '[' (by decide)).1 (ht ']' (by decide)).1, rfl, rfl, rfl⟩, ?_⟩
      refine (mem_seq _ _ _ _).2 ⟨⟨'|' :: (t.reverse ++ '[' :: pre), d ++ ']' :: post, []⟩, (mem_chr _ _ _).2 ⟨'|', by simp, rfl, rfl, rfl⟩, ?_⟩
      refine (mem_seq _ _ _ _).2 ⟨⟨d.reverse ++ '|' :: (t.reverse ++ '[' :: pre), ']' :: post, [(2, d)]⟩, ?_,
        (mem_chr _ _ _).2 ⟨']', by simp, rfl, rfl, rfl⟩⟩
      refine (mem_cap _ _ _ _).2 ⟨⟨d.reverse ++ '|' :: (t.reverse ++ '[' :: pre), ']' :: post, []⟩,
        (mem_star_chr _ _ _ _).2 ⟨d, nb' d (ht '[' (by decide)).2 (ht ']' (by decide)).2, rfl, rfl, rfl⟩, ?_⟩
      simp
    rw [h] at this
    simp at this
  · intro v hv
    obtain ⟨u0, hu0⟩ := run_eats _ _ _ hv
    obtain ⟨v1, g1, hv⟩ := (mem_seq _ _ _ _).1 hv
    obtain ⟨v2, g2, hv⟩ := (mem_seq _ _ _ _).1 hv
    obtain ⟨v3, g3, hv⟩ := (mem_seq _ _ _ _).1 hv
    obtain ⟨v4, g4, g5⟩ := (mem_seq _ _ _ _).1 hv
    obtain ⟨v5, g6, rfl⟩ := (mem_cap _ _ _ _).1 g4
    obtain ⟨c, f1, f2, f2b, f2c⟩ := (mem_chr _ _ _).1 g1
    obtain ⟨u, f3, f4, f4b, f4c⟩ := (mem_star_chr _ _ _ _).1 g2
    obtain ⟨c', f5, f6, f6b, f6c⟩ := (mem_chr _ _ _).1 g3
    obtain ⟨w, f7, f8, f8b, f8c⟩ := (mem_star_chr _ _ _ _).1 g6
    obtain ⟨c'', f9, f10, f10b, f10c⟩ := (mem_chr _ _ _).1 g5
    have i1 : c = '[' := by simpa using f1
    have i2 : c' = '|' := by simpa using f5
    have i3 : c'' = ']' := by simpa using f9
    subst i1 i2 i3
    dsimp only at f2 f10 f10c
    have j1 : u ++ '|' :: (w ++ ']' :: v.rest) = t ++ '|' :: (d ++ ']' :: post) := by
      injection f2 with _ f2'
      rw [f2', f4, f6, f8, f10]
    have nb : ∀ (s : Str), (∀ c ∈ s, notBr c = true) → ']' ∉ s := by
      intro s hs hm
      exact absurd (hs _ hm) (by decide)
    have j2 : (u ++ '|' :: w) = (t ++ '|' :: d) ∧ v.rest = post := by
      apply split_first (c := ']')
      · simp only [List.mem_append, List.mem_cons, not_or]
        exact ⟨(ht ']' (by decide)).1, by decide, (ht ']' (by decide)).2⟩
      · simp only [List.mem_append, List.mem_cons, not_or]
        exact ⟨nb u f3, by decide, nb w f7⟩
      · simpa using j1
    have j3 := split_unique (ht '|' (by decide)).1 (ht '|' (by decide)).2 j2.1
    refine ⟨j2.2, ?_, ?_⟩
    · have h0 := hu0.rest
      dsimp only at h0
      rw [j2.2] at h0
      have h0' : '[' :: (t ++ '|' :: (d ++ [']'])) ++ post = u0 ++ post := by rw [← h0]; simp
      rw [hu0.pre, List.append_cancel_right h0']
    · unfold St.group
      rw [f10c]
      simp only [List.lookup_cons, beq_self_eq_true, Option.getD_some]
      rw [f8, List.length_append, Nat.add_sub_cancel, List.take_left]
      exact j3.2

/-- what a match of a link begins with -/
theorem p6_mem (s v : St) (hv : v ∈ p6.run s) : ∃ u z, s.rest = '[' :: (u ++ '|' :: z) ∧ '[' ∉ u ∧ ']' ∉ u := by
  obtain ⟨v1, g1, hv⟩ := (mem_seq _ _ _ _).1 hv
  obtain ⟨v2, g2, hv⟩ := (mem_seq _ _ _ _).1 hv
  obtain ⟨v3, g3, _⟩ := (mem_seq _ _ _ _).1 hv
  obtain ⟨c, f1, f2, _⟩ := (mem_chr _ _ _).1 g1
  obtain ⟨u, f3, f4, _⟩ := (mem_star_chr _ _ _ _).1 g2
  obtain ⟨c', f5, f6, _⟩ := (mem_chr _ _ _).1 g3
  have i1 : c = '[' := by simpa using f1
  have i2 : c' = '|' := by simpa using f5
  subst i1 i2
  exact ⟨u, v3.rest, by rw [f2, f4, f6], fun h => absurd (f3 _ h) (by decide), fun h => absurd (f3 _ h) (by decide)⟩

/-- a link as it is written -/
def full (p : Link × Str) : Item := ⟨true, match p.1.label with | none => p.1.target | some d => p.1.target ++ '|' :: d, p.2⟩
/-- a link after it was simplified -/
def half (p : Link × Str) : Item := match p.1.label with | none => ⟨true, p.1.target, p.2⟩ | some d => ⟨false, d, p.2⟩

theorem p6_not_before (pre a b : Str) (ha : '[' ∉ a) (x y : Str) (e : a = x ++ y) (hy : y ≠ []) : p6.run ⟨pre, y ++ b, []⟩ = [] := by
  apply starts_nil p6_starts
  intro c r h
  cases y with
  | nil => exact absurd rfl hy
  | cons d y =>
    rw [List.cons_append] at h
    injection h with h1 _
    simp only [decide_eq_false_iff_not]
    rintro rfl
    exact ha (by rw [e, h1]; simp)

theorem page_p6 (doc : List (Link × Str)) (hd : ∀ p ∈ doc, p.1.Ok ∧ Simple p.2) (before : Str) (hb : '[' ∉ before) (n : Nat) (pre : Str)
    (hn : (pageOf before (doc.map full)).length ≤ n) :
    subN p6 (fun t => t.group 2) n pre (pageOf before (doc.map full)) = pageOf before (doc.map half) := by
  induction doc generalizing before n pre with
  | nil =>
    have e : pageOf before ([].map full) = before := by simp [pageOf]
    have e2 : pageOf before (([] : List (Link × Str)).map half) = before := by simp [pageOf]
    rw [e2]
    rw [e] at hn ⊢
    obtain ⟨m, rfl⟩ : ∃ m, n = before.length + m := ⟨n - before.length, by omega⟩
    have := subN_prefix p6 (fun t => t.group 2) before [] m pre (fun x y e hy => p6_not_before _ before [] hb x y e hy)
    rw [List.append_nil] at this
    rw [this]
    cases m <;> simp [subN]
  | cons p doc ih =>
    obtain ⟨⟨t, lab⟩, a⟩ := p
    obtain ⟨hok, ha⟩ := hd _ List.mem_cons_self
    have hd' : ∀ p ∈ doc, p.1.Ok ∧ Simple p.2 := fun p hp => hd p (List.mem_cons_of_mem _ hp)
    dsimp only at ha
    have ht := hok.target
    dsimp only at ht
    have haB := ha.not_mem '[' (by decide)
    cases lab with
    | none =>
      have ef : full (⟨t, none⟩, a) = ⟨true, t, a⟩ := rfl
      have eh : half (⟨t, none⟩, a) = ⟨true, t, a⟩ := rfl
      rw [List.map_cons, List.map_cons, ef, eh, pageOf_dbl, pageOf_dbl]
      rw [List.map_cons, ef, pageOf_dbl] at hn
      generalize hR : pageOf (t ++ ']' :: ']' :: a) (doc.map full) = R at hn ⊢
      have hlen : (before ++ ['[', '[']).length + R.length ≤ n := by
        simp only [List.length_append, List.length_cons, List.length_nil] at hn ⊢
        omega
      obtain ⟨m, rfl⟩ : ∃ m, n = (before ++ ['[', '[']).length + m := ⟨n - (before ++ ['[', '[']).length, by omega⟩
      have hR2 : R = t ++ ']' :: (']' :: a ++ (doc.map full).flatMap Item.text) := by rw [← hR]; simp [pageOf]
      have := subN_prefix p6 (fun t => t.group 2) (before ++ ['[', '[']) R m pre ?_
      · rw [show before ++ '[' :: '[' :: R = (before ++ ['[', '[']) ++ R by simp, this, ← hR,
          ih hd' (t ++ ']' :: ']' :: a) (by simp [ht.not_mem '[' (by decide), haB]) m _ (by rw [hR]; omega)]
        simp
      · intro x y e hy
        rw [List.eq_nil_iff_forall_not_mem]
        intro v hv
        obtain ⟨u, z, h1, h2, h3⟩ := p6_mem _ _ hv
        dsimp only at h1
        have h4 : x ++ '[' :: (u ++ '|' :: z) = before ++ '[' :: ('[' :: R) := by
          rw [← h1, ← List.append_assoc, ← e]; simp
        rcases split_next hb h4 with ⟨_, h5⟩ | ⟨x', h5⟩
        · cases u with
          | nil => injection h5 with h6 _; exact absurd h6 (by decide)
          | cons c u => injection h5 with h6 _; exact h2 (by rw [h6]; simp)
        · rcases split_next (p := []) (by simp) h5 with ⟨_, h6⟩ | ⟨x'', h6⟩
          · rw [hR2] at h6
            have hp : u ++ ['|'] <+: t := prefix_sep (c := ']') (by simp [h3]) ⟨z, by rw [← h6]; simp⟩
            exact ht.not_mem '|' (by decide) (hp.subset (by simp))
          · -- the match would begin behind the brackets
            have hl1 := congrArg List.length h4
            have hl2 := congrArg List.length h5
            have hl3 := congrArg List.length h6
            have hl4 := congrArg List.length e
            have hy1 : 0 < y.length := List.length_pos_iff.2 hy
            simp only [List.length_append, List.length_cons, List.length_nil] at hl1 hl2 hl3 hl4
            omega
    | some d =>
      obtain ⟨hds, hdn, hdu⟩ := hok.label d rfl
      have ef : full (⟨t, some d⟩, a) = ⟨true, t ++ '|' :: d, a⟩ := rfl
      have eh : half (⟨t, some d⟩, a) = ⟨false, d, a⟩ := rfl
      rw [List.map_cons, List.map_cons, ef, eh, pageOf_dbl, pageOf_one]
      rw [List.map_cons, ef, pageOf_dbl] at hn
      generalize hR : pageOf (']' :: a) (doc.map full) = R
      have hR2 : pageOf (t ++ '|' :: d ++ ']' :: ']' :: a) (doc.map full) = t ++ '|' :: (d ++ ']' :: R) := by rw [← hR]; simp [pageOf]
      rw [hR2] at hn ⊢
      have hlen : (before ++ ['[']).length + (t.length + d.length + 3 + R.length) ≤ n := by
        simp only [List.length_append, List.length_cons, List.length_nil] at hn ⊢
        omega
      obtain ⟨m, rfl⟩ : ∃ m, n = (before ++ ['[']).length + (m + 1) := ⟨n - (before ++ ['[']).length - 1, by omega⟩
      have := subN_prefix p6 (fun t => t.group 2) (before ++ ['[']) ('[' :: (t ++ '|' :: (d ++ ']' :: R))) (m + 1) pre ?_
      · rw [show before ++ '[' :: '[' :: (t ++ '|' :: (d ++ ']' :: R)) = (before ++ ['[']) ++ ('[' :: (t ++ '|' :: (d ++ ']' :: R))) by simp, this]
        obtain ⟨v, g1, g2, g3, g4⟩ := p6_head ((before ++ ['[']).reverse ++ pre) t d R (by
          intro c hc
          have hc' : c ∈ cs "<[]{|" := by
            have : c = '[' ∨ c = ']' ∨ c = '|' := by simpa [cs] using hc
            rcases this with rfl | rfl | rfl <;> decide
          exact ⟨ht.not_mem c hc', hds.not_mem c hc'⟩)
        rw [subN, g1]
        dsimp only
        rw [g2, g4, if_pos (by simp only [List.length_append, List.length_cons]; omega), ← hR,
          ih hd' (']' :: a) (by simp [haB]) m _ (by rw [hR]; simp only [List.length_append, List.length_cons, List.length_nil] at hlen; omega)]
        simp [pageOf]
      · intro x y e hy
        rw [List.eq_nil_iff_forall_not_mem]
        intro v hv
        obtain ⟨u, z, h1, h2, h3⟩ := p6_mem _ _ hv
        dsimp only at h1
        have h4 : x ++ '[' :: (u ++ '|' :: z) = before ++ '[' :: ('[' :: (t ++ '|' :: (d ++ ']' :: R))) := by
          rw [← h1, ← List.append_assoc, ← e]; simp
        rcases split_next hb h4 with ⟨_, h5⟩ | ⟨x', h5⟩
        · cases u with
          | nil => injection h5 with h6 _; exact absurd h6 (by decide)
          | cons c u => injection h5 with h6 _; exact h2 (by rw [h6]; simp)
        · have hl1 := congrArg List.length h4
          have hl2 := congrArg List.length h5
          have hl4 := congrArg List.length e
          have hy1 : 0 < y.length := List.length_pos_iff.2 hy
          simp only [List.length_append, List.length_cons, List.length_nil] at hl1 hl2 hl4
          omega

/-! ## The theorems -/

theorem source_full (before : Str) (doc : List (Link × Str)) : source before doc = pageOf before (doc.map full) := by
  unfold source pageOf
  rw [List.flatMap_map]
  congr 2
  funext p
  obtain ⟨⟨t, lab⟩, a⟩ := p
  cases lab <;> simp [Link.source, full, Item.text, cs]

theorem full_fine (p : Link × Str) (h : p.1.Ok) (ha : Simple p.2) : (full p).Fine := by
  obtain ⟨⟨t, lab⟩, a⟩ := p
  have ht := h.target
  have hin : ∀ c ∈ cs "<[]{", c ∈ cs "<[]{|" ∧ c ≠ '|' := by
    intro c hc
    have : c = '<' ∨ c = '[' ∨ c = ']' ∨ c = '{' := by simpa [cs] using hc
    rcases this with rfl | rfl | rfl | rfl <;> decide
  cases lab with
  | none =>
    refine ⟨fun c hc => ht.not_mem c (hin c hc).1, h.nonempty, ha, ht.marks, ?_, fun _ => ⟨t, [], by simp [full], Or.inl rfl, h.colon, h.image.1, h.image.2⟩⟩
    exact fun hi => h.colon (hi.subset (by simp [cs]))
  | some d =>
    obtain ⟨hds, hdn, hdu⟩ := h.label d rfl
    refine ⟨?_, by simp [full], ha, ?_, ?_, fun _ => ⟨t, '|' :: d, rfl, Or.inr ⟨d, rfl⟩, h.colon, h.image.1, h.image.2⟩⟩
    · intro c hc
      simp only [full, List.mem_append, List.mem_cons, not_or]
      exact ⟨ht.not_mem c (hin c hc).1, (hin c hc).2, hds.not_mem c (hin c hc).1⟩
    · intro w hw hi
      rcases infix_sep (marks_no w hw '|' (by simp)) hi with hi | hi
      · exact ht.marks w hw hi
      · exact hds.marks w hw hi
    · intro hi
      rcases infix_sep (c := '|') (by decide) hi with hi | hi
      · exact h.colon (hi.subset (by simp [cs]))
      · exact hdu hi

theorem half_fine (p : Link × Str) (h : p.1.Ok) (ha : Simple p.2) : (half p).Fine ∧ '|' ∉ (half p).inner := by
  obtain ⟨⟨t, lab⟩, a⟩ := p
  cases lab with
  | none => exact ⟨full_fine (⟨t, none⟩, a) h ha, h.target.not_mem '|' (by decide)⟩
  | some d =>
    obtain ⟨hds, hdn, hdu⟩ := h.label d rfl
    refine ⟨⟨?_, hdn, ha, hds.marks, hdu, fun hf => ?_⟩, hds.not_mem '|' (by decide)⟩
    · intro c hc
      apply hds.not_mem
      have : c = '<' ∨ c = '[' ∨ c = ']' ∨ c = '{' := by simpa [cs] using hc
      rcases this with rfl | rfl | rfl | rfl <;> decide
    · simp [half] at hf

theorem page_half (before : Str) (doc : List (Link × Str)) : pageOf before (doc.map half) = before ++ doc.flatMap fun p =>
    (if p.1.label.isSome then cs "[" ++ p.1.shown ++ cs "]" else p.1.source) ++ p.2 := by
  unfold pageOf
  rw [List.flatMap_map]
  congr 2
  funext p
  obtain ⟨⟨t, lab⟩, a⟩ := p
  cases lab <;> simp [half, Item.text, Link.source, Link.shown, cs]

theorem rounds_two (k : Cls) (b : Bool) (s s' : Str) (h1 : round k b s = s') (h2 : round k b s' = s') : rounds k b 3 0 s = s' := by
  unfold rounds
  simp only [h1]
  split
  · rfl
  · unfold rounds
    simp only [h2]
    simp

theorem page_promote (before : Str) (doc : List (Link × Str)) (hb : Simple before) (hd : ∀ p ∈ doc, p.1.Ok ∧ Simple p.2) :
    (pageOf before (doc.map half)).filter (fun x => decide (x ≠ '[' ∧ x ≠ ']')) = before ++ doc.flatMap fun p => p.1.shown ++ p.2 := by
  unfold pageOf
  rw [List.filter_append, hb.promote]
  congr 1
  induction doc with
  | nil => rfl
  | cons p doc ih =>
    rw [List.map_cons, List.flatMap_cons, List.filter_append, ih (fun q hq => hd q (List.mem_cons_of_mem _ hq)), List.flatMap_cons]
    congr 1
    obtain ⟨⟨t, lab⟩, a⟩ := p
    obtain ⟨hok, ha⟩ := hd _ List.mem_cons_self
    dsimp only at ha
    cases lab with
    | none =>
      have ht : Simple t := hok.target
      simp only [half, Item.text, if_true, Link.shown, Option.getD_none]
      rw [List.filter_cons_of_neg (by decide), List.filter_cons_of_neg (by decide), List.filter_append, List.filter_cons_of_neg (by decide),
        List.filter_cons_of_neg (by decide), ht.promote, ha.promote]
    | some d =>
      have hds := (hok.label d rfl).1
      simp only [half, Item.text, Bool.false_eq_true, if_false, Link.shown, Option.getD_some]
      rw [List.filter_cons_of_neg (by decide), List.filter_append, List.filter_cons_of_neg (by decide), hds.promote, ha.promote]

/-- **C140.** The text of a page with any number of links is the page with each link replaced by what the reader sees; if brackets
shall be kept, a link without a label is left as it is, and of one with a label the label in single brackets. -/
theorem C140_text (k : Cls) (hk : k.Ok) (dec : Str → Str) (raw before : Str) (doc : List (Link × Str))
    (hdec : dec raw = source before doc) (hb : Simple before) (hd : ∀ p ∈ doc, p.1.Ok ∧ Simple p.2) :
    filterWiki k dec true true raw = before ++ (doc.flatMap fun p => p.1.shown ++ p.2) ∧
    filterWiki k dec false true raw = before ++ doc.flatMap fun p =>
      (if p.1.label.isSome then cs "[" ++ p.1.shown ++ cs "]" else p.1.source) ++ p.2 := by
  have hf : ∀ e ∈ doc.map full, e.Fine := by
    intro e he
    obtain ⟨p, hp, rfl⟩ := List.mem_map.1 he
    exact full_fine p (hd p hp).1 (hd p hp).2
  have hh : ∀ e ∈ doc.map half, e.Fine ∧ '|' ∉ e.inner := by
    intro e he
    obtain ⟨p, hp, rfl⟩ := List.mem_map.1 he
    exact half_fine p (hd p hp).1 (hd p hp).2
  have hh1 := fun e he => (hh e he).1
  have hno : '|' ∉ pageOf before (doc.map half) :=
    page_mem '|' (by decide) (by decide) _ _ (hb.not_mem '|' (by decide)) (fun e he => ⟨(hh e he).2, (hh e he).1.after.not_mem '|' (by decide)⟩)
  have hq : Quiet2 (pageOf before (doc.map half)) := by
    apply page_quiet before _ hb hh1
    intro e he w hw hi
    have : '|' ∈ cs w := by
      clear hi
      simp only [barMarks, List.mem_cons, List.not_mem_nil, or_false] at hw
      rcases hw with rfl | rfl | rfl | rfl | rfl | rfl <;> decide
    exact (hh e he).2 (hi.subset this)
  have hr1 : round k true (pageOf before (doc.map full)) = pageOf before (doc.map half) := by
    unfold Verif.Wiki.round linkPass
    dsimp only
    rw [tagPass_id _ (page_no before _ hb hf '<' (Or.inl rfl)), page_p14 before _ hb hf, page_p5 k hk before _ hb hf, if_pos rfl]
    unfold sub
    rw [page_p6 doc hd before (hb.not_mem '[' (by decide)) _ _ (Nat.le_refl _), tablePass_id2 k _ hq]
  have hr2 : round k true (pageOf before (doc.map half)) = pageOf before (doc.map half) := by
    unfold Verif.Wiki.round linkPass
    dsimp only
    rw [tagPass_id _ (page_no before _ hb hh1 '<' (Or.inl rfl)), page_p14 before _ hb hh1, page_p5 k hk before _ hb hh1, if_pos rfl, p6_id _ _ hno,
      tablePass_id2 k _ hq]
  have hrs := rounds_two k true _ _ hr1 hr2
  have key : ∀ p, filterWiki k dec p true raw =
      if p then (pageOf before (doc.map half)).filter (fun x => decide (x ≠ '[' ∧ x ≠ ']')) else pageOf before (doc.map half) := by
    intro p
    unfold filterWiki removeMarkup
    simp only
    rw [hdec, source_full, page_p2 k hk before _ hb hf, noOpen_of (page_no before _ hb hf '{' (Or.inr rfl)), page_file before _ hb hf, hrs, promote_eq]
  exact ⟨(key true).trans (page_promote before doc hb hd), (key false).trans (page_half before doc)⟩

theorem full_bars (p : Link × Str) (h : p.1.Ok) (ht : p.1.Tidy) : ∀ w ∈ barMarks, ¬ cs w <:+: (full p).inner := by
  obtain ⟨⟨t, lab⟩, a⟩ := p
  have hbar := h.target.not_mem '|' (by decide)
  dsimp only at hbar
  intro w hw
  cases lab with
  | none =>
    intro hi
    have : '|' ∈ cs w := by
      clear hi
      simp only [barMarks, List.mem_cons, List.not_mem_nil, or_false] at hw
      rcases hw with rfl | rfl | rfl | rfl | rfl | rfl <;> decide
    exact hbar (hi.subset this)
  | some d =>
    have hds := (h.label d rfl).1.not_mem '|' (by decide)
    obtain ⟨h1, h2, h3⟩ := ht.label d rfl
    rintro ⟨x, y, e⟩
    have key1 : ∀ c, cs w = ['|', c] → c = '|' ∨ c = '-' ∨ c = '}' → False := by
      intro c hc hcc
      have e1 : x ++ '|' :: (c :: y) = t ++ '|' :: d := by rw [← (show x ++ cs w ++ y = t ++ '|' :: d from e), hc]; simp
      obtain ⟨_, e2⟩ := split_unique hbar hds e1
      rcases hcc with rfl | rfl | rfl
      · exact hds (by rw [← e2]; simp)
      · exact (h2 '-' (by rw [← e2]; rfl)).1 rfl
      · exact (h2 '}' (by rw [← e2]; rfl)).2 rfl
    have key2 : ∀ c, cs w = [c, '|'] → c = ' ' ∨ c = '\n' ∨ c = '\t' → False := by
      intro c hc hcc
      have e1 : (x ++ [c]) ++ '|' :: y = t ++ '|' :: d := by rw [← (show x ++ cs w ++ y = t ++ '|' :: d from e), hc]; simp
      obtain ⟨e2, _⟩ := split_unique hbar hds e1
      have hl : t.getLast? = some c := by rw [← e2]; simp
      rcases hcc with rfl | rfl | rfl
      · exact (h3 _ hl).1 rfl
      · exact ht.line (by rw [← (show x ++ ['\n'] = t from e2)]; simp)
      · exact (h3 _ hl).2 rfl
    simp only [barMarks, List.mem_cons, List.not_mem_nil, or_false] at hw
    rcases hw with rfl | rfl | rfl | rfl | rfl | rfl
    · exact key1 '|' (by decide) (by simp)
    · exact key1 '-' (by decide) (by simp)
    · exact key1 '}' (by decide) (by simp)
    · exact key2 ' ' (by decide) (by simp)
    · exact key2 '\n' (by decide) (by simp)
    · exact key2 '\t' (by decide) (by simp)

/-- Without the simplification of links, such a page is not changed. -/
theorem C140_unchanged (k : Cls) (hk : k.Ok) (dec : Str → Str) (raw before : Str) (doc : List (Link × Str))
    (hdec : dec raw = source before doc) (hb : Simple before) (hd : ∀ p ∈ doc, p.1.Ok ∧ p.1.Tidy ∧ Simple p.2) :
    filterWiki k dec false false raw = source before doc := by
  have hf : ∀ e ∈ doc.map full, e.Fine := by
    intro e he
    obtain ⟨p, hp, rfl⟩ := List.mem_map.1 he
    exact full_fine p (hd p hp).1 (hd p hp).2.2
  have hq : Quiet2 (pageOf before (doc.map full)) := by
    apply page_quiet before _ hb hf
    intro e he
    obtain ⟨p, hp, rfl⟩ := List.mem_map.1 he
    exact full_bars p (hd p hp).1 (hd p hp).2.1
  have hr : round k false (pageOf before (doc.map full)) = pageOf before (doc.map full) := by
    unfold Verif.Wiki.round linkPass
    dsimp only
    rw [tagPass_id _ (page_no before _ hb hf '<' (Or.inl rfl)), page_p14 before _ hb hf, page_p5 k hk before _ hb hf, if_neg (by decide),
      tablePass_id2 k _ hq]
  unfold filterWiki removeMarkup
  simp only
  rw [hdec, source_full, page_p2 k hk before _ hb hf, noOpen_of (page_no before _ hb hf '{' (Or.inr rfl)), page_file before _ hb hf, if_neg (by decide)]
  unfold rounds
  simp only [hr]
  simp

/-- All links of a page are found, in order, with their targets and with what the reader sees. -/
theorem C140_links (k : Cls) (hk : k.Ok) (dec : Str → Str) (raw before : Str) (doc : List (Link × Str))
    (hdec : dec raw = source before doc) (hb : Simple before) (hd : ∀ p ∈ doc, p.1.Ok ∧ p.1.Tidy ∧ Simple p.2) :
    findLinks k dec raw = doc.map fun p => (p.1.target, p.1.shown) := by
  have h := WikiSeg.C125_links (filterWiki k dec false false) raw before
    (doc.map fun p => (match p.1.label with | none => [p.1.target] | some d => [p.1.target, d], p.2)) ?_ (hb.not_mem '[' (by decide)) ?_
  · unfold findLinks
    rw [h, List.map_map]
    apply List.map_congr_left
    intro p _
    obtain ⟨⟨t, lab⟩, a⟩ := p
    cases lab <;> simp [Link.shown]
  · rw [C140_unchanged k hk dec raw before doc hdec hb hd]
    unfold source
    rw [List.flatMap_map]
    congr 2
    funext p
    obtain ⟨⟨t, lab⟩, a⟩ := p
    cases lab <;> simp [Link.source, WikiSeg.linkText, joinWith, cs]
  · intro q hq
    obtain ⟨⟨⟨t, lab⟩, a⟩, hp, rfl⟩ := List.mem_map.1 hq
    obtain ⟨h1, h2, h3⟩ := hd _ hp
    have hs : ∀ s : Str, Simple s → '\n' ∉ s → '|' ∉ s ∧ '[' ∉ s ∧ ']' ∉ s ∧ '\n' ∉ s := fun s hs hn =>
      ⟨hs.not_mem '|' (by decide), hs.not_mem '[' (by decide), hs.not_mem ']' (by decide), hn⟩
    refine ⟨h3.not_mem '[' (by decide), ?_, ?_⟩
    · cases lab <;> simp
    · intro x hx
      cases lab with
      | none =>
        rcases List.mem_singleton.1 hx with rfl
        exact hs _ h1.target h2.line
      | some d =>
        simp only [List.mem_cons, List.not_mem_nil, or_false] at hx
        rcases hx with rfl | rfl
        · exact hs _ h1.target h2.line
        · exact hs _ (h1.label _ rfl).1 (h2.label _ rfl).1

/-- Findings: a link whose label begins with `-` is taken for a row of a table, and one whose target ends with two spaces for a
cell, so that neither is found, although both are simplified to their label in the text. -/
theorem C140_findings :
    findLinks exCls id (cs "x [[a|-b]] y\nz") = [] ∧ filterWiki exCls id true true (cs "x [[a|-b]] y\nz") = cs "x -b y\nz" ∧
    findLinks exCls id (cs "x [[a  |b]] y") = [] ∧ filterWiki exCls id true true (cs "x [[a  |b]] y") = cs "x b y" := by
  decide +kernel

example : findLinks exCls id (cs "See [[Lean]] and [[proof|a proof]].") = [(cs "Lean", cs "Lean"), (cs "proof", cs "a proof")] ∧
    filterWiki exCls id true true (cs "See [[Lean]] and [[proof|a proof]].") = cs "See Lean and a proof." := by decide +kernel

end Verif.Wiki
