import Verif.Wiki.MarkupModel
import Verif.Wiki.TemplateProps

/-!
# C139: what is left of a page of Wikipedia
-/

namespace Verif.Wiki
open Verif Text Regex

/-! ## Specification -/

/-- what the classes `\w` and `\d` must satisfy: punctuation of the markup is not in `\w` -/
def Cls.Ok (k : Cls) : Prop := ∀ c ∈ cs "[]|:<{", k.word c = false

/-- strings that are taken for the markup of a table -/
def tableMarks : List String :=
  ["!!", " !", "\n!", "\t!", "bgcolor", "colspan", "rowspan", "style=", "class=", "align=", "scope="]

/-- text without anything that looks like markup -/
structure Simple (s : Str) : Prop where
  chars : ∀ c ∈ s, c ∉ cs "<[]{|"
  marks : ∀ w ∈ tableMarks, ¬ cs w <:+: s

/-- a character that the program neither moves nor adds: all but the line break and the bar -/
def kept (c : Char) : Bool := c ≠ '\n' && c ≠ '|'

/-! ## Lists of characters -/

theorem split_unique {α} {c : α} {p q a b : List α} (hp : c ∉ p) (hq : c ∉ q) (h : a ++ c :: b = p ++ c :: q) : a = p ∧ b = q := by
  induction p generalizing a with
  | nil =>
    cases a with
    | nil => simpa using h
    | cons d a =>
      simp only [List.cons_append, List.nil_append, List.cons.injEq] at h
      exact absurd (h.2 ▸ (by simp : c ∈ a ++ c :: b)) hq
  | cons d p ih =>
    cases a with
    | nil =>
      simp only [List.nil_append, List.cons_append, List.cons.injEq] at h
      exact absurd (by simp [h.1]) hp
    | cons e a =>
      simp only [List.cons_append, List.cons.injEq] at h
      obtain ⟨h1, h2⟩ := ih (fun m => hp (by simp [m])) h.2
      exact ⟨by rw [h.1, h1], h2⟩

/-- the first occurrence of a character -/
theorem split_first {α} {c : α} {p q a b : List α} (hp : c ∉ p) (ha : c ∉ a) (h : a ++ c :: b = p ++ c :: q) : a = p ∧ b = q := by
  induction p generalizing a with
  | nil =>
    cases a with
    | nil => simpa using h
    | cons d a =>
      simp only [List.cons_append, List.nil_append, List.cons.injEq] at h
      exact absurd (by simp [h.1]) ha
  | cons d p ih =>
    cases a with
    | nil =>
      simp only [List.nil_append, List.cons_append, List.cons.injEq] at h
      exact absurd (by simp [h.1]) hp
    | cons e a =>
      simp only [List.cons_append, List.cons.injEq] at h
      obtain ⟨h1, h2⟩ := ih (fun m => hp (by simp [m])) (fun m => ha (by simp [m])) h.2
      exact ⟨by rw [h.1, h1], h2⟩

theorem prefix_sep {α} {c : α} {w x y : List α} (hw : c ∉ w) (h : w <+: x ++ c :: y) : w <+: x := by
  induction x generalizing w with
  | nil =>
    cases w with
    | nil => simp
    | cons d w =>
      rw [List.nil_append, List.cons_prefix_cons] at h
      exact absurd (by simp [h.1]) hw
  | cons e x ih =>
    cases w with
    | nil => simp
    | cons d w =>
      rw [List.cons_append, List.cons_prefix_cons] at h
      rw [List.cons_prefix_cons]
      exact ⟨h.1, ih (fun m => hw (by simp [m])) h.2⟩

theorem infix_sep {α} {c : α} {w x y : List α} (hw : c ∉ w) (h : w <:+: x ++ c :: y) : w <:+: x ∨ w <:+: y := by
  induction x with
  | nil =>
    rcases List.infix_cons_iff.1 h with h | h
    · cases w with
      | nil => simp
      | cons d w =>
        rw [List.cons_prefix_cons] at h
        exact absurd (by simp [h.1]) hw
    · exact Or.inr h
  | cons e x ih =>
    rw [List.cons_append] at h
    rcases List.infix_cons_iff.1 h with h | h
    · rw [← List.cons_append] at h
      exact Or.inl (prefix_sep hw h).isInfix
    · rcases ih h with h | h
      · exact Or.inl (List.infix_cons h)
      · exact Or.inr h

/-! ## Nothing to do -/

theorem lt_starts (r : Re) (w : Str) : Starts (.seq (lit ('<' :: w)) r) (fun x => decide (x = '<')) := starts_seq (starts_lit _ _) _

theorem p0_starts : Starts p0 (fun x => decide (x = '<')) := lt_starts _ _
theorem pElem_starts (n : Str) : Starts (pElem n) (fun x => decide (x = '<')) := lt_starts _ _
theorem p11_starts : Starts p11 (fun x => decide (x = '<')) := starts_seq (starts_chr _) _
theorem p5_starts (k : Cls) : Starts (p5 k) (fun x => decide (x = '[')) := starts_seq (starts_chr _) _
theorem p6_starts : Starts p6 (fun x => decide (x = '[')) := starts_seq (starts_chr _) _
theorem p14_starts : Starts p14 (fun x => decide (x = '[')) := starts_seq (starts_lit _ _) _

theorem tagPass_id (s : Str) (h : '<' ∉ s) : tagPass s = s := by
  have hs : ∀ c ∈ s, decide (c = '<') = false := by
    intro c hc
    simp only [decide_eq_false_iff_not]
    rintro rfl
    exact h hc
  unfold tagPass
  simp only [sub_starts p0_starts _ s hs, sub_starts (pElem_starts _) _ s hs, sub_starts p11_starts _ s hs]

theorem linkPass_id (k : Cls) (b : Bool) (s : Str) (h : '[' ∉ s) : linkPass k b s = s := by
  have hs : ∀ c ∈ s, decide (c = '[') = false := by
    intro c hc
    simp only [decide_eq_false_iff_not]
    rintro rfl
    exact h hc
  unfold linkPass
  simp only [sub_starts p14_starts _ s hs, sub_starts (p5_starts k) _ s hs, sub_starts p6_starts _ s hs, ite_self]

/-- text in which there is no table and no empty brackets -/
structure Quiet (s : Str) : Prop where
  bar : '|' ∉ s
  brace : '{' ∉ s
  marks : ∀ w ∈ tableMarks, ¬ cs w <:+: s
  empty : ¬ cs "[]" <:+: s

theorem p12_starts (k : Cls) : Starts (p12 k) (fun x => decide (x = '{' ∨ x = '|')) := by
  apply starts_seq
  apply starts_alt
  · exact starts_mono (starts_lit '{' ['|']) (by simp +contextual)
  apply starts_alt
  · exact starts_mono (starts_seq (starts_lit '|' ['-']) _) (by simp +contextual)
  · exact starts_mono (starts_lit '|' ['}']) (by simp +contextual)

theorem word_needs (k : Cls) : Needs (anyOf (tableWords k ++ [lit (cs "scope=")])) (tableMarks.map cs) := by
  simp only [tableWords, List.cons_append, List.nil_append, anyOf]
  refine needs_alt ?_ (needs_alt ?_ (needs_alt ?_ (needs_alt ?_ (needs_alt ?_ (needs_alt ?_ ?_)))))
  · exact needs_lit _ _ (List.mem_map.2 ⟨"bgcolor", by simp [tableMarks], rfl⟩)
  · exact needs_right (needs_right (needs_lit _ _ (List.mem_map.2 ⟨"colspan", by simp [tableMarks], rfl⟩)) _) _
  · exact needs_lit _ _ (List.mem_map.2 ⟨"rowspan", by simp [tableMarks], rfl⟩)
  · exact needs_lit _ _ (List.mem_map.2 ⟨"style=", by simp [tableMarks], rfl⟩)
  · exact needs_lit _ _ (List.mem_map.2 ⟨"class=", by simp [tableMarks], rfl⟩)
  · exact needs_lit _ _ (List.mem_map.2 ⟨"align=", by simp [tableMarks], rfl⟩)
  · exact needs_lit _ _ (List.mem_map.2 ⟨"scope=", by simp [tableMarks], rfl⟩)

theorem word_needs' (k : Cls) : Needs (anyOf (tableWords k)) (tableMarks.map cs) := by
  simp only [tableWords, anyOf]
  refine needs_alt ?_ (needs_alt ?_ (needs_alt ?_ (needs_alt ?_ (needs_alt ?_ ?_))))
  · exact needs_lit _ _ (List.mem_map.2 ⟨"bgcolor", by simp [tableMarks], rfl⟩)
  · exact needs_right (needs_right (needs_lit _ _ (List.mem_map.2 ⟨"colspan", by simp [tableMarks], rfl⟩)) _) _
  · exact needs_lit _ _ (List.mem_map.2 ⟨"rowspan", by simp [tableMarks], rfl⟩)
  · exact needs_lit _ _ (List.mem_map.2 ⟨"style=", by simp [tableMarks], rfl⟩)
  · exact needs_lit _ _ (List.mem_map.2 ⟨"class=", by simp [tableMarks], rfl⟩)
  · exact needs_lit _ _ (List.mem_map.2 ⟨"align=", by simp [tableMarks], rfl⟩)

theorem p17_needs (k : Cls) : Needs (p17 k) (tableMarks.map cs) :=
  needs_alt (needs_right (needs_right (needs_left (word_needs k) _) _) _)
    (needs_right (needs_right (needs_left (word_needs' k) _) _) _)

theorem cellBefore_head (p : Str) (h : cellBefore p = true) : ∃ c q, p = c :: q ∧ (c = '\n' ∨ c = ' ' ∨ c = '\t') := by
  unfold cellBefore at h
  split at h
  · exact ⟨_, _, rfl, Or.inl rfl⟩
  · exact ⟨_, _, rfl, Or.inr (Or.inl rfl)⟩
  · exact ⟨_, _, rfl, Or.inr (Or.inr rfl)⟩
  · cases h

theorem p13_id (s : Str) (hb : '|' ∉ s) (hm : ∀ w ∈ tableMarks, ¬ cs w <:+: s) (repl : St → Str) : sub p13 repl s = s := by
  apply sub_none
  intro x y e _
  rw [List.eq_nil_iff_forall_not_mem]
  intro t ht
  obtain ⟨v, hv, ht⟩ := (mem_seq _ _ _ _).1 ht
  obtain ⟨w, hw, _⟩ := (mem_seq _ _ _ _).1 ht
  unfold Re.run at hv
  split at hv
  · rename_i hc
    rcases List.mem_singleton.1 hv with rfl
    obtain ⟨c, h1, h2, _⟩ := (mem_chr _ _ _).1 hw
    dsimp only at h2 hc
    have hcb : c = '!' := by
      simp only [Bool.or_eq_true, decide_eq_true_eq] at h1
      rcases h1 with rfl | rfl
      · exact absurd (by rw [e, h2]; simp) hb
      · rfl
    subst hcb
    obtain ⟨d, q, hd, hdc⟩ := cellBefore_head _ hc
    have hx : x = q.reverse ++ [d] := by
      have := congrArg List.reverse hd
      simpa using this
    have hi : [d, '!'] <:+: s := ⟨q.reverse, w.rest, by rw [e, h2, hx]; simp⟩
    rcases hdc with rfl | rfl | rfl
    · exact hm "\n!" (by simp [tableMarks]) hi
    · exact hm " !" (by simp [tableMarks]) hi
    · exact hm "\t!" (by simp [tableMarks]) hi
  · simp at hv

theorem replace_id (old new s : Str) (h : ¬ old <:+: s) : replace old new s = s :=
  sub_needs (needs_lit old [old] (by simp)) _ s (by simpa using h)

theorem tablePass_id (k : Cls) (s : Str) (h : Quiet s) : tablePass k s = s := by
  have hbar : ∀ w : Str, ¬ ('|' :: w) <:+: s := by
    intro w hw
    exact h.bar (hw.subset (by simp))
  have e1 : ¬ cs "!!" <:+: s := h.marks "!!" (by simp [tableMarks])
  have e12 : sub (p12 k) (const (cs "\n")) s = s := by
    apply sub_starts (p12_starts k)
    intro c hc
    simp only [decide_eq_false_iff_not]
    rintro (rfl | rfl)
    · exact h.brace hc
    · exact h.bar hc
  have e17 : sub (p17 k) (const (cs "\n")) s = s := by
    apply sub_needs (p17_needs k)
    intro w hw
    obtain ⟨v, hv, rfl⟩ := List.mem_map.1 hw
    exact h.marks v hv
  unfold tablePass
  simp only
  rw [replace_id _ _ s e1, replace_id (cs "|-||") _ s (hbar _), e12, replace_id (cs "|||") _ s (hbar _), replace_id (cs "||") _ s (hbar _),
    p13_id s h.bar h.marks, e17, replace_id _ _ s h.empty]

theorem Simple.not_mem {s : Str} (h : Simple s) (c : Char) (hc : c ∈ cs "<[]{|") : c ∉ s := fun m => h.chars c m hc

theorem Simple.quiet {s : Str} (h : Simple s) : Quiet s where
  bar := h.not_mem '|' (by decide)
  brace := h.not_mem '{' (by decide)
  marks := h.marks
  empty := fun hi => h.not_mem '[' (by decide) (hi.subset (by simp [cs]))

theorem Simple.round {s : Str} (h : Simple s) (k : Cls) (b : Bool) : round k b s = s := by
  unfold Verif.Wiki.round
  rw [tagPass_id s (h.not_mem '<' (by decide)), linkPass_id k b s (h.not_mem '[' (by decide)), tablePass_id k s h.quiet]

theorem sub_lit1 (c : Char) (n : Nat) (pre s : Str) (hn : s.length ≤ n) :
    subN (lit [c]) (const []) n pre s = s.filter fun x => decide (x ≠ c) := by
  induction n generalizing pre s with
  | zero =>
    have : s = [] := List.length_eq_zero_iff.1 (Nat.le_zero.1 hn)
    subst this
    rfl
  | succ n ih =>
    cases s with
    | nil => rfl
    | cons d s =>
      by_cases e : d = c
      · subst e
        have := lit_run [d] pre s []
        rw [List.cons_append, List.nil_append] at this
        rw [subN, this]
        simp only [List.head?_cons]
        rw [if_pos (by simp), ih _ _ (by simpa using hn)]
        simp [const]
      · rw [subN_skip, ih _ _ (by simpa using hn), List.filter_cons_of_pos (by simpa using e)]
        apply starts_nil (starts_lit c [])
        intro x xs hx
        injection hx with h1 h2
        subst h1
        simpa using e

theorem replace_del (c : Char) (s : Str) : replace [c] [] s = s.filter fun x => decide (x ≠ c) := sub_lit1 c _ _ _ (Nat.le_refl _)

/-- `text.replace('[', '').replace(']', '')` -/
theorem promote_eq (s : Str) : replace [']'] [] (replace ['['] [] s) = s.filter fun x => decide (x ≠ '[' ∧ x ≠ ']') := by
  rw [replace_del, replace_del, List.filter_filter]
  congr 1
  funext x
  by_cases h1 : x = '[' <;> by_cases h2 : x = ']' <;> simp [h1, h2]

theorem Simple.promote {s : Str} (h : Simple s) : (s.filter fun x => decide (x ≠ '[' ∧ x ≠ ']')) = s := by
  apply List.filter_eq_self.2
  intro c hc
  simp only [decide_eq_true_eq]
  exact ⟨fun e => h.not_mem '[' (by decide) (e ▸ hc), fun e => h.not_mem ']' (by decide) (e ▸ hc)⟩

theorem noOpen_of {s : Str} (h : '{' ∉ s) : removeTemplate s = s :=
  (C59_done s).2.1 (fun hi => h (hi.subset (by simp)))

/-- the loop, when the first round leaves simple text -/
theorem rounds_simple (k : Cls) (b : Bool) (s s' : Str) (hr : round k b s = s') (hs : Simple s') : rounds k b 3 0 s = s' := by
  unfold rounds
  simp only [hr]
  split
  · rfl
  · unfold rounds
    simp only [hs.round k b]
    simp

theorem markup_of (k : Cls) (p b : Bool) (s s' : Str) (h2 : sub (p2 k) (const []) s = s) (ht : '{' ∉ s) (hf : removeFile s = s)
    (hr : round k b s = s') (hs : Simple s') : removeMarkup k p b s = s' := by
  unfold removeMarkup
  simp only
  rw [h2, noOpen_of ht, hf, rounds_simple k b s s' hr hs, promote_eq, hs.promote, ite_self]

theorem p2_needs (k : Cls) : Needs (p2 k) [cs "\n[["] :=
  needs_left (needs_left (needs_left (needs_lit (cs "\n[[") _ (by simp)) _) _) _

theorem p15_needs : Needs p15 [cs "[["] := needs_left (needs_lit (cs "[[") _ (by simp)) _

theorem findN_prefix (r : Re) (a b : Str) (n : Nat) (pre : Str)
    (h : ∀ x y : Str, a = x ++ y → y ≠ [] → r.run ⟨x.reverse ++ pre, y ++ b, []⟩ = []) :
    findN r (a.length + n) pre (a ++ b) = findN r n (a.reverse ++ pre) b := by
  induction a generalizing pre with
  | nil => simp
  | cons c a ih =>
    have h1 := h [] (c :: a) rfl (by simp)
    simp only [List.reverse_nil, List.nil_append] at h1
    rw [List.cons_append, show (c :: a).length + n = (a.length + n) + 1 by simp; omega, findN]
    rw [List.cons_append] at h1
    rw [h1]
    simp only [List.head?_nil]
    rw [ih]
    · simp
    · intro x y e hy
      have := h (c :: x) y (by rw [e]; rfl) hy
      simpa using this

theorem find_none (r : Re) (s : Str) (h : ∀ x y : Str, s = x ++ y → y ≠ [] → r.run ⟨x.reverse, y, []⟩ = []) : finditer r s = [] := by
  have := findN_prefix r s [] 0 [] (by intro x y e hy; simpa using h x y e hy)
  simpa [finditer, findN] using this

theorem find_one (r : Re) (a m b : Str) (hm : m ≠ [])
    (ha : ∀ x y : Str, a = x ++ y → y ≠ [] → r.run ⟨x.reverse, y ++ (m ++ b), []⟩ = [])
    (h : ∃ t, (r.run ⟨a.reverse, m ++ b, []⟩).head? = some t ∧ t.rest = b ∧ t.pre = (a ++ m).reverse)
    (hb : ∀ x y : Str, b = x ++ y → y ≠ [] → r.run ⟨(a ++ m ++ x).reverse, y, []⟩ = []) : finditer r (a ++ (m ++ b)) = [m] := by
  unfold finditer
  rw [show (a ++ (m ++ b)).length = a.length + (m ++ b).length by simp,
    findN_prefix r a (m ++ b) _ [] (by intro x y e hy; simpa using ha x y e hy)]
  obtain ⟨t, h1, h2, h3⟩ := h
  cases m with
  | nil => exact absurd rfl hm
  | cons c m =>
    rw [List.cons_append, List.length_cons, findN]
    rw [List.cons_append] at h1
    rw [List.append_nil, h1]
    dsimp only
    rw [if_pos (by rw [h2]; simp; omega), h2, h3]
    have e1 : (m ++ b).length = b.length + m.length := by simp; omega
    rw [e1]
    have := findN_prefix r b [] m.length (a ++ c :: m).reverse (by
      intro x y e hy
      have := hb x y e hy
      simpa using this)
    simp only [List.append_nil] at this
    rw [this]
    have e2 : (c :: (m ++ b)).take (b.length + m.length + 1 - b.length) = c :: m := by
      rw [show b.length + m.length + 1 - b.length = (c :: m).length by simp; omega, ← List.cons_append, List.take_left]
    rw [e2]
    cases m.length <;> simp [findN]

theorem needs_none {r : Re} {ws : List Str} (h : Needs r ws) (s : Str) (hs : ∀ w ∈ ws, ¬ w <:+: s) (x y : Str) (e : s = x ++ y) (pre : Str)
    (caps : List (Nat × Str)) : r.run ⟨pre, y, caps⟩ = [] := by
  rw [List.eq_nil_iff_forall_not_mem]
  intro t ht
  obtain ⟨w, hw, hi⟩ := h _ t ht
  refine hs w hw (hi.trans ?_)
  rw [e]
  exact (List.suffix_append _ _).isInfix

theorem removeFile_id (s : Str) (h : ¬ cs "[[" <:+: s) : removeFile s = s := by
  have : finditer p15 s = [] := by
    apply find_none
    intro x y e _
    exact needs_none p15_needs s (by simpa using h) x y e _ _
  unfold removeFile
  rw [this]
  rfl

theorem p2_id (k : Cls) (s : Str) (h : ¬ cs "[[" <:+: s) : sub (p2 k) (const []) s = s := by
  apply sub_needs (p2_needs k)
  intro w hw hi
  rcases List.mem_singleton.1 hw with rfl
  exact h (List.IsInfix.trans (⟨['\n'], [], rfl⟩ : cs "[[" <:+: cs "\n[[") hi)

theorem markup_no_link (k : Cls) (p b : Bool) (s s' : Str) (hl : ¬ cs "[[" <:+: s) (ht : '{' ∉ s) (hr : round k b s = s') (hs : Simple s') :
    removeMarkup k p b s = s' := markup_of k p b s s' (p2_id k s hl) ht (removeFile_id s hl) hr hs

/-! ## The theorems -/

/-- Text without markup is not changed. -/
theorem C139_plain (k : Cls) (p b : Bool) (s : Str) (h : Simple s) : removeMarkup k p b s = s :=
  markup_no_link k p b s s (fun hi => h.not_mem '[' (by decide) (hi.subset (by simp [cs]))) (h.not_mem '{' (by decide)) (h.round k b) h

/-! ### order of the characters -/

theorem run_sublist (st : Sum Str Nat) (s : Str) :
    (run st s).Sublist ((match st with | .inl acc => acc | .inr _ => []) ++ s) := by
  induction s generalizing st with
  | nil =>
    cases st with
    | inl acc => simp [run]
    | inr d => simp [run]
  | cons c r ih =>
    cases st with
    | inl acc =>
      unfold run
      dsimp only
      split
      · have := ih (.inr 2)
        dsimp only at this
        rw [List.nil_append] at this
        exact (List.dropLast_sublist acc).append (this.trans (List.sublist_cons_self c r))
      · have := ih (.inl (acc ++ [c]))
        simpa using this
    | inr d =>
      unfold run
      dsimp only
      rw [List.nil_append]
      have h1 : ∀ d', (run (.inr d') r).Sublist (c :: r) := by
        intro d'
        have := ih (.inr d')
        dsimp only at this
        exact this.trans (List.sublist_cons_self c r)
      have h2 : (run (.inl []) r).Sublist (c :: r) := by
        have := ih (.inl [])
        dsimp only at this
        exact this.trans (List.sublist_cons_self c r)
      split
      · exact h1 _
      · split
        · split
          · exact h2
          · exact h1 _
        · exact h1 _

theorem removeTemplate_sublist (s : Str) : (removeTemplate s).Sublist s := by
  rw [removeTemplate_run]
  simpa using run_sublist (.inl []) s

theorem replaceOnce_sublist (old new s : Str) (h : new.Sublist old) : (replaceOnce old new s).Sublist s := by
  induction s with
  | nil =>
    unfold replaceOnce
    split
    · rename_i e; subst e; exact h
    · exact List.Sublist.refl _
  | cons c s ih =>
    unfold replaceOnce
    split
    · rename_i e
      obtain ⟨z, hz⟩ := List.isPrefixOf_iff_prefix.1 e
      rw [← hz, List.drop_left]
      exact h.append (List.Sublist.refl z)
    · exact ih.cons_cons c

theorem caption_sublist (m : Str) : (caption m).Sublist m := by
  unfold caption
  have h1 := (List.takeWhile_prefix (fun c => decide (c ≠ '|')) (l := (m.take (m.length - 2)).reverse)).sublist
  have h2 := h1.reverse
  rw [List.reverse_reverse] at h2
  exact h2.trans (List.take_sublist _ _)

theorem removeFile_sublist (s : Str) : (removeFile s).Sublist s := by
  unfold removeFile
  generalize finditer p15 s = ms
  suffices h : ∀ t : Str, t.Sublist s → (ms.foldl (fun s m => replaceOnce m (caption m) s) t).Sublist s from h s (List.Sublist.refl s)
  induction ms with
  | nil => intro t h; exact h
  | cons m ms ih =>
    intro t h
    exact ih _ ((replaceOnce_sublist m (caption m) t (caption_sublist m)).trans h)

/-- what a pass may do: it keeps the order of the characters that are `kept` -/
def Keeps (f : Str → Str) : Prop := ∀ s, ((f s).filter kept).Sublist (s.filter kept)

theorem keeps_const (r : Re) (x : Str) (hx : x.filter kept = []) : Keeps (sub r (const x)) := sub_const_filter r x kept hx
theorem keeps_group (r : Re) (n : Nat) : Keeps (sub r fun t => t.group n) := sub_group_filter r n kept
theorem keeps_replace (o n : Str) (hn : n.filter kept = []) : Keeps (replace o n) := sub_const_filter (lit o) n kept hn

theorem tagPass_keeps : Keeps tagPass := by
  intro s
  unfold tagPass
  exact (keeps_const _ [] rfl _).trans ((keeps_const _ [] rfl _).trans ((keeps_const _ [] rfl _).trans
    ((keeps_const _ [] rfl _).trans (keeps_const _ [] rfl _))))

theorem linkPass_keeps (k : Cls) (b : Bool) : Keeps (linkPass k b) := by
  intro s
  unfold linkPass
  have h : ((sub (p5 k) (fun t => t.group 3) (sub p14 (const []) s)).filter kept).Sublist (s.filter kept) :=
    (keeps_group _ 3 _).trans (keeps_const _ [] rfl _)
  dsimp only
  split
  · exact (keeps_group _ 2 _).trans h
  · exact h

theorem tablePass_keeps (k : Cls) : Keeps (tablePass k) := by
  intro s
  unfold tablePass
  exact (keeps_replace _ _ (by decide) _).trans ((keeps_const _ _ (by decide) _).trans ((keeps_const _ _ (by decide) _).trans
    ((keeps_replace _ _ (by decide) _).trans ((keeps_replace _ _ (by decide) _).trans ((keeps_const _ _ (by decide) _).trans
      ((keeps_replace _ _ (by decide) _).trans (keeps_replace _ _ (by decide) _)))))))

theorem round_keeps (k : Cls) (b : Bool) : Keeps (round k b) := fun s =>
  (tablePass_keeps k _).trans ((linkPass_keeps k b _).trans (tagPass_keeps s))

theorem rounds_keeps (k : Cls) (b : Bool) (n i : Nat) : Keeps (rounds k b n i) := by
  induction n generalizing i with
  | zero => intro s; exact List.Sublist.refl _
  | succ n ih =>
    intro s
    unfold rounds
    dsimp only
    split
    · exact round_keeps k b s
    · exact (ih (i + 1) _).trans (round_keeps k b s)

theorem promote_keeps (p : Bool) (s : Str) :
    (if p then replace [']'] [] (replace ['['] [] s) else s).Sublist s := by
  split
  · rw [promote_eq]; exact List.filter_sublist
  · exact List.Sublist.refl _

/-- Removing markup never reorders or invents text: apart from line breaks and bars, the characters of the result are among those of
the input, in the same order. -/
theorem C139_order (k : Cls) (p b : Bool) (s : Str) : ((removeMarkup k p b s).filter kept).Sublist (s.filter kept) := by
  unfold removeMarkup
  dsimp only
  refine ((promote_keeps p _).filter kept).trans ?_
  refine (rounds_keeps k b 3 0 _).trans ?_
  refine ((removeFile_sublist _).filter kept).trans ?_
  refine ((removeTemplate_sublist _).filter kept).trans ?_
  exact keeps_const (p2 k) [] rfl s

/-- No brackets are left if they are to be promoted. -/
theorem C139_no_brackets (k : Cls) (b : Bool) (s : Str) : ∀ c ∈ removeMarkup k true b s, c ≠ '[' ∧ c ≠ ']' := by
  intro c hc
  unfold removeMarkup at hc
  dsimp only at hc
  rw [if_pos rfl, promote_eq] at hc
  simpa using (List.mem_filter.1 hc).2

/-! ### tags -/

theorem p11_matches (pre x y : Str) (caps : List (Nat × Str)) : p11.run ⟨pre, '<' :: (x ++ '>' :: y), caps⟩ ≠ [] := by
  intro h
  have : (⟨'>' :: (x.reverse ++ '<' :: pre), y, caps⟩ : St) ∈ p11.run ⟨pre, '<' :: (x ++ '>' :: y), caps⟩ := by
    refine (mem_seq _ _ _ _).2 ⟨⟨'<' :: pre, x ++ '>' :: y, caps⟩, (mem_chr _ _ _).2 ⟨'<', by simp, rfl, rfl, rfl⟩, ?_⟩
    refine (mem_seq _ _ _ _).2 ⟨⟨x.reverse ++ '<' :: pre, '>' :: y, caps⟩, ?_, (mem_chr _ _ _).2 ⟨'>', by simp, rfl, rfl, rfl⟩⟩
    exact (mem_star_chr _ _ _ _).2 ⟨x, by simp, rfl, rfl, rfl⟩
  rw [h] at this
  simp at this

theorem p11_no_tag (n : Nat) (pre s : Str) (hn : s.length ≤ n) : ¬ ['<', '>'].Sublist (subN p11 (const []) n pre s) := by
  induction n generalizing pre s with
  | zero =>
    have : s = [] := List.length_eq_zero_iff.1 (Nat.le_zero.1 hn)
    subst this
    simp [subN]
  | succ n ih =>
    cases s with
    | nil => simp [subN]
    | cons c s =>
      have hn' : s.length ≤ n := by simpa using hn
      by_cases e : c = '<'
      · subst e
        by_cases hg : '>' ∈ s
        · obtain ⟨x, y, rfl⟩ := List.append_of_mem hg
          have hne := p11_matches pre x y []
          cases hh : (p11.run ⟨pre, '<' :: (x ++ '>' :: y), []⟩).head? with
          | none => exact absurd (List.head?_eq_none_iff.1 hh) hne
          | some t =>
            have ht := List.mem_of_head? hh
            obtain ⟨v, hv, ht'⟩ := (mem_seq _ _ _ _).1 ht
            obtain ⟨d, _, h2, _⟩ := (mem_chr _ _ _).1 hv
            obtain ⟨u, hu⟩ := run_eats _ _ _ ht'
            have h3 : (x ++ '>' :: y) = u ++ t.rest := by
              rw [← hu.rest]
              injection h2
            have hlen : t.rest.length ≤ (x ++ '>' :: y).length := by rw [h3]; simp
            rw [subN, hh]
            dsimp only
            rw [if_pos (by omega)]
            simpa [const] using ih t.pre t.rest (by omega)
        · have hno : ∀ t, t ∉ p11.run ⟨pre, '<' :: s, []⟩ := by
            intro t ht
            obtain ⟨v, hv, ht⟩ := (mem_seq _ _ _ _).1 ht
            obtain ⟨w, hw, ht⟩ := (mem_seq _ _ _ _).1 ht
            obtain ⟨d, _, h2, _⟩ := (mem_chr _ _ _).1 hv
            obtain ⟨u, hu⟩ := run_eats _ _ _ hw
            obtain ⟨f, h3, h4, _⟩ := (mem_chr _ _ _).1 ht
            have : f = '>' := by simpa using h3
            subst this
            apply hg
            have : s = v.rest := by injection h2
            rw [this, hu.rest, h4]
            simp
          rw [subN_skip _ _ _ _ _ _ (run_nil_of _ _ hno)]
          intro hs
          rw [List.cons_sublist_cons] at hs
          have hm : '>' ∈ subN p11 (const []) n ('<' :: pre) s := hs.subset (by simp)
          have h1 := subN_filter p11 (const []) (fun _ => true) (by intros; simp [const]) n ('<' :: pre) s
          simp only [List.filter_true] at h1
          exact hg (h1.subset hm)
      · rw [subN_skip]
        · intro hs
          rw [List.sublist_cons_iff] at hs
          rcases hs with hs | ⟨r, hr, _⟩
          · exact ih (c :: pre) s hn' hs
          · injection hr with h1 _
            exact e h1.symm
        · apply starts_nil p11_starts
          intro d ds hd
          injection hd with h1 _
          subst h1
          simpa using e

theorem noTag_keeps (s s' : Str) (h : (s'.filter kept).Sublist (s.filter kept)) (hs : ¬ ['<', '>'].Sublist s) : ¬ ['<', '>'].Sublist s' := by
  intro h'
  apply hs
  have h1 := h'.filter kept
  have h2 : (['<', '>'].filter kept) = ['<', '>'] := by decide
  rw [h2] at h1
  exact (h1.trans h).trans List.filter_sublist

theorem rounds_round (k : Cls) (b : Bool) (n i : Nat) (s : Str) (f : Str → Str) (hf : f = round k b) :
    ((rounds k b (n + 1) i s).filter kept).Sublist ((f s).filter kept) := by
  subst hf
  unfold rounds
  dsimp only
  split
  · exact List.Sublist.refl _
  · exact rounds_keeps k b n (i + 1) _

/-- No tag is left: a `<` is never followed, however far behind, by a `>`. -/
theorem C139_no_tags (k : Cls) (p b : Bool) (s x y z : Str) : removeMarkup k p b s ≠ x ++ '<' :: y ++ '>' :: z := by
  suffices h : ¬ ['<', '>'].Sublist (removeMarkup k p b s) by
    intro e
    apply h
    rw [e]
    have : ['<', '>'].Sublist ('<' :: y ++ '>' :: z) :=
      List.Sublist.append (l₁ := ['<']) (l₂ := '<' :: y) (by simp) (r₁ := ['>']) (r₂ := '>' :: z) (by simp)
    rw [List.append_assoc]
    exact this.trans (List.sublist_append_right x _)
  unfold removeMarkup
  dsimp only
  generalize removeFile (removeTemplate (sub (p2 k) (const []) s)) = t
  have h0 : ¬ ['<', '>'].Sublist (tagPass t) := p11_no_tag _ _ _ (Nat.le_refl _)
  refine noTag_keeps (tagPass t) _ ?_ h0
  refine ((promote_keeps p _).filter kept).trans ?_
  refine (rounds_round k b 2 0 t _ rfl).trans ?_
  exact (tablePass_keeps k _).trans (linkPass_keeps k b _)

/-- One tag is removed, and nothing else. -/
theorem C139_tag (k : Cls) (p b : Bool) (pre x post : Str) (h : Simple (pre ++ post))
    (hx : ∀ c ∈ x, c ∉ cs "<>[{") (hc : ¬ cs "!--" <+: x)
    (hn : ∀ n ∈ ["ref", "nowiki", "math"], x ≠ cs n ∧ ¬ cs n ++ [' '] <+: x) :
    removeMarkup k p b (pre ++ '<' :: x ++ '>' :: post) = pre ++ post := by
  have hpre : ∀ c ∈ pre, c ∉ cs "<[]{|" := fun c hc => h.chars c (by simp [hc])
  have hpost : ∀ c ∈ post, c ∉ cs "<[]{|" := fun c hc => h.chars c (by simp [hc])
  have es : pre ++ '<' :: x ++ '>' :: post = pre ++ (('<' :: (x ++ ['>'])) ++ post) := by simp
  have npre : ∀ c, c ∈ cs "<[]{|" → c ∉ pre := fun c h1 h2 => hpre c h2 h1
  have npost : ∀ c, c ∈ cs "<[]{|" → c ∉ post := fun c h1 h2 => hpost c h2 h1
  have nx : ∀ c, c ∈ cs "<>[{" → c ∉ x := fun c h1 h2 => hx c h2 h1
  -- an expression that begins with `<` can only match at the tag
  have hskip : ∀ (w : Str) (r : Re), (∀ y z, y ++ z = x ++ '>' :: post → y = w → ∀ v : St, v.rest = z → v.caps = [] → r.run v = []) →
      sub (.seq (lit ('<' :: w)) r) (const []) (pre ++ '<' :: x ++ '>' :: post) = pre ++ '<' :: x ++ '>' :: post := by
    intro w r hw
    apply sub_none
    intro a y e _
    rw [List.eq_nil_iff_forall_not_mem]
    intro t ht
    obtain ⟨v, hv, ht⟩ := (mem_seq _ _ _ _).1 ht
    obtain ⟨h1, _, h3⟩ := (mem_lit _ _ _).1 hv
    dsimp only at h1 h3
    rw [h1] at e
    have e' : a ++ '<' :: (w ++ v.rest) = pre ++ '<' :: (x ++ '>' :: post) := by rw [← List.cons_append, ← e]; simp
    have hq : '<' ∉ x ++ '>' :: post := by
      simp only [List.mem_append, List.mem_cons, not_or]
      exact ⟨nx _ (by decide), by decide, npost _ (by decide)⟩
    obtain ⟨_, h5⟩ := split_unique (npre '<' (by decide)) hq e'
    rw [hw w v.rest h5 rfl v rfl h3] at ht
    simp at ht
  have e0 : sub p0 (const []) (pre ++ '<' :: x ++ '>' :: post) = pre ++ '<' :: x ++ '>' :: post := by
    apply hskip (cs "!--")
    intro y z e hy v _ _
    subst hy
    exact absurd (prefix_sep (c := '>') (by decide) ⟨z, e⟩) hc
  have eE : ∀ n ∈ ["ref", "nowiki", "math"], sub (pElem (cs n)) (const []) (pre ++ '<' :: x ++ '>' :: post) = pre ++ '<' :: x ++ '>' :: post := by
    intro n hnm
    apply hskip (cs n)
    intro y z e hy v hvz hvc
    subst hy
    rw [List.eq_nil_iff_forall_not_mem]
    intro t ht
    obtain ⟨w, hw, _⟩ := (mem_seq _ _ _ _).1 ht
    obtain ⟨c, h1, h2, _⟩ := (mem_chr _ _ _).1 hw
    rw [hvz] at h2
    rw [h2] at e
    simp only [Bool.or_eq_true, decide_eq_true_eq] at h1
    have hgt : '>' ∉ cs n := by
      revert hnm
      simp only [List.mem_cons, List.not_mem_nil, or_false]
      rintro (rfl | rfl | rfl) <;> decide
    rcases h1 with rfl | rfl
    · exact (hn n hnm).1 (split_first (nx '>' (by decide)) hgt e).1.symm
    · apply (hn n hnm).2
      apply prefix_sep (c := '>') (y := post)
      · simp only [List.mem_append, not_or]; exact ⟨hgt, by decide⟩
      · exact ⟨w.rest, by rw [← e]; simp⟩
  have e11 : sub p11 (const []) (pre ++ '<' :: x ++ '>' :: post) = pre ++ post := by
    rw [es]
    have := sub_one p11 (const []) pre ('<' :: (x ++ ['>'])) post (by simp) [] ?_ ?_ ?_
    · simpa using this
    · intro a y e hy
      apply starts_nil p11_starts
      intro c l hl
      cases y with
      | nil => exact absurd rfl hy
      | cons d y =>
        rw [List.cons_append] at hl
        injection hl with h1 _
        subst h1
        simp only [decide_eq_false_iff_not]
        rintro rfl
        exact npre '<' (by decide) (by rw [e]; simp)
    · have e1 : p11.run ⟨pre.reverse, '<' :: (x ++ ['>']) ++ post, []⟩ =
          (Re.seq (.star false any) (ch '>')).run ⟨'<' :: pre.reverse, x ++ '>' :: post, []⟩ := by
        have := lit_seq_run ['<'] (Re.seq (.star false any) (ch '>')) pre.reverse (x ++ '>' :: post) []
        have h2 : p11.run ⟨pre.reverse, '<' :: (x ++ ['>']) ++ post, []⟩ =
          (Re.seq (lit ['<']) (Re.seq (.star false any) (ch '>'))).run ⟨pre.reverse, ['<'] ++ (x ++ '>' :: post), []⟩ := by
          simp [p11, seqs, lit, Re.run, ch]
        rw [h2, this]
        rfl
      have hrun : (ch '>').run ⟨x.reverse ++ '<' :: pre.reverse, '>' :: post, []⟩ = [⟨'>' :: (x.reverse ++ '<' :: pre.reverse), post, []⟩] := by
        simp [ch, Re.run]
      refine ⟨⟨'>' :: (x.reverse ++ '<' :: pre.reverse), post, []⟩, ?_, rfl, by simp, rfl⟩
      rw [e1, any, lazy_head (fun _ => true) (ch '>') x ('<' :: pre.reverse) ('>' :: post) [] (by simp) ?_ (by rw [hrun]; simp), hrun]
      · rfl
      · intro a y e hy
        apply starts_nil (starts_chr _)
        intro c l hl
        cases y with
        | nil => exact absurd rfl hy
        | cons d y =>
          rw [List.cons_append] at hl
          injection hl with h1 _
          subst h1
          simp only [decide_eq_false_iff_not]
          rintro rfl
          exact nx '>' (by decide) (by rw [e]; simp)
    · intro a y e hy
      apply starts_nil p11_starts
      intro c l hl
      simp only [decide_eq_false_iff_not]
      rintro rfl
      exact npost '<' (by decide) (by rw [e, hl]; simp)
  apply markup_no_link k p b _ _ ?_ ?_ ?_ h
  · intro hi
    have : '[' ∈ pre ++ '<' :: x ++ '>' :: post := hi.subset (by simp [cs])
    simp only [List.mem_append, List.mem_cons] at this
    rcases this with (h1 | h1 | h1) | h1 | h1
    · exact npre _ (by decide) h1
    · exact absurd h1 (by decide)
    · exact nx _ (by decide) h1
    · exact absurd h1 (by decide)
    · exact npost _ (by decide) h1
  · intro this
    simp only [List.mem_append, List.mem_cons] at this
    rcases this with (h1 | h1 | h1) | h1 | h1
    · exact npre _ (by decide) h1
    · exact absurd h1 (by decide)
    · exact nx _ (by decide) h1
    · exact absurd h1 (by decide)
    · exact npost _ (by decide) h1
  · unfold Verif.Wiki.round tagPass
    dsimp only
    rw [e0, eE "ref" (by simp), eE "nowiki" (by simp), eE "math" (by simp), e11, linkPass_id k b _ (h.not_mem '[' (by decide)),
      tablePass_id k _ h.quiet]

/-! ### comments and elements -/

theorem skip_pre {r : Re} {c : Char} (hst : Starts r (fun x => decide (x = c))) (a m : Str) (ha : c ∉ a) (x y : Str) (e : a = x ++ y)
    (hy : y ≠ []) (pre : Str) (caps : List (Nat × Str)) : r.run ⟨pre, y ++ m, caps⟩ = [] := by
  apply starts_nil hst
  intro d l hl
  cases y with
  | nil => exact absurd rfl hy
  | cons f y =>
    rw [List.cons_append] at hl
    injection hl with h1 _
    subst h1
    simp only [decide_eq_false_iff_not]
    rintro rfl
    exact ha (by rw [e]; simp)

theorem skip_post {r : Re} {c : Char} (hst : Starts r (fun x => decide (x = c))) (b : Str) (hb : c ∉ b) (x y : Str) (e : b = x ++ y)
    (pre : Str) (caps : List (Nat × Str)) : r.run ⟨pre, y, caps⟩ = [] := by
  apply starts_nil hst
  intro d l hl
  simp only [decide_eq_false_iff_not]
  rintro rfl
  exact hb (by rw [e, hl]; simp)

theorem sub_lt_id {r : Re} (hst : Starts r (fun x => decide (x = '<'))) (s : Str) (h : '<' ∉ s) : sub r (const []) s = s := by
  apply sub_starts hst
  intro c hc
  simp only [decide_eq_false_iff_not]
  rintro rfl
  exact h hc

/-- A comment is removed, and nothing else. -/
theorem C139_comment (k : Cls) (p b : Bool) (pre x post : Str) (h : Simple (pre ++ post))
    (hx : '[' ∉ x ∧ '{' ∉ x) (hc : ¬ cs "-->" <:+: x) :
    removeMarkup k p b (pre ++ (cs "<!--" ++ (x ++ cs "-->")) ++ post) = pre ++ post := by
  have npre : ∀ c, c ∈ cs "<[]{|" → c ∉ pre := fun c h1 h2 => h.chars c (by simp [h2]) h1
  have npost : ∀ c, c ∈ cs "<[]{|" → c ∉ post := fun c h1 h2 => h.chars c (by simp [h2]) h1
  have e0 : sub p0 (const []) (pre ++ (cs "<!--" ++ (x ++ cs "-->")) ++ post) = pre ++ post := by
    rw [List.append_assoc]
    have := sub_one p0 (const []) pre (cs "<!--" ++ (x ++ cs "-->")) post (by simp [cs]) [] ?_ ?_ ?_
    · simpa using this
    · intro a y e hy; exact skip_pre p0_starts pre _ (npre _ (by decide)) a y e hy _ _
    · have e1 : p0.run ⟨pre.reverse, cs "<!--" ++ (x ++ cs "-->") ++ post, []⟩ =
          (Re.seq (.star false any) (lit (cs "-->"))).run ⟨(cs "<!--").reverse ++ pre.reverse, x ++ (cs "-->" ++ post), []⟩ := by
        rw [List.append_assoc, List.append_assoc]
        exact lit_seq_run _ _ _ _ _
      have hrun := lit_run (cs "-->") (x.reverse ++ ((cs "<!--").reverse ++ pre.reverse)) post []
      refine ⟨⟨(cs "-->").reverse ++ (x.reverse ++ ((cs "<!--").reverse ++ pre.reverse)), post, []⟩, ?_, rfl, by simp, rfl⟩
      rw [e1, any, lazy_head (fun _ => true) _ x _ (cs "-->" ++ post) [] (by simp) ?_ (by rw [hrun]; simp), hrun]
      · rfl
      · intro a y e hy
        rw [List.eq_nil_iff_forall_not_mem]
        intro t ht
        have h1 := ((mem_lit _ _ _).1 ht).1
        dsimp only at h1
        rw [show cs "-->" = ['-', '-', '>'] by decide] at h1
        match y, hy, h1, e with
        | [a1], _, h1, _ => simp at h1
        | [a1, a2], _, h1, _ => simp at h1
        | a1 :: a2 :: a3 :: y, _, h1, e =>
          simp only [List.cons_append, List.cons.injEq] at h1
          obtain ⟨rfl, rfl, rfl, _⟩ := h1
          exact hc ⟨a, y, by rw [e]; simp [cs]⟩
    · intro a y e _; exact skip_post p0_starts post (npost _ (by decide)) a y e _ _
  apply markup_no_link k p b _ _ ?_ ?_ ?_ h
  · intro hi
    have : '[' ∈ pre ++ (cs "<!--" ++ (x ++ cs "-->")) ++ post := hi.subset (by simp [cs])
    simp only [List.mem_append] at this
    rcases this with (h1 | h1 | h1 | h1) | h1
    · exact npre _ (by decide) h1
    · exact absurd h1 (by decide)
    · exact hx.1 h1
    · exact absurd h1 (by decide)
    · exact npost _ (by decide) h1
  · intro this
    simp only [List.mem_append] at this
    rcases this with (h1 | h1 | h1 | h1) | h1
    · exact npre _ (by decide) h1
    · exact absurd h1 (by decide)
    · exact hx.2 h1
    · exact absurd h1 (by decide)
    · exact npost _ (by decide) h1
  · have hl := h.not_mem '<' (by decide)
    unfold Verif.Wiki.round tagPass
    dsimp only
    rw [e0, sub_lt_id (pElem_starts _) _ hl, sub_lt_id (pElem_starts _) _ hl, sub_lt_id (pElem_starts _) _ hl, sub_lt_id p11_starts _ hl,
      linkPass_id k b _ (h.not_mem '[' (by decide)), tablePass_id k _ h.quiet]

/-- A footnote, a formula or a `nowiki` element is removed with its content, and nothing else.  The content must not contain the end of
an empty element (`/>`). -/
theorem C139_element (k : Cls) (p b : Bool) (n : String) (hn : n ∈ ["ref", "nowiki", "math"]) (pre : Str) (c : Char) (hc : c = '>' ∨ c = ' ')
    (x close post : Str) (h : Simple (pre ++ post)) (hclose : close = cs "/>" ∨ close = cs "</" ++ cs n ++ ['>'])
    (hx : '[' ∉ x ∧ '{' ∉ x) (h1 : ¬ cs "/>" <:+: x) (h2 : ¬ cs "</" ++ cs n ++ ['>'] <:+: x)
    (h3 : ∀ m ∈ ["!--", "ref", "nowiki", "math"], ¬ cs "<" ++ cs m <:+: x) :
    removeMarkup k p b (pre ++ (cs "<" ++ cs n ++ (c :: x) ++ close) ++ post) = pre ++ post := by
  have npre : ∀ c, c ∈ cs "<[]{|" → c ∉ pre := fun c h1 h2 => h.chars c (by simp [h2]) h1
  have npost : ∀ c, c ∈ cs "<[]{|" → c ∉ post := fun c h1 h2 => h.chars c (by simp [h2]) h1
  -- no other expression that begins with `<` and a name matches
  have hskip : ∀ (m : String), m ∈ ["!--", "ref", "nowiki", "math"] → m ≠ n → ∀ r : Re,
      sub (.seq (lit (['<'] ++ cs m)) r) (const []) (pre ++ (cs "<" ++ cs n ++ (c :: x) ++ close) ++ post) =
        pre ++ (cs "<" ++ cs n ++ (c :: x) ++ close) ++ post := by
    intro m hm hmn r
    apply sub_needs (needs_left (needs_lit (['<'] ++ cs m) [['<'] ++ cs m] (by simp)) r)
    intro w hw hi
    rcases List.mem_singleton.1 hw with rfl
    have hlt : '<' ∉ cs m := by
      revert hm
      simp only [List.mem_cons, List.not_mem_nil, or_false]
      rintro (rfl | rfl | rfl | rfl) <;> decide
    -- the position of the match
    obtain ⟨u, v, huv⟩ := hi
    have e1 : u ++ '<' :: (cs m ++ v) = pre ++ '<' :: (cs n ++ (c :: x) ++ close ++ post) := by
      have : cs "<" = ['<'] := by decide
      rw [this] at huv
      simpa using huv
    -- all ways in which `<` occurs in the text
    have hcut : ∀ (a b : Str), a ++ '<' :: b = pre ++ '<' :: (cs n ++ (c :: x) ++ close ++ post) →
        (b = cs n ++ (c :: x) ++ close ++ post) ∨ (∃ x1 x2, x = x1 ++ '<' :: x2 ∧ b = x2 ++ close ++ post) ∨
        ('<' :: b = close ++ post) := by
      intro a b e
      have hnl : '<' ∉ cs n ++ [c] := by
        revert hn
        simp only [List.mem_cons, List.not_mem_nil, or_false]
        rintro (rfl | rfl | rfl) <;> rcases hc with rfl | rfl <;> decide
      rcases List.append_eq_append_iff.1 e with ⟨q, hq1, hq2⟩ | ⟨q, hq1, hq2⟩
      · -- `a` is a prefix of `pre`
        cases q with
        | nil => left; simpa using hq2
        | cons d q =>
          simp only [List.cons_append, List.cons.injEq] at hq2
          exact absurd (by rw [hq1, ← hq2.1]; simp) (npre '<' (by decide))
      · cases q with
        | nil => left; simpa using hq2.symm
        | cons d q =>
          simp only [List.cons_append, List.cons.injEq] at hq2
          have e2 : (cs n ++ [c]) ++ (x ++ (close ++ post)) = q ++ '<' :: b := by
            rw [← hq2.2]; simp
          rcases List.append_eq_append_iff.1 e2 with ⟨z, hz1, hz2⟩ | ⟨z, hz1, hz2⟩
          · rcases List.append_eq_append_iff.1 hz2 with ⟨z', hz3, hz4⟩ | ⟨z', hz3, hz4⟩
            · cases z' with
              | nil => right; right; simpa using hz4.symm
              | cons f z' =>
                have hl : '<' ∉ post := npost _ (by decide)
                exfalso
                -- inside `close`, behind its first character, there is no `<`
                have hcl : ∀ (f : Char) (z z2 : Str), close ++ post = f :: z ++ '<' :: z2 → False := by
                  intro f z z2 hz
                  have : '<' ∈ (close ++ post).tail := by rw [hz]; simp
                  rcases hclose with rfl | rfl
                  · simp [cs] at this; exact hl this
                  · revert hn
                    simp only [List.mem_cons, List.not_mem_nil, or_false]
                    rintro (rfl | rfl | rfl) <;> simp [cs] at this <;> exact hl this
                exact hcl f z' b hz4
            · cases z' with
              | nil => right; right; simpa using hz4
              | cons f z' =>
                simp only [List.cons_append, List.cons.injEq] at hz4
                right; left
                exact ⟨z, z', by rw [hz3, hz4.1], by rw [hz4.2, List.append_assoc]⟩
          · cases z with
            | nil =>
              rw [List.nil_append] at hz2
              cases x with
              | nil => right; right; simpa using hz2
              | cons f x =>
                simp only [List.cons_append, List.cons.injEq] at hz2
                right; left
                exact ⟨[], x, by rw [hz2.1]; rfl, by rw [hz2.2, List.append_assoc]⟩
            | cons f z =>
              exfalso
              simp only [List.cons_append, List.cons.injEq] at hz2
              exact hnl (by rw [hz1, ← hz2.1]; simp)
    have hsep : ∀ (y z : Str), cs m ++ z = y ++ close ++ post → close.head? = some '<' ∨ close = cs "/>" → cs m <+: y := by
      intro y z e hcl
      rcases hcl with hcl | hcl
      · cases close with
        | nil => simp at hcl
        | cons f cl =>
          simp only [List.head?_cons, Option.some.injEq] at hcl
          subst hcl
          apply prefix_sep hlt (y := cl ++ post)
          exact ⟨z, by rw [e]; simp⟩
      · have hsl : '/' ∉ cs m := by
          revert hm
          simp only [List.mem_cons, List.not_mem_nil, or_false]
          rintro (rfl | rfl | rfl | rfl) <;> decide
        apply prefix_sep hsl (y := '>' :: post)
        exact ⟨z, by rw [e, hcl]; simp [cs]⟩
    have hch : close.head? = some '<' ∨ close = cs "/>" := by
      rcases hclose with rfl | rfl
      · exact Or.inr rfl
      · left; simp [cs]
    rcases hcut u (cs m ++ v) e1 with e | ⟨x1, x2, e2, e3⟩ | e
    · -- at the beginning of the element
      revert e
      clear hcut hsep e1 huv hlt h1 h2 h3
      revert hm hn hmn
      simp only [List.mem_cons, List.not_mem_nil, or_false]
      rintro (rfl | rfl | rfl) (rfl | rfl | rfl | rfl) hmn e
      all_goals first
        | exact absurd rfl hmn
        | (simp [cs] at e)
    · -- inside the content
      apply h3 m hm
      have := hsep x2 v e3 hch
      obtain ⟨z, hz⟩ := this
      exact ⟨x1, z, by rw [e2, ← hz]; simp [cs]⟩
    · -- at the end of the element
      clear hcut hsep e1 huv
      rcases hclose with rfl | rfl
      · simp [cs] at e
      · revert e
        clear h2 h3 hlt h1
        revert hm hn hmn
        simp only [List.mem_cons, List.not_mem_nil, or_false]
        rintro (rfl | rfl | rfl) (rfl | rfl | rfl | rfl) hmn e
        all_goals (simp [cs] at e)
  have hE : sub (pElem (cs n)) (const []) (pre ++ (cs "<" ++ cs n ++ (c :: x) ++ close) ++ post) = pre ++ post := by
    rw [List.append_assoc]
    have := sub_one (pElem (cs n)) (const []) pre (cs "<" ++ cs n ++ (c :: x) ++ close) post (by simp [cs]) [] ?_ ?_ ?_
    · simpa using this
    · intro a y e hy; exact skip_pre (pElem_starts _) pre _ (npre _ (by decide)) a y e hy _ _
    · have hcc : (Re.chr (fun c => c = '>' || c = ' ')).run ⟨(cs "<" ++ cs n).reverse ++ pre.reverse, c :: (x ++ (close ++ post)), []⟩ =
          [⟨c :: ((cs "<" ++ cs n).reverse ++ pre.reverse), x ++ (close ++ post), []⟩] := by
        unfold Re.run
        dsimp only
        rw [if_pos (by rcases hc with rfl | rfl <;> decide)]
      have e1 : (pElem (cs n)).run ⟨pre.reverse, cs "<" ++ cs n ++ (c :: x) ++ close ++ post, []⟩ =
          (Re.seq (.star false any) (.alt (lit (cs "</" ++ cs n ++ ['>'])) (lit (cs "/>")))).run
            ⟨c :: ((cs "<" ++ cs n).reverse ++ pre.reverse), x ++ (close ++ post), []⟩ := by
        have e2 : cs "<" ++ cs n ++ (c :: x) ++ close ++ post = (cs "<" ++ cs n) ++ (c :: (x ++ (close ++ post))) := by simp
        rw [e2]
        refine (lit_seq_run (['<'] ++ cs n) _ _ _ _).trans ?_
        rw [show cs "<" = ['<'] by decide] at hcc ⊢
        show (Re.seq (.chr _) (Re.seq (.star false any) _)).run _ = _
        rw [Re.run, hcc, List.flatMap_cons, List.flatMap_nil, List.append_nil]
        rfl
      have hrun : ∀ q : Str, (Re.alt (lit (cs "</" ++ cs n ++ ['>'])) (lit (cs "/>"))).run ⟨q, close ++ post, []⟩ =
          [⟨close.reverse ++ q, post, []⟩] := by
        intro q
        rw [Re.run]
        rcases hclose with rfl | rfl
        · rw [lit_run (cs "/>")]
          have : (lit (cs "</" ++ cs n ++ ['>'])).run ⟨q, cs "/>" ++ post, []⟩ = [] := by
            apply starts_nil (starts_lit '<' _)
            intro d l hl
            injection hl with h1 _
            subst h1
            decide
          rw [this]
          rfl
        · rw [lit_run]
          have : (lit (cs "/>")).run ⟨q, cs "</" ++ cs n ++ ['>'] ++ post, []⟩ = [] := by
            apply starts_nil (starts_lit '/' _)
            intro d l hl
            injection hl with h1 _
            subst h1
            decide
          rw [this]
          rfl
      refine ⟨⟨close.reverse ++ (x.reverse ++ (c :: ((cs "<" ++ cs n).reverse ++ pre.reverse))), post, []⟩, ?_, rfl, by simp, rfl⟩
      rw [e1, any, lazy_head (fun _ => true) _ x _ (close ++ post) [] (by simp) ?_ (by rw [hrun]; simp), hrun]
      · rfl
      · intro a y e hy
        rw [List.eq_nil_iff_forall_not_mem]
        intro t ht
        rcases (mem_alt _ _ _ _).1 ht with ht | ht
        · have h4 := ((mem_lit _ _ _).1 ht).1
          dsimp only at h4
          -- the end tag begins inside the content
          obtain ⟨y1, y2, rfl⟩ : ∃ y1 y2, y = y1 :: y2 := by
            cases y with
            | nil => exact absurd rfl hy
            | cons y1 y2 => exact ⟨y1, y2, rfl⟩
          have h5 : y1 = '<' := by
            have := congrArg List.head? h4
            simpa [cs] using this
          subst h5
          have h6 : y2 ++ (close ++ post) = (['/'] ++ cs n ++ ['>']) ++ t.rest := by
            have := congrArg List.tail h4
            simpa [cs] using this
          have h7 : ['/'] ++ cs n ++ ['>'] <+: y2 := by
            rcases hclose with rfl | rfl
            · -- `/>` would have to be inside the name
              have hno : '/' ∉ cs n ++ ['>'] := by
                revert hn
                simp only [List.mem_cons, List.not_mem_nil, or_false]
                rintro (rfl | rfl | rfl) <;> decide
              cases y2 with
              | nil =>
                exfalso
                revert h6
                clear h4 h2 hskip h3 hcc e1 hrun ht hno
                revert hn
                simp only [List.mem_cons, List.not_mem_nil, or_false]
                rintro (rfl | rfl | rfl) <;> simp [cs]
              | cons f y2 =>
                simp only [List.cons_append, List.append_assoc, List.cons.injEq, List.nil_append] at h6 ⊢
                obtain ⟨rfl, h6⟩ := h6
                rw [List.cons_prefix_cons]
                refine ⟨rfl, ?_⟩
                apply prefix_sep hno (y := '>' :: post)
                exact ⟨t.rest, by rw [show y2 ++ '/' :: '>' :: post = y2 ++ (cs "/>" ++ post) by simp [cs], h6]; simp⟩
            · have hno : '<' ∉ ['/'] ++ cs n ++ ['>'] := by
                revert hn
                simp only [List.mem_cons, List.not_mem_nil, or_false]
                rintro (rfl | rfl | rfl) <;> decide
              apply prefix_sep hno (y := ['/'] ++ cs n ++ ['>'] ++ post)
              exact ⟨t.rest, by rw [← h6]; simp [cs]⟩
          obtain ⟨z, hz⟩ := h7
          exact h2 ⟨a, z, by rw [e, ← hz]; simp [cs]⟩
        · have h4 := ((mem_lit _ _ _).1 ht).1
          dsimp only at h4
          match y, hy, h4, e with
          | [a1], _, h4, _ =>
            rcases hclose with rfl | rfl <;> simp [cs] at h4
          | a1 :: a2 :: y, _, h4, e =>
            simp only [cs, String.toList_ofList] at h4
            have h5 : a1 = '/' ∧ a2 = '>' := by simpa [cs] using And.intro (congrArg List.head? h4) (congrArg (fun l => l.tail.head?) h4)
            obtain ⟨rfl, rfl⟩ := h5
            exact h1 ⟨a, y, by rw [e]; simp [cs]⟩
    · intro a y e _; exact skip_post (pElem_starts _) post (npost _ (by decide)) a y e _ _
  have hnb : ∀ d ∈ ['[', '{'], d ∉ pre ++ (cs "<" ++ cs n ++ (c :: x) ++ close) ++ post := by
    intro d hd this
    have hdc : d ∈ cs "<[]{|" := by
      revert hd; simp only [List.mem_cons, List.not_mem_nil, or_false]; rintro (rfl | rfl) <;> decide
    simp only [List.mem_append, List.mem_cons] at this
    rcases this with (h' | ((h' | h') | h' | h') | h') | h'
    · exact npre _ hdc h'
    · revert hd h'; simp only [List.mem_cons, List.not_mem_nil, or_false]; rintro (rfl | rfl) <;> decide
    · simp only [List.mem_cons, List.not_mem_nil, or_false] at hd hn
      rcases hd with rfl | rfl <;> rcases hn with rfl | rfl | rfl <;> exact absurd h' (by decide)
    · subst h'
      revert hd; simp only [List.mem_cons, List.not_mem_nil, or_false]
      rcases hc with rfl | rfl <;> decide
    · simp only [List.mem_cons, List.not_mem_nil, or_false] at hd
      rcases hd with rfl | rfl
      · exact hx.1 h'
      · exact hx.2 h'
    · have : d ∉ close := by
        simp only [List.mem_cons, List.not_mem_nil, or_false] at hd hn
        rcases hclose with rfl | rfl
        · rcases hd with rfl | rfl <;> decide
        · rcases hd with rfl | rfl <;> rcases hn with rfl | rfl | rfl <;> decide
      exact this h'
    · exact npost _ hdc h'
  apply markup_no_link k p b _ _ ?_ ?_ ?_ h
  · intro hi
    exact hnb '[' (by simp) (hi.subset (by simp [cs]))
  · exact hnb '{' (by simp)
  · have hl := h.not_mem '<' (by decide)
    unfold Verif.Wiki.round tagPass
    dsimp only
    have e0 : sub p0 (const []) (pre ++ (cs "<" ++ cs n ++ (c :: x) ++ close) ++ post) = pre ++ (cs "<" ++ cs n ++ (c :: x) ++ close) ++ post := by
      have hne : "!--" ≠ n := by
        rintro rfl
        revert hn; decide
      have := hskip "!--" (by simp) hne (Re.seq (.star false any) (lit (cs "-->")))
      rw [show ['<'] ++ cs "!--" = cs "<!--" by decide] at this
      exact this
    rw [e0]
    have hlast : tablePass k (linkPass k b (pre ++ post)) = pre ++ post := by
      rw [linkPass_id k b _ (h.not_mem '[' (by decide)), tablePass_id k _ h.quiet]
    have hn' := hn
    simp only [List.mem_cons, List.not_mem_nil, or_false] at hn'
    have sk : ∀ m ∈ ["ref", "nowiki", "math"], m ≠ n →
        sub (pElem (cs m)) (const []) (pre ++ (cs "<" ++ cs n ++ (c :: x) ++ close) ++ post) =
          pre ++ (cs "<" ++ cs n ++ (c :: x) ++ close) ++ post := fun m hm hmn => hskip m (List.mem_cons_of_mem _ hm) hmn _
    rcases hn' with rfl | rfl | rfl
    · rw [hE, sub_lt_id (pElem_starts _) _ hl, sub_lt_id (pElem_starts _) _ hl, sub_lt_id p11_starts _ hl, hlast]
    · rw [sk "ref" (by simp) (by decide), hE, sub_lt_id (pElem_starts _) _ hl, sub_lt_id p11_starts _ hl, hlast]
    · rw [sk "ref" (by simp) (by decide), sk "nowiki" (by simp) (by decide), hE, sub_lt_id p11_starts _ hl, hlast]

end Verif.Wiki
