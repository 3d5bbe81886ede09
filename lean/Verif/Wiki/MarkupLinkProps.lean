import Verif.Wiki.MarkupProps

/-!
# C139: links, addresses, categories and captions
-/

namespace Verif.Wiki
open Verif Text Regex

/-! ## Lemmas -/

theorem split_link {α} {c : α} {p q x y : List α} (hp : c ∉ p) (hq : c ∉ q) (h : x ++ c :: y = p ++ c :: c :: q) :
    (x = p ∧ y = c :: q) ∨ (x = p ++ [c] ∧ y = q) := by
  induction p generalizing x with
  | nil =>
    cases x with
    | nil => left; simpa using h
    | cons d x =>
      simp only [List.cons_append, List.nil_append, List.cons.injEq] at h
      obtain ⟨hd, h⟩ := h
      cases x with
      | nil => right; rw [hd]; simpa using h
      | cons e x =>
        simp only [List.cons_append, List.cons.injEq] at h
        exact absurd (h.2 ▸ (by simp : c ∈ x ++ c :: y)) hq
  | cons d p ih =>
    cases x with
    | nil =>
      simp only [List.nil_append, List.cons_append, List.cons.injEq] at h
      exact absurd (by simp [h.1]) hp
    | cons e x =>
      simp only [List.cons_append, List.cons.injEq] at h
      rcases ih (fun m => hp (by simp [m])) h.2 with ⟨h1, h2⟩ | ⟨h1, h2⟩
      · left; exact ⟨by rw [h.1, h1], h2⟩
      · right; exact ⟨by rw [h.1, h1]; rfl, h2⟩

theorem split_open {α} {c : α} {p q x y : List α} (hp : c ∉ p) (hq : c ∉ q) (h : x ++ c :: c :: y = p ++ c :: c :: q) : x = p ∧ y = q := by
  rcases split_link hp hq h with ⟨h1, h2⟩ | ⟨_, h2⟩
  · exact ⟨h1, by injection h2⟩
  · exact absurd (by rw [← h2]; simp) hq

theorem needs_ch (c : Char) : Needs (ch c) [[c]] := by
  intro s t ht
  obtain ⟨d, h1, h2, _⟩ := (mem_chr _ _ _).1 ht
  have : d = c := by simpa using h1
  subst this
  exact ⟨[d], by simp, ⟨[], t.rest, by rw [h2]; rfl⟩⟩

theorem p6_id (repl : St → Str) (s : Str) (h : '|' ∉ s) : sub p6 repl s = s := by
  apply sub_needs (needs_right (needs_right (needs_left (needs_ch '|') _) _) _)
  intro w hw hi
  rcases List.mem_singleton.1 hw with rfl
  exact h (hi.subset (by simp))

theorem p14_id (s : Str) (h : ¬ cs "[[" <:+: s) : sub p14 (const []) s = s := by
  apply sub_needs (needs_left (needs_lit (cs "[[Category:") _ (by simp)) _ : Needs p14 [cs "[[Category:"])
  intro w hw hi
  rcases List.mem_singleton.1 hw with rfl
  exact h (List.IsInfix.trans (⟨[], cs "Category:", by decide⟩ : cs "[[" <:+: cs "[[Category:") hi)

/-- what a match of an address consumes -/
theorem p5_mem (k : Cls) (s t : St) (h : t ∈ (p5 k).run s) :
    ∃ w z, s.rest = '[' :: (w ++ (cs "://" ++ z)) ∧ w ≠ [] ∧ ∀ c ∈ w, k.word c = true := by
  obtain ⟨v1, h1, h⟩ := (mem_seq _ _ _ _).1 h
  obtain ⟨v2, h2, h⟩ := (mem_seq _ _ _ _).1 h
  obtain ⟨v3, h3, h⟩ := (mem_seq _ _ _ _).1 h
  obtain ⟨c, e1, e2, _⟩ := (mem_chr _ _ _).1 h1
  have : c = '[' := by simpa using e1
  subst this
  obtain ⟨v4, h4, h5⟩ := (mem_seq _ _ _ _).1 h2
  obtain ⟨d, e3, e4, _⟩ := (mem_chr _ _ _).1 h4
  obtain ⟨u, e5, e6, _⟩ := (mem_star_chr _ _ _ _).1 h5
  have e7 := ((mem_lit _ _ _).1 h3).1
  refine ⟨d :: u, v3.rest, by rw [e2, e4, e6, e7]; rfl, by simp, ?_⟩
  intro x hx
  rcases List.mem_cons.1 hx with rfl | hx
  · exact e3
  · exact e5 x hx

/-- what a link to a language begins with -/
theorem p2_mem (k : Cls) (s t : St) (h : t ∈ (p2 k).run s) :
    ∃ c1 c2 u z, s.rest = cs "\n[[" ++ (c1 :: c2 :: (u ++ ':' :: z)) ∧ ('a' ≤ c1 ∧ c1 ≤ 'z') ∧ ('a' ≤ c2 ∧ c2 ≤ 'z') ∧
      ∀ c ∈ u, k.word c = true ∨ c = '-' := by
  obtain ⟨v, h, _⟩ := (mem_seq _ _ _ _).1 h
  obtain ⟨v, h, _⟩ := (mem_seq _ _ _ _).1 h
  obtain ⟨v1, h1, h⟩ := (mem_seq _ _ _ _).1 h
  obtain ⟨v2, h2, h⟩ := (mem_seq _ _ _ _).1 h
  obtain ⟨v3, h3, h⟩ := (mem_seq _ _ _ _).1 h
  obtain ⟨v4, h4, h⟩ := (mem_seq _ _ _ _).1 h
  obtain ⟨v5, h5, h⟩ := (mem_seq _ _ _ _).1 h
  have e1 := ((mem_lit _ _ _).1 h1).1
  obtain ⟨c1, e2, e3, _⟩ := (mem_chr _ _ _).1 h2
  obtain ⟨c2, e4, e5, _⟩ := (mem_chr _ _ _).1 h3
  obtain ⟨u, e6, e7, _⟩ := (mem_star_chr _ _ _ _).1 h4
  obtain ⟨c, e8, e9, _⟩ := (mem_chr _ _ _).1 h5
  have : c = ':' := by simpa using e8
  subst this
  refine ⟨c1, c2, u, v5.rest, by rw [e1, e3, e5, e7, e9], by simpa using e2, by simpa using e4, ?_⟩
  intro x hx
  simpa using e6 x hx

theorem lower_ne (c d : Char) (h : 'a' ≤ c ∧ c ≤ 'z') (hd : d ∈ cs "[]|:") : c ≠ d := by
  rintro rfl
  revert h
  have : c = '[' ∨ c = ']' ∨ c = '|' ∨ c = ':' := by simpa [cs] using hd
  rcases this with rfl | rfl | rfl | rfl <;> decide

theorem marks_no (w : String) (hw : w ∈ tableMarks) (c : Char) (hc : c ∈ ['[', ']', '|']) : c ∉ cs w := by
  simp only [tableMarks, List.mem_cons, List.not_mem_nil, or_false] at hw hc
  rcases hw with rfl | rfl | rfl | rfl | rfl | rfl | rfl | rfl | rfl | rfl | rfl <;> rcases hc with rfl | rfl | rfl <;> decide

/-! ## Links -/

section
variable (k : Cls) (hk : k.Ok) (pre t q : Str) (sep : Char) (hsep : sep = '|' ∨ sep = ']') (hpre : '[' ∉ pre)
  (ht : '[' ∉ t ∧ ':' ∉ t) (hq : '[' ∉ q) (hi : ¬ cs "image" <+: t ∧ ¬ cs "Image" <+: t)
include hk hsep hpre ht hq

/-- what stands behind the brackets does not go over the separator -/
theorem link_prefix (w z : Str) (hw : sep ∉ w) (e : w ++ z = t ++ sep :: q) : w <+: t := prefix_sep hw ⟨z, e⟩

theorem link_noq : '[' ∉ t ++ sep :: q := by
  simp only [List.mem_append, List.mem_cons, not_or]
  refine ⟨ht.1, ?_, hq⟩
  rcases hsep with rfl | rfl <;> decide

theorem link_p2 : sub (p2 k) (const []) (pre ++ '[' :: '[' :: (t ++ sep :: q)) = pre ++ '[' :: '[' :: (t ++ sep :: q) := by
  have hnq := link_noq k hk pre t q sep hsep hpre ht hq
  apply sub_none
  intro x y e _
  rw [List.eq_nil_iff_forall_not_mem]
  intro v hv
  obtain ⟨c1, c2, u, z, h1, h2, h3, h4⟩ := p2_mem k _ _ hv
  dsimp only at h1
  have e1 : (x ++ ['\n']) ++ '[' :: '[' :: (c1 :: c2 :: (u ++ ':' :: z)) = pre ++ '[' :: '[' :: (t ++ sep :: q) := by
    rw [e, h1]; simp [cs]
  obtain ⟨_, e2⟩ := split_open hpre hnq e1
  have hp : (c1 :: c2 :: (u ++ [':'])) <+: t := by
    apply link_prefix k hk pre t q sep hsep hpre ht hq _ z _ (by rw [← e2]; simp)
    have hmem : sep ∈ cs "[]|:" := by rcases hsep with rfl | rfl <;> decide
    have hw : k.word sep = false := hk sep (by rcases hsep with rfl | rfl <;> decide)
    simp only [List.mem_cons, List.mem_append, List.not_mem_nil, or_false, not_or]
    refine ⟨fun h => lower_ne c1 sep h2 hmem h.symm, fun h => lower_ne c2 sep h3 hmem h.symm, ?_, ?_⟩
    · intro h
      rcases h4 sep h with h | h
      · rw [hw] at h; cases h
      · rcases hsep with rfl | rfl <;> exact absurd h (by decide)
    · rcases hsep with rfl | rfl <;> decide
  exact ht.2 (hp.subset (by simp))

theorem link_p5 (repl : St → Str) : sub (p5 k) repl (pre ++ '[' :: '[' :: (t ++ sep :: q)) = pre ++ '[' :: '[' :: (t ++ sep :: q) := by
  have hnq := link_noq k hk pre t q sep hsep hpre ht hq
  apply sub_none
  intro x y e _
  rw [List.eq_nil_iff_forall_not_mem]
  intro v hv
  obtain ⟨w, z, h1, h2, h3⟩ := p5_mem k _ _ hv
  dsimp only at h1
  rw [h1] at e
  rcases split_link hpre hnq e.symm with ⟨_, e2⟩ | ⟨_, e2⟩
  · cases w with
    | nil => exact h2 rfl
    | cons c w =>
      rw [List.cons_append] at e2
      injection e2 with e3 _
      have := h3 c (by simp)
      rw [e3, hk '[' (by decide)] at this
      cases this
  · have hp : w ++ [':'] <+: t := by
      apply link_prefix k hk pre t q sep hsep hpre ht hq _ (cs "//" ++ z) _ (by rw [← e2]; simp [cs])
      simp only [List.mem_append, List.mem_singleton, not_or]
      refine ⟨?_, by rcases hsep with rfl | rfl <;> decide⟩
      intro h
      have hw : k.word sep = false := hk sep (by rcases hsep with rfl | rfl <;> decide)
      rw [h3 sep h] at hw
      cases hw
    exact ht.2 (hp.subset (by simp))

theorem link_lit (w : Str) (hw : ':' ∈ w ∧ sep ∉ w) (x z : Str) : x ++ (cs "[[" ++ (w ++ z)) ≠ pre ++ '[' :: '[' :: (t ++ sep :: q) := by
  have hnq := link_noq k hk pre t q sep hsep hpre ht hq
  intro e
  obtain ⟨_, e2⟩ := split_open hpre hnq (show x ++ '[' :: '[' :: (w ++ z) = _ from e)
  exact ht.2 ((link_prefix k hk pre t q sep hsep hpre ht hq w z hw.2 e2).subset hw.1)

theorem link_p14 : sub p14 (const []) (pre ++ '[' :: '[' :: (t ++ sep :: q)) = pre ++ '[' :: '[' :: (t ++ sep :: q) := by
  apply sub_needs (needs_left (needs_lit (cs "[[Category:") _ (by simp)) _ : Needs p14 [cs "[[Category:"])
  intro w hw hi
  rcases List.mem_singleton.1 hw with rfl
  obtain ⟨x, z, e⟩ := hi
  apply link_lit k hk pre t q sep hsep hpre ht hq (cs "Category:") ⟨by decide, by rcases hsep with rfl | rfl <;> decide⟩ x z
  rw [← e]
  simp [cs]

include hi in
theorem link_file : removeFile (pre ++ '[' :: '[' :: (t ++ sep :: q)) = pre ++ '[' :: '[' :: (t ++ sep :: q) := by
  have hnq := link_noq k hk pre t q sep hsep hpre ht hq
  have : finditer p15 (pre ++ '[' :: '[' :: (t ++ sep :: q)) = [] := by
    apply find_none
    intro x y e _
    rw [List.eq_nil_iff_forall_not_mem]
    intro v hv
    obtain ⟨v1, h1, hv⟩ := (mem_seq _ _ _ _).1 hv
    obtain ⟨v2, h2, _⟩ := (mem_seq _ _ _ _).1 hv
    have e1 := ((mem_lit _ _ _).1 h1).1
    dsimp only at e1
    rcases (mem_alt _ _ _ _).1 h2 with h2 | h2
    · obtain ⟨v3, h3, h4⟩ := (mem_seq _ _ _ _).1 h2
      obtain ⟨c, e2, e3, _⟩ := (mem_chr _ _ _).1 h3
      have e4 := ((mem_lit _ _ _).1 h4).1
      apply link_lit k hk pre t q sep hsep hpre ht hq (c :: cs "ile:") ⟨by simp [cs], ?_⟩ x v2.rest
      · rw [e, e1, e3, e4]; simp
      · simp only [Bool.or_eq_true, decide_eq_true_eq] at e2
        rcases e2 with rfl | rfl <;> rcases hsep with rfl | rfl <;> decide
    · obtain ⟨v3, h3, h4⟩ := (mem_seq _ _ _ _).1 h2
      obtain ⟨c, e2, e3, _⟩ := (mem_chr _ _ _).1 h3
      have e4 := ((mem_lit _ _ _).1 h4).1
      have e5 : x ++ '[' :: '[' :: (c :: cs "mage" ++ v2.rest) = pre ++ '[' :: '[' :: (t ++ sep :: q) := by
        rw [e, e1, e3, e4]; simp [cs]
      obtain ⟨_, e6⟩ := split_open hpre hnq e5
      simp only [Bool.or_eq_true, decide_eq_true_eq] at e2
      have hp := link_prefix k hk pre t q sep hsep hpre ht hq (c :: cs "mage") v2.rest
        (by rcases e2 with rfl | rfl <;> rcases hsep with rfl | rfl <;> decide) e6
      rcases e2 with rfl | rfl
      · exact hi.1 (by rwa [show cs "image" = 'i' :: cs "mage" by decide])
      · exact hi.2 (by rwa [show cs "Image" = 'I' :: cs "mage" by decide])
  unfold removeFile
  rw [this]
  rfl

end

theorem simple_append_no (c : Char) (pre t d post : Str) (h1 : c ∉ pre) (h2 : c ∉ t) (h3 : c ∉ d) (h4 : c ∉ post) (hc : c ∉ ['[', ']', '|']) :
    c ∉ pre ++ '[' :: '[' :: (t ++ '|' :: (d ++ ']' :: ']' :: post)) := by
  simp only [List.mem_cons, List.not_mem_nil, or_false, not_or] at hc
  simp only [List.mem_append, List.mem_cons, not_or]
  exact ⟨h1, hc.1, hc.1, h2, hc.2.2, h3, hc.2.1, hc.2.1, h4⟩

/-- Of a link with a description, only the description is left. -/
theorem C139_link (k : Cls) (hk : k.Ok) (pre t d post : Str) (h1 : Simple pre) (h2 : Simple t) (h3 : Simple d) (h4 : Simple post)
    (hcol : ':' ∉ t) (himg : ¬ cs "image" <+: t ∧ ¬ cs "Image" <+: t) (hd : d ≠ []) (hurl : ¬ cs "://" <:+: d) :
    removeMarkup k true true (pre ++ (cs "[[" ++ t ++ cs "|" ++ d ++ cs "]]") ++ post) = pre ++ d ++ post ∧
    removeMarkup k false true (pre ++ (cs "[[" ++ t ++ cs "|" ++ d ++ cs "]]") ++ post) = pre ++ (cs "[" ++ d ++ cs "]") ++ post := by
  have es : pre ++ (cs "[[" ++ t ++ cs "|" ++ d ++ cs "]]") ++ post = pre ++ '[' :: '[' :: (t ++ '|' :: (d ++ ']' :: ']' :: post)) := by
    simp [cs]
  have es1 : pre ++ (cs "[" ++ d ++ cs "]") ++ post = pre ++ '[' :: (d ++ ']' :: post) := by simp [cs]
  rw [es, es1]
  have no : ∀ c ∈ cs "<[]{|", c ∉ pre ∧ c ∉ t ∧ c ∉ d ∧ c ∉ post := fun c hc =>
    ⟨h1.not_mem c hc, h2.not_mem c hc, h3.not_mem c hc, h4.not_mem c hc⟩
  have hq : '[' ∉ d ++ ']' :: ']' :: post := by
    simp only [List.mem_append, List.mem_cons, not_or]
    exact ⟨(no '[' (by decide)).2.2.1, by decide, by decide, (no '[' (by decide)).2.2.2⟩
  have hpre := (no '[' (by decide)).1
  have htt : '[' ∉ t ∧ ':' ∉ t := ⟨(no '[' (by decide)).2.1, hcol⟩
  have hlt : '<' ∉ pre ++ '[' :: '[' :: (t ++ '|' :: (d ++ ']' :: ']' :: post)) := by
    obtain ⟨a, b, c, e⟩ := no '<' (by decide)
    exact simple_append_no _ _ _ _ _ a b c e (by decide)
  have hbr : '{' ∉ pre ++ '[' :: '[' :: (t ++ '|' :: (d ++ ']' :: ']' :: post)) := by
    obtain ⟨a, b, c, e⟩ := no '{' (by decide)
    exact simple_append_no _ _ _ _ _ a b c e (by decide)
  -- the description stays
  have e6 : sub p6 (fun t => t.group 2) (pre ++ '[' :: '[' :: (t ++ '|' :: (d ++ ']' :: ']' :: post))) = pre ++ '[' :: (d ++ ']' :: post) := by
    have := sub_one p6 (fun t => t.group 2) (pre ++ ['[']) ('[' :: (t ++ '|' :: (d ++ [']']))) (']' :: post) (by simp) d ?_ ?_ ?_
    · simpa using this
    · intro x y e hy
      rw [List.eq_nil_iff_forall_not_mem]
      intro v hv
      obtain ⟨v1, g1, hv⟩ := (mem_seq _ _ _ _).1 hv
      obtain ⟨v2, g2, hv⟩ := (mem_seq _ _ _ _).1 hv
      obtain ⟨v3, g3, _⟩ := (mem_seq _ _ _ _).1 hv
      obtain ⟨c, f1, f2, _⟩ := (mem_chr _ _ _).1 g1
      have : c = '[' := by simpa using f1
      subst this
      obtain ⟨u, f3, f4, _⟩ := (mem_star_chr _ _ _ _).1 g2
      obtain ⟨c', f5, f6, _⟩ := (mem_chr _ _ _).1 g3
      have : c' = '|' := by simpa using f5
      subst this
      dsimp only at f2
      have f7 : x ++ '[' :: (u ++ '|' :: v3.rest) = pre ++ '[' :: '[' :: (t ++ '|' :: (d ++ ']' :: ']' :: post)) := by
        have : x ++ (y ++ ('[' :: (t ++ '|' :: (d ++ [']'])) ++ (']' :: post))) = pre ++ '[' :: '[' :: (t ++ '|' :: (d ++ ']' :: ']' :: post)) := by
          rw [← List.append_assoc, ← e]; simp
        rw [← this, f2, f4, f6]
      have hnq := link_noq k hk pre t _ '|' (Or.inl rfl) hpre htt hq
      rcases split_link hpre hnq f7 with ⟨_, f8⟩ | ⟨f8, _⟩
      · cases u with
        | nil => injection f8 with f9 _; exact absurd f9 (by decide)
        | cons a u =>
          injection f8 with f9 _
          have := f3 a (by simp)
          rw [f9] at this
          exact absurd this (by decide)
      · have := congrArg List.length e
        rw [f8] at this
        simp only [List.length_append] at this
        exact hy (List.length_eq_zero_iff.1 (by omega))
    · have hall := head_of_all (p6.run ⟨(pre ++ ['[']).reverse, '[' :: (t ++ '|' :: (d ++ [']'])) ++ ']' :: post, []⟩)
        (fun v => v.rest = ']' :: post ∧ v.pre = (pre ++ ['['] ++ '[' :: (t ++ '|' :: (d ++ [']']))).reverse ∧ v.group 2 = d) ?_ ?_
      · obtain ⟨v, g1, g2⟩ := hall
        exact ⟨v, g1, g2⟩
      · intro h
        have : (⟨']' :: (d.reverse ++ '|' :: (t.reverse ++ '[' :: (pre ++ ['[']).reverse)), ']' :: post, [(2, d)]⟩ : St) ∈
            p6.run ⟨(pre ++ ['[']).reverse, '[' :: (t ++ '|' :: (d ++ [']'])) ++ ']' :: post, []⟩ := by
          refine (mem_seq _ _ _ _).2 ⟨⟨'[' :: (pre ++ ['[']).reverse, t ++ '|' :: (d ++ ']' :: ']' :: post), []⟩,
            (mem_chr _ _ _).2 ⟨'[', by simp, by simp, rfl, rfl⟩, ?_⟩
          refine (mem_seq _ _ _ _).2 ⟨⟨t.reverse ++ '[' :: (pre ++ ['[']).reverse, '|' :: (d ++ ']' :: ']' :: post), []⟩,
            (mem_star_chr _ _ _ _).2 ⟨t, ?_, rfl, rfl, rfl⟩, ?_⟩
          · intro c hc
            have g1 : c ≠ '[' := fun e => (no '[' (by decide)).2.1 (e ▸ hc)
            have g2 : c ≠ ']' := fun e => (no ']' (by decide)).2.1 (e ▸ hc)
            simp [notBr, g1, g2]
          refine (mem_seq _ _ _ _).2 ⟨⟨'|' :: (t.reverse ++ '[' :: (pre ++ ['[']).reverse), d ++ ']' :: ']' :: post, []⟩,
            (mem_chr _ _ _).2 ⟨'|', by simp, rfl, rfl, rfl⟩, ?_⟩
          refine (mem_seq _ _ _ _).2 ⟨⟨d.reverse ++ '|' :: (t.reverse ++ '[' :: (pre ++ ['[']).reverse), ']' :: ']' :: post, [(2, d)]⟩, ?_,
            (mem_chr _ _ _).2 ⟨']', by simp, rfl, rfl, rfl⟩⟩
          refine (mem_cap _ _ _ _).2 ⟨⟨d.reverse ++ '|' :: (t.reverse ++ '[' :: (pre ++ ['[']).reverse), ']' :: ']' :: post, []⟩, 
            (mem_star_chr _ _ _ _).2 ⟨d, ?_, rfl, rfl, rfl⟩, ?_⟩
          · intro c hc
            have g1 : c ≠ '[' := fun e => (no '[' (by decide)).2.2.1 (e ▸ hc)
            have g2 : c ≠ ']' := fun e => (no ']' (by decide)).2.2.1 (e ▸ hc)
            simp [notBr, g1, g2]
          · simp
        rw [h] at this
        simp at this
      · intro v hv
        obtain ⟨u0, hu0⟩ := run_eats _ _ _ hv
        obtain ⟨v1, g1, hv⟩ := (mem_seq _ _ _ _).1 hv
        obtain ⟨v2, g2, hv⟩ := (mem_seq _ _ _ _).1 hv
        obtain ⟨v3, g3, hv⟩ := (mem_seq _ _ _ _).1 hv
        obtain ⟨v4, g4, g5⟩ := (mem_seq _ _ _ _).1 hv
        obtain ⟨v5, g6, rfl⟩ := (mem_cap _ _ _ _).1 g4
        obtain ⟨c, f1, f2, f2b, f2c⟩ := (mem_chr _ _ _).1 g1
        obtain ⟨u, f3, f4, f4b, f4c⟩ := (mem_star_chr _ _ _ _).1 g2
        obtain ⟨c', f5, f6, f6b, f6c⟩ := (mem_chr _ _ _).1 g3
        obtain ⟨w, f7, f8, f8b, f8c⟩ := (mem_star_chr _ _ _ _).1 g6
        obtain ⟨c'', f9, f10, f10b, f10c⟩ := (mem_chr _ _ _).1 g5
        have i1 : c = '[' := by simpa using f1
        have i2 : c' = '|' := by simpa using f5
        have i3 : c'' = ']' := by simpa using f9
        subst i1 i2 i3
        dsimp only at f2 f10 f10c
        have j1 : u ++ '|' :: (w ++ ']' :: v.rest) = t ++ '|' :: (d ++ ']' :: ']' :: post) := by
          have f2' : t ++ '|' :: (d ++ ']' :: ']' :: post) = v1.rest := by
            simp only [List.cons_append, List.append_assoc, List.cons.injEq, true_and] at f2
            simpa using f2
          rw [f2', f4, f6, f8, f10]
        have nb : ∀ (l : Str), (∀ c ∈ l, notBr c = true) → ']' ∉ l := by
          intro l hl hm
          have := hl _ hm
          exact absurd this (by decide)
        have j2 : (u ++ '|' :: w) = (t ++ '|' :: d) ∧ v.rest = ']' :: post := by
          apply split_first (c := ']')
          · simp only [List.mem_append, List.mem_cons, not_or]
            exact ⟨(no ']' (by decide)).2.1, by decide, (no ']' (by decide)).2.2.1⟩
          · simp only [List.mem_append, List.mem_cons, not_or]
            exact ⟨nb u f3, by decide, nb w f7⟩
          · simpa using j1
        have j3 := split_unique (no '|' (by decide)).2.1 (no '|' (by decide)).2.2.1 j2.1
        refine ⟨j2.2, ?_, ?_⟩
        · have := hu0.rest
          dsimp only at this
          rw [j2.2] at this
          have hu : u0 = '[' :: (t ++ '|' :: (d ++ [']'])) := (List.append_cancel_right this).symm
          rw [hu0.pre, hu]
          simp
        · unfold St.group
          rw [f10c]
          simp only [List.lookup_cons, beq_self_eq_true, Option.getD_some]
          rw [f8, List.length_append, Nat.add_sub_cancel, List.take_left]
          exact j3.2
    · intro x y e _
      refine skip_post p6_starts (']' :: post) ?_ x y e _ _
      simp only [List.mem_cons, not_or]
      exact ⟨by decide, (no '[' (by decide)).2.2.2⟩
  -- what is left after the first round
  have hquiet : Quiet (pre ++ '[' :: (d ++ ']' :: post)) := by
    have hm : ∀ c ∈ ['{', '|'], c ∉ pre ++ '[' :: (d ++ ']' :: post) := by
      intro c hc
      have hc' : c ∈ cs "<[]{|" ∧ c ≠ '[' ∧ c ≠ ']' := by
        simp only [List.mem_cons, List.not_mem_nil, or_false] at hc
        rcases hc with rfl | rfl <;> decide
      obtain ⟨a, _, b, e⟩ := no c hc'.1
      simp only [List.mem_append, List.mem_cons, not_or]
      exact ⟨a, hc'.2.1, b, hc'.2.2, e⟩
    refine ⟨hm '|' (by simp), hm '{' (by simp), ?_, ?_⟩
    · intro w hw hi
      rcases infix_sep (marks_no w hw '[' (by simp)) hi with hi | hi
      · exact h1.marks w hw hi
      · rcases infix_sep (marks_no w hw ']' (by simp)) hi with hi | hi
        · exact h3.marks w hw hi
        · exact h4.marks w hw hi
    · rintro ⟨x, y, e⟩
      have e' : x ++ '[' :: (']' :: y) = pre ++ '[' :: (d ++ ']' :: post) := by rw [← e]; simp [cs]
      have hq' : '[' ∉ d ++ ']' :: post := by
        simp only [List.mem_append, List.mem_cons, not_or]
        exact ⟨(no '[' (by decide)).2.2.1, by decide, (no '[' (by decide)).2.2.2⟩
      obtain ⟨_, e2⟩ := split_unique hpre hq' e'
      cases d with
      | nil => exact hd rfl
      | cons a d =>
        rw [List.cons_append] at e2
        injection e2 with e3 _
        exact (no ']' (by decide)).2.2.1 (by rw [e3]; simp)
  have hr1 : round k true (pre ++ '[' :: '[' :: (t ++ '|' :: (d ++ ']' :: ']' :: post))) = pre ++ '[' :: (d ++ ']' :: post) := by
    unfold Verif.Wiki.round linkPass
    dsimp only
    rw [tagPass_id _ hlt, link_p14 k hk pre t _ '|' (Or.inl rfl) hpre htt hq, link_p5 k hk pre t _ '|' (Or.inl rfl) hpre htt hq, if_pos rfl, e6,
      tablePass_id k _ hquiet]
  have hlt1 : '<' ∉ pre ++ '[' :: (d ++ ']' :: post) := by
    obtain ⟨a, _, b, e⟩ := no '<' (by decide)
    simp only [List.mem_append, List.mem_cons, not_or]
    exact ⟨a, by decide, b, by decide, e⟩
  have hq1 : '[' ∉ d ++ ']' :: post := by
    simp only [List.mem_append, List.mem_cons, not_or]
    exact ⟨(no '[' (by decide)).2.2.1, by decide, (no '[' (by decide)).2.2.2⟩
  have hno2 : ¬ cs "[[" <:+: pre ++ '[' :: (d ++ ']' :: post) := by
    rintro ⟨x, y, e⟩
    have e' : x ++ '[' :: ('[' :: y) = pre ++ '[' :: (d ++ ']' :: post) := by rw [← e]; simp [cs]
    obtain ⟨_, e2⟩ := split_unique hpre hq1 e'
    exact hq1 (by rw [← e2]; simp)
  have h5' : sub (p5 k) (fun t => t.group 3) (pre ++ '[' :: (d ++ ']' :: post)) = pre ++ '[' :: (d ++ ']' :: post) := by
    apply sub_none
    intro x y e _
    rw [List.eq_nil_iff_forall_not_mem]
    intro v hv
    obtain ⟨w, z, g1, g2, g3⟩ := p5_mem k _ _ hv
    dsimp only at g1
    rw [g1] at e
    obtain ⟨_, e2⟩ := split_unique hpre hq1 e.symm
    have hp : w ++ cs "://" <+: d := by
      apply prefix_sep (c := ']') (y := post)
      · simp only [List.mem_append, not_or]
        refine ⟨fun hm => ?_, by decide⟩
        have := g3 _ hm
        rw [hk ']' (by decide)] at this
        cases this
      · exact ⟨z, by rw [← e2]; simp⟩
    exact hurl (List.IsInfix.trans (List.suffix_append w (cs "://")).isInfix hp.isInfix)
  have hr2 : round k true (pre ++ '[' :: (d ++ ']' :: post)) = pre ++ '[' :: (d ++ ']' :: post) := by
    unfold Verif.Wiki.round linkPass
    dsimp only
    rw [tagPass_id _ hlt1, p14_id _ hno2, h5', if_pos rfl, p6_id _ _ hquiet.bar, tablePass_id k _ hquiet]
  have hrs : rounds k true 3 0 (pre ++ '[' :: '[' :: (t ++ '|' :: (d ++ ']' :: ']' :: post))) = pre ++ '[' :: (d ++ ']' :: post) := by
    unfold rounds
    simp only [hr1]
    split
    · rfl
    · unfold rounds
      simp only [hr2]
      simp
  have key : ∀ p, removeMarkup k p true (pre ++ '[' :: '[' :: (t ++ '|' :: (d ++ ']' :: ']' :: post))) =
      if p then (pre ++ '[' :: (d ++ ']' :: post)).filter (fun x => decide (x ≠ '[' ∧ x ≠ ']')) else pre ++ '[' :: (d ++ ']' :: post) := by
    intro p
    unfold removeMarkup
    simp only
    rw [link_p2 k hk pre t _ '|' (Or.inl rfl) hpre htt hq, noOpen_of hbr, link_file k hk pre t _ '|' (Or.inl rfl) hpre htt hq himg, hrs, promote_eq]
  refine ⟨?_, by rw [key]; rfl⟩
  rw [key, if_pos rfl, List.filter_append, List.filter_cons_of_neg (by decide), List.filter_append, List.filter_cons_of_neg (by decide),
    h1.promote, h3.promote, h4.promote, List.append_assoc]

/-- Of a link without a description, the name of the page is left. -/
theorem C139_link_bare (k : Cls) (hk : k.Ok) (b : Bool) (pre t post : Str) (h1 : Simple pre) (h2 : Simple t) (h4 : Simple post)
    (hcol : ':' ∉ t) (himg : ¬ cs "image" <+: t ∧ ¬ cs "Image" <+: t) (ht : t ≠ []) :
    removeMarkup k true b (pre ++ (cs "[[" ++ t ++ cs "]]") ++ post) = pre ++ t ++ post ∧
    removeMarkup k false b (pre ++ (cs "[[" ++ t ++ cs "]]") ++ post) = pre ++ (cs "[[" ++ t ++ cs "]]") ++ post := by
  have es : pre ++ (cs "[[" ++ t ++ cs "]]") ++ post = pre ++ '[' :: '[' :: (t ++ ']' :: (']' :: post)) := by simp [cs]
  rw [es]
  have no : ∀ c ∈ cs "<[]{|", c ∉ pre ∧ c ∉ t ∧ c ∉ post := fun c hc =>
    ⟨h1.not_mem c hc, h2.not_mem c hc, h4.not_mem c hc⟩
  have hq : '[' ∉ ']' :: post := by
    simp only [List.mem_cons, not_or]
    exact ⟨by decide, (no '[' (by decide)).2.2⟩
  have hpre := (no '[' (by decide)).1
  have htt : '[' ∉ t ∧ ':' ∉ t := ⟨(no '[' (by decide)).2.1, hcol⟩
  have hnot : ∀ c ∈ cs "<{|", c ∉ pre ++ '[' :: '[' :: (t ++ ']' :: (']' :: post)) := by
    intro c hc
    have hc' : c ∈ cs "<[]{|" ∧ c ≠ '[' ∧ c ≠ ']' := by
      have : c = '<' ∨ c = '{' ∨ c = '|' := by simpa [cs] using hc
      rcases this with rfl | rfl | rfl <;> decide
    obtain ⟨a, d, e⟩ := no c hc'.1
    simp only [List.mem_append, List.mem_cons, not_or]
    exact ⟨a, hc'.2.1, hc'.2.1, d, hc'.2.2, hc'.2.2, e⟩
  have hquiet : Quiet (pre ++ '[' :: '[' :: (t ++ ']' :: (']' :: post))) := by
    refine ⟨hnot '|' (by decide), hnot '{' (by decide), ?_, ?_⟩
    · intro w hw hi
      have g1 := marks_no w hw '[' (by simp)
      have g2 := marks_no w hw ']' (by simp)
      rcases infix_sep g1 hi with hi | hi
      · exact h1.marks w hw hi
      · rcases infix_sep (x := []) g1 hi with hi | hi
        · rw [List.infix_nil] at hi
          exact h1.marks w hw (by rw [hi]; exact List.nil_infix)
        · rcases infix_sep g2 hi with hi | hi
          · exact h2.marks w hw hi
          · rcases infix_sep (x := []) g2 hi with hi | hi
            · rw [List.infix_nil] at hi
              exact h1.marks w hw (by rw [hi]; exact List.nil_infix)
            · exact h4.marks w hw hi
    · rintro ⟨x, y, e⟩
      have e' : x ++ '[' :: (']' :: y) = pre ++ '[' :: '[' :: (t ++ ']' :: (']' :: post)) := by rw [← e]; simp [cs]
      rcases split_link hpre (link_noq k hk pre t _ ']' (Or.inr rfl) hpre htt hq) e' with ⟨_, e2⟩ | ⟨_, e2⟩
      · injection e2 with e3 _
        exact absurd e3 (by decide)
      · cases t with
        | nil => exact ht rfl
        | cons a t =>
          rw [List.cons_append] at e2
          injection e2 with e3 _
          exact (no ']' (by decide)).2.1 (by rw [e3]; simp)
  have hr : round k b (pre ++ '[' :: '[' :: (t ++ ']' :: (']' :: post))) = pre ++ '[' :: '[' :: (t ++ ']' :: (']' :: post)) := by
    unfold Verif.Wiki.round linkPass
    dsimp only
    rw [tagPass_id _ (hnot '<' (by decide)), link_p14 k hk pre t _ ']' (Or.inr rfl) hpre htt hq,
      link_p5 k hk pre t _ ']' (Or.inr rfl) hpre htt hq, p6_id _ _ hquiet.bar, ite_self, tablePass_id k _ hquiet]
  have key : ∀ p, removeMarkup k p b (pre ++ '[' :: '[' :: (t ++ ']' :: (']' :: post))) =
      if p then (pre ++ '[' :: '[' :: (t ++ ']' :: (']' :: post))).filter (fun x => decide (x ≠ '[' ∧ x ≠ ']'))
      else pre ++ '[' :: '[' :: (t ++ ']' :: (']' :: post)) := by
    intro p
    have hrs : rounds k b 3 0 (pre ++ '[' :: '[' :: (t ++ ']' :: (']' :: post))) = pre ++ '[' :: '[' :: (t ++ ']' :: (']' :: post)) := by
      unfold rounds
      simp only [hr]
      simp
    unfold removeMarkup
    simp only
    rw [link_p2 k hk pre t _ ']' (Or.inr rfl) hpre htt hq, noOpen_of hquiet.brace, link_file k hk pre t _ ']' (Or.inr rfl) hpre htt hq himg, hrs,
      promote_eq]
  refine ⟨?_, by rw [key]; rfl⟩
  rw [key, if_pos rfl, List.filter_append, List.filter_cons_of_neg (by decide), List.filter_cons_of_neg (by decide), List.filter_append,
    List.filter_cons_of_neg (by decide), List.filter_cons_of_neg (by decide), h1.promote, h2.promote, h4.promote, List.append_assoc]

/-! ## Addresses -/

/-- a greedy repetition takes as much as possible, if what follows can be matched -/
theorem greedyN_head (p : Char → Bool) (r : Re) (u : Str) (n : Nat) (hn : u.length ≤ n) (pre v : Str) (caps : List (Nat × Str))
    (hu : ∀ c ∈ u, p c = true) (hv : ∀ c l, v = c :: l → p c = false) (h1 : r.run ⟨u.reverse ++ pre, v, caps⟩ ≠ []) :
    ((starN (Re.chr p).run true n ⟨pre, u ++ v, caps⟩).flatMap r.run).head? = (r.run ⟨u.reverse ++ pre, v, caps⟩).head? := by
  induction u generalizing n pre with
  | nil =>
    have : starN (Re.chr p).run true n ⟨pre, v, caps⟩ = [⟨pre, v, caps⟩] := by
      cases n with
      | zero => rfl
      | succ n =>
        unfold starN
        rw [starts_nil (starts_chr p) pre v caps hv]
        rfl
    rw [List.nil_append, this]
    simp
  | cons c u ih =>
    cases n with
    | zero => simp at hn
    | succ n =>
      have hone : (Re.chr p).run ⟨pre, c :: u ++ v, caps⟩ = [⟨c :: pre, u ++ v, caps⟩] := by
        rw [List.cons_append]
        unfold Re.run
        dsimp only
        rw [if_pos (hu c (by simp))]
      have := ih n (by simpa using hn) (c :: pre) (fun x hx => hu x (by simp [hx])) (by simpa using h1)
      unfold starN
      rw [hone]
      simp only [if_true]
      rw [List.filter_cons_of_pos (by simp), List.filter_nil, List.flatMap_cons, List.flatMap_nil, List.append_nil, List.flatMap_append,
        List.head?_append, this]
      cases hh : r.run ⟨u.reverse ++ c :: pre, v, caps⟩ with
      | nil => exact absurd hh (by simpa using h1)
      | cons a l =>
        rw [List.reverse_cons, List.append_assoc, List.singleton_append, hh]
        rfl

theorem greedy_head (p : Char → Bool) (r : Re) (u : Str) (pre v : Str) (caps : List (Nat × Str))
    (hu : ∀ c ∈ u, p c = true) (hv : ∀ c l, v = c :: l → p c = false) (h1 : r.run ⟨u.reverse ++ pre, v, caps⟩ ≠ []) :
    ((Re.seq (.star true (.chr p)) r).run ⟨pre, u ++ v, caps⟩).head? = (r.run ⟨u.reverse ++ pre, v, caps⟩).head? :=
  greedyN_head p r u _ (by simp) pre v caps hu hv h1

theorem seq_assoc_run (a b c : Re) (s : St) : (Re.seq (Re.seq a b) c).run s = (Re.seq a (Re.seq b c)).run s := by
  unfold Re.run
  rw [show (Re.seq a b).run s = (a.run s).flatMap b.run by rfl, List.flatMap_assoc]
  rfl

/-- the end of an address, with its description -/
def urlEnd : Re := .seq (.cap 3 (.alt (.seq (ch ' ') (.star false dot)) .eps)) (ch ']')

theorem urlEnd_run (q d post : Str) (hd : ∀ c ∈ d, c ≠ '\n' ∧ c ≠ ']') (hp : ']' ∉ post) :
    urlEnd.run ⟨q, ' ' :: (d ++ ']' :: post), []⟩ ≠ [] ∧
    ∀ t ∈ urlEnd.run ⟨q, ' ' :: (d ++ ']' :: post), []⟩,
      t.rest = post ∧ t.pre = ']' :: (d.reverse ++ ' ' :: q) ∧ t.group 3 = ' ' :: d := by
  constructor
  · intro h
    have : (⟨']' :: (d.reverse ++ ' ' :: q), post, [(3, ' ' :: d)]⟩ : St) ∈ urlEnd.run ⟨q, ' ' :: (d ++ ']' :: post), []⟩ := by
      refine (mem_seq _ _ _ _).2 ⟨⟨d.reverse ++ ' ' :: q, ']' :: post, [(3, ' ' :: d)]⟩, ?_, (mem_chr _ _ _).2 ⟨']', by simp, rfl, rfl, rfl⟩⟩
      refine (mem_cap _ _ _ _).2 ⟨⟨d.reverse ++ ' ' :: q, ']' :: post, []⟩, (mem_alt _ _ _ _).2 (Or.inl ?_), ?_⟩
      · refine (mem_seq _ _ _ _).2 ⟨⟨' ' :: q, d ++ ']' :: post, []⟩, (mem_chr _ _ _).2 ⟨' ', by simp, rfl, rfl, rfl⟩, ?_⟩
        exact (mem_star_chr _ _ _ _).2 ⟨d, fun c hc => by simpa using (hd c hc).1, rfl, rfl, rfl⟩
      · have : (' ' :: (d ++ ']' :: post)).length - (']' :: post).length = (' ' :: d).length := by simp; omega
        dsimp only
        rw [this, ← List.cons_append, List.take_left]
    rw [h] at this
    simp at this
  · intro t ht
    obtain ⟨v, hv, ht⟩ := (mem_seq _ _ _ _).1 ht
    obtain ⟨w, hw, rfl⟩ := (mem_cap _ _ _ _).1 hv
    obtain ⟨c, f1, f2, f3, f4⟩ := (mem_chr _ _ _).1 ht
    have : c = ']' := by simpa using f1
    subst this
    dsimp only at f2 f3 f4
    rcases (mem_alt _ _ _ _).1 hw with hw | hw
    · obtain ⟨x, hx, hw⟩ := (mem_seq _ _ _ _).1 hw
      obtain ⟨c', g1, g2, g3, _⟩ := (mem_chr _ _ _).1 hx
      obtain ⟨u, g4, g5, g6, g7⟩ := (mem_star_chr _ _ _ _).1 hw
      dsimp only at g2
      injection g2 with g8 g9
      have e1 : u ++ ']' :: t.rest = d ++ ']' :: post := by rw [g9, g5, f2]
      have hdn : ']' ∉ d := fun hm => (hd _ hm).2 rfl
      obtain ⟨e2, e3⟩ := split_unique hdn hp e1
      subst e2
      refine ⟨e3, by rw [f3, g6, g3, ← g8], ?_⟩
      unfold St.group
      rw [f4]
      simp only [List.lookup_cons, beq_self_eq_true, Option.getD_some]
      have : (' ' :: (u ++ ']' :: post)).length - w.rest.length = (' ' :: u).length := by
        rw [f2, e3]; simp; omega
      rw [this, ← List.cons_append, List.take_left]
    · rcases List.mem_singleton.1 hw with rfl
      dsimp only at f2
      injection f2 with g _
      exact absurd g (by decide)

/-- Of an address with a description, the description is left, with the space before it. -/
theorem C139_url (k : Cls) (hk : k.Ok) (p b : Bool) (pre scheme addr d post : Str) (h : Simple (pre ++ ' ' :: d ++ post))
    (hs : scheme ≠ [] ∧ ∀ c ∈ scheme, k.word c = true) (ha : ∀ c ∈ addr, c ∉ cs " \n<[]{") (hd : '\n' ∉ d) :
    removeMarkup k p b (pre ++ (cs "[" ++ scheme ++ cs "://" ++ addr ++ cs " " ++ d ++ cs "]") ++ post) = pre ++ ' ' :: d ++ post := by
  have es : pre ++ (cs "[" ++ scheme ++ cs "://" ++ addr ++ cs " " ++ d ++ cs "]") ++ post =
      pre ++ ('[' :: (scheme ++ (cs "://" ++ (addr ++ ' ' :: (d ++ [']'])))) ++ post) := by simp [cs]
  rw [es]
  have no : ∀ c ∈ cs "<[]{|", c ∉ pre ∧ c ∉ d ∧ c ∉ post := by
    intro c hc
    have := h.not_mem c hc
    simp only [List.mem_append, List.mem_cons, not_or] at this
    exact ⟨this.1.1, this.1.2.2, this.2⟩
  have hsn : ∀ c ∈ cs "[]|:<{", c ∉ scheme := by
    intro c hc hm
    have := hs.2 c hm
    rw [hk c hc] at this
    cases this
  have han : ∀ c ∈ cs " \n<[]{", c ∉ addr := fun c hc hm => ha c hm hc
  have hnot : ∀ c ∈ cs "<{", c ∉ pre ++ ('[' :: (scheme ++ (cs "://" ++ (addr ++ ' ' :: (d ++ [']'])))) ++ post) := by
    intro c hc
    have hc' : c ∈ cs "<[]{|" ∧ c ≠ '[' ∧ c ≠ ']' ∧ c ∈ cs "[]|:<{" ∧ c ∈ cs " \n<[]{" ∧ c ∉ cs "://" ∧ c ≠ ' ' := by
      have : c = '<' ∨ c = '{' := by simpa [cs] using hc
      rcases this with rfl | rfl <;> decide
    obtain ⟨g1, g2, g3, g4, g5, g6, g7⟩ := hc'
    obtain ⟨a, e, f⟩ := no c g1
    simp only [List.mem_append, List.mem_cons, List.not_mem_nil, or_false, not_or]
    exact ⟨a, ⟨g2, hsn c g4, g6, han c g5, g7, e, g3⟩, f⟩
  have hq : '[' ∉ scheme ++ (cs "://" ++ (addr ++ ' ' :: (d ++ ']' :: post))) := by
    simp only [List.mem_append, List.mem_cons, not_or]
    exact ⟨hsn _ (by decide), by decide, han _ (by decide), by decide, (no '[' (by decide)).2.1, by decide, (no '[' (by decide)).2.2⟩
  have hpre := (no '[' (by decide)).1
  have hno2 : ¬ cs "[[" <:+: pre ++ ('[' :: (scheme ++ (cs "://" ++ (addr ++ ' ' :: (d ++ [']'])))) ++ post) := by
    rintro ⟨x, y, e⟩
    have e' : x ++ '[' :: ('[' :: y) = pre ++ '[' :: (scheme ++ (cs "://" ++ (addr ++ ' ' :: (d ++ ']' :: post)))) := by
      have : x ++ '[' :: ('[' :: y) = x ++ cs "[[" ++ y := by simp [cs]
      rw [this, e]; simp
    obtain ⟨_, e2⟩ := split_unique hpre hq e'
    exact hq (by rw [← e2]; simp)
  have e5 : sub (p5 k) (fun t => t.group 3) (pre ++ ('[' :: (scheme ++ (cs "://" ++ (addr ++ ' ' :: (d ++ [']'])))) ++ post)) =
      pre ++ ' ' :: d ++ post := by
    have := sub_one (p5 k) (fun t => t.group 3) pre ('[' :: (scheme ++ (cs "://" ++ (addr ++ ' ' :: (d ++ [']']))))) post (by simp) (' ' :: d) ?_ ?_ ?_
    · simpa using this
    · intro x y e hy; exact skip_pre (p5_starts k) pre _ hpre x y e hy _ _
    · obtain ⟨c0, s0, rfl⟩ : ∃ c0 s0, scheme = c0 :: s0 := by
        cases scheme with
        | nil => exact absurd rfl hs.1
        | cons c0 s0 => exact ⟨c0, s0, rfl⟩
      have e1 : '[' :: (c0 :: s0 ++ (cs "://" ++ (addr ++ ' ' :: (d ++ [']'])))) ++ post =
          '[' :: c0 :: (s0 ++ (cs "://" ++ (addr ++ ' ' :: (d ++ ']' :: post)))) := by simp
      rw [e1]
      have r1 : ∀ (r : Re) (c : Char) (f : Char → Bool) (hf : f c = true) (q l : Str),
          (Re.seq (.chr f) r).run ⟨q, c :: l, []⟩ = r.run ⟨c :: q, l, []⟩ := by
        intro r c f hf q l
        rw [Re.run]
        have : (Re.chr f).run ⟨q, c :: l, []⟩ = [⟨c :: q, l, []⟩] := by
          unfold Re.run
          dsimp only
          rw [if_pos hf]
        rw [this, List.flatMap_cons, List.flatMap_nil, List.append_nil]
      have ep : (p5 k).run ⟨pre.reverse, '[' :: c0 :: (s0 ++ (cs "://" ++ (addr ++ ' ' :: (d ++ ']' :: post)))), []⟩ =
          (Re.seq (.star true (.chr k.word)) (Re.seq (lit (cs "://")) (Re.seq (.star false dot) urlEnd))).run
            ⟨c0 :: '[' :: pre.reverse, s0 ++ (cs "://" ++ (addr ++ ' ' :: (d ++ ']' :: post))), []⟩ := by
        show (Re.seq (.chr _) (Re.seq (Re.seq (.chr k.word) (.star true (.chr k.word))) _)).run _ = _
        rw [r1 _ '[' _ (by simp), seq_assoc_run, r1 _ c0 _ (hs.2 c0 (by simp))]
        rfl
      have hue := urlEnd_run (addr.reverse ++ ((cs "://").reverse ++ (s0.reverse ++ c0 :: '[' :: pre.reverse))) d post
        (fun c hc => ⟨fun e => hd (e ▸ hc), fun e => (no ']' (by decide)).2.1 (e ▸ hc)⟩) (no ']' (by decide)).2.2
      have h3 : ((Re.seq (.star false dot) urlEnd).run ⟨(cs "://").reverse ++ (s0.reverse ++ c0 :: '[' :: pre.reverse),
          addr ++ ' ' :: (d ++ ']' :: post), []⟩).head? = (urlEnd.run ⟨addr.reverse ++ ((cs "://").reverse ++ (s0.reverse ++ c0 :: '[' :: pre.reverse)),
          ' ' :: (d ++ ']' :: post), []⟩).head? := by
        apply lazy_head
        · intro c hc
          have : c ≠ '\n' := fun e => han '\n' (by decide) (e ▸ hc)
          simpa using this
        · intro x y e hy
          rw [List.eq_nil_iff_forall_not_mem]
          intro t ht
          obtain ⟨v, hv, ht⟩ := (mem_seq _ _ _ _).1 ht
          obtain ⟨w, hw, rfl⟩ := (mem_cap _ _ _ _).1 hv
          obtain ⟨y1, y2, rfl⟩ : ∃ y1 y2, y = y1 :: y2 := by
            cases y with
            | nil => exact absurd rfl hy
            | cons y1 y2 => exact ⟨y1, y2, rfl⟩
          have hy1 : y1 ∈ addr := by rw [e]; simp
          rcases (mem_alt _ _ _ _).1 hw with hw | hw
          · obtain ⟨z, hz, _⟩ := (mem_seq _ _ _ _).1 hw
            obtain ⟨c, f1, f2, _⟩ := (mem_chr _ _ _).1 hz
            have : c = ' ' := by simpa using f1
            subst this
            injection f2 with f3 _
            exact han ' ' (by decide) (f3 ▸ hy1)
          · rcases List.mem_singleton.1 hw with rfl
            obtain ⟨c, f1, f2, _⟩ := (mem_chr _ _ _).1 ht
            have : c = ']' := by simpa using f1
            subst this
            injection f2 with f3 _
            exact han ']' (by decide) (f3 ▸ hy1)
        · exact hue.1
      have hne3 : (Re.seq (.star false dot) urlEnd).run ⟨(cs "://").reverse ++ (s0.reverse ++ c0 :: '[' :: pre.reverse),
          addr ++ ' ' :: (d ++ ']' :: post), []⟩ ≠ [] := by
        intro h
        rw [h] at h3
        exact hue.1 (List.head?_eq_none_iff.1 h3.symm)
      have h4 := lit_seq_run (cs "://") (Re.seq (.star false dot) urlEnd) (s0.reverse ++ c0 :: '[' :: pre.reverse)
        (addr ++ ' ' :: (d ++ ']' :: post)) []
      have h5 := greedy_head k.word (Re.seq (lit (cs "://")) (Re.seq (.star false dot) urlEnd)) s0 (c0 :: '[' :: pre.reverse)
        (cs "://" ++ (addr ++ ' ' :: (d ++ ']' :: post))) [] (fun c hc => hs.2 c (by simp [hc]))
        (by
          intro c l hl
          have : cs "://" = [':', '/', '/'] := by decide
          rw [this] at hl
          injection hl with g _
          subst g
          exact hk ':' (by decide))
        (by rw [h4]; exact hne3)
      rw [ep, h5, h4, h3]
      obtain ⟨t, g1, g2, g3, g4⟩ := head_of_all _ _ hue.1 hue.2
      refine ⟨t, g1, g2, ?_, g4⟩
      rw [g3]
      simp
    · intro x y e _; exact skip_post (p5_starts k) post (no '[' (by decide)).2.2 x y e _ _
  apply markup_no_link k p b _ _ hno2 (hnot '{' (by decide)) ?_ h
  have e6 : sub p6 (fun t => t.group 2) (pre ++ ' ' :: d ++ post) = pre ++ ' ' :: d ++ post := p6_id _ _ (h.not_mem '|' (by decide))
  unfold Verif.Wiki.round linkPass
  dsimp only
  rw [tagPass_id _ (hnot '<' (by decide)), p14_id _ hno2, e5, e6, ite_self, tablePass_id k _ h.quiet]

/-! ## Categories, captions and languages -/

/-- A category is removed, and nothing else. -/
theorem C139_category (k : Cls) (p b : Bool) (pre x post : Str) (h : Simple (pre ++ post)) (hx : ∀ c ∈ x, c ∉ cs "<[]{") :
    removeMarkup k p b (pre ++ (cs "[[Category:" ++ (x ++ cs "]]")) ++ post) = pre ++ post := by
  have no : ∀ c ∈ cs "<[]{|", c ∉ pre ∧ c ∉ post := by
    intro c hc
    have := h.not_mem c hc
    simpa only [List.mem_append, not_or] using this
  have nx : ∀ c ∈ cs "<[]{", c ∉ x := fun c hc hm => hx c hm hc
  have hnot : ∀ c ∈ cs "<{", c ∉ pre ++ (cs "[[Category:" ++ (x ++ cs "]]")) ++ post := by
    intro c hc
    have hc' : c ∈ cs "<[]{|" ∧ c ∈ cs "<[]{" ∧ c ∉ cs "[[Category:" ∧ c ∉ cs "]]" := by
      have : c = '<' ∨ c = '{' := by simpa [cs] using hc
      rcases this with rfl | rfl <;> decide
    obtain ⟨g1, g2, g3, g4⟩ := hc'
    simp only [List.mem_append, not_or]
    exact ⟨⟨(no c g1).1, g3, nx c g2, g4⟩, (no c g1).2⟩
  have hpre := (no '[' (by decide)).1
  have es : pre ++ (cs "[[Category:" ++ (x ++ cs "]]")) ++ post = pre ++ '[' :: '[' :: ('C' :: (cs "ategory:" ++ (x ++ (cs "]]" ++ post)))) := by
    simp [cs]
  have hq : '[' ∉ 'C' :: (cs "ategory:" ++ (x ++ (cs "]]" ++ post))) := by
    simp only [List.mem_cons, List.mem_append, not_or]
    exact ⟨by decide, by decide, nx _ (by decide), by decide, (no '[' (by decide)).2⟩
  have e2 : sub (p2 k) (const []) (pre ++ (cs "[[Category:" ++ (x ++ cs "]]")) ++ post) = pre ++ (cs "[[Category:" ++ (x ++ cs "]]")) ++ post := by
    apply sub_none
    intro a y e _
    rw [List.eq_nil_iff_forall_not_mem]
    intro v hv
    obtain ⟨c1, c2, u, z, g1, g2, _, _⟩ := p2_mem k _ _ hv
    dsimp only at g1
    have e1 : (a ++ ['\n']) ++ '[' :: '[' :: (c1 :: c2 :: (u ++ ':' :: z)) = pre ++ '[' :: '[' :: ('C' :: (cs "ategory:" ++ (x ++ (cs "]]" ++ post)))) := by
      rw [← es, e, g1]; simp [cs]
    obtain ⟨_, e3⟩ := split_open hpre hq e1
    injection e3 with e4 _
    rw [e4] at g2
    exact absurd g2.1 (by decide)
  have e15 : removeFile (pre ++ (cs "[[Category:" ++ (x ++ cs "]]")) ++ post) = pre ++ (cs "[[Category:" ++ (x ++ cs "]]")) ++ post := by
    have : finditer p15 (pre ++ (cs "[[Category:" ++ (x ++ cs "]]")) ++ post) = [] := by
      apply find_none
      intro a y e _
      rw [List.eq_nil_iff_forall_not_mem]
      intro v hv
      obtain ⟨v1, h1, hv⟩ := (mem_seq _ _ _ _).1 hv
      obtain ⟨v2, h2, _⟩ := (mem_seq _ _ _ _).1 hv
      have e1 := ((mem_lit _ _ _).1 h1).1
      dsimp only at e1
      have key : ∀ c l, v1.rest = c :: l → c = 'C' := by
        intro c l hl
        have e3 : a ++ '[' :: '[' :: (c :: l) = pre ++ '[' :: '[' :: ('C' :: (cs "ategory:" ++ (x ++ (cs "]]" ++ post)))) := by
          rw [← es, e, e1, hl]; simp [cs]
        obtain ⟨_, e4⟩ := split_open hpre hq e3
        injection e4
      rcases (mem_alt _ _ _ _).1 h2 with h2 | h2
      · obtain ⟨v3, h3, _⟩ := (mem_seq _ _ _ _).1 h2
        obtain ⟨c, f1, f2, _⟩ := (mem_chr _ _ _).1 h3
        rw [key _ _ f2] at f1
        exact absurd f1 (by decide)
      · obtain ⟨v3, h3, _⟩ := (mem_seq _ _ _ _).1 h2
        obtain ⟨c, f1, f2, _⟩ := (mem_chr _ _ _).1 h3
        rw [key _ _ f2] at f1
        exact absurd f1 (by decide)
    unfold removeFile
    rw [this]
    rfl
  have e14 : sub p14 (const []) (pre ++ (cs "[[Category:" ++ (x ++ cs "]]")) ++ post) = pre ++ post := by
    rw [List.append_assoc]
    have := sub_one p14 (const []) pre (cs "[[Category:" ++ (x ++ cs "]]")) post (by simp [cs]) [] ?_ ?_ ?_
    · simpa using this
    · intro a y e hy; exact skip_pre p14_starts pre _ hpre a y e hy _ _
    · have e1 : p14.run ⟨pre.reverse, cs "[[Category:" ++ (x ++ cs "]]") ++ post, []⟩ =
          (Re.seq (.star true (.chr notBr)) (lit (cs "]]"))).run ⟨(cs "[[Category:").reverse ++ pre.reverse, x ++ (cs "]]" ++ post), []⟩ := by
        rw [List.append_assoc, List.append_assoc]
        exact lit_seq_run _ _ _ _ _
      have hall := head_of_all (p14.run ⟨pre.reverse, cs "[[Category:" ++ (x ++ cs "]]") ++ post, []⟩)
        (fun v => v.rest = post ∧ v.pre = (pre ++ (cs "[[Category:" ++ (x ++ cs "]]"))).reverse) ?_ ?_
      · obtain ⟨v, g1, g2, g3⟩ := hall
        exact ⟨v, g1, g2, g3, rfl⟩
      · rw [e1]
        intro h
        have : (⟨(cs "]]").reverse ++ (x.reverse ++ ((cs "[[Category:").reverse ++ pre.reverse)), post, []⟩ : St) ∈
            (Re.seq (.star true (.chr notBr)) (lit (cs "]]"))).run ⟨(cs "[[Category:").reverse ++ pre.reverse, x ++ (cs "]]" ++ post), []⟩ := by
          refine (mem_seq _ _ _ _).2 ⟨⟨x.reverse ++ ((cs "[[Category:").reverse ++ pre.reverse), cs "]]" ++ post, []⟩,
            (mem_star_chr _ _ _ _).2 ⟨x, ?_, rfl, rfl, rfl⟩, (mem_lit _ _ _).2 ⟨rfl, rfl, rfl⟩⟩
          intro c hc
          have g1 : c ≠ '[' := fun e => nx '[' (by decide) (e ▸ hc)
          have g2 : c ≠ ']' := fun e => nx ']' (by decide) (e ▸ hc)
          simp [notBr, g1, g2]
        rw [h] at this
        simp at this
      · intro v hv
        have hv0 := hv
        rw [e1] at hv
        obtain ⟨w, h1, h2⟩ := (mem_seq _ _ _ _).1 hv
        obtain ⟨u, f1, f2, _⟩ := (mem_star_chr _ _ _ _).1 h1
        have f3 := ((mem_lit _ _ _).1 h2).1
        dsimp only at f2
        have hun : ']' ∉ u := fun hm => absurd (f1 _ hm) (by decide)
        have e4 : u ++ ']' :: (']' :: v.rest) = x ++ ']' :: (']' :: post) := by
          have : x ++ (cs "]]" ++ post) = u ++ (cs "]]" ++ v.rest) := by rw [f2, f3]
          simpa [cs] using this.symm
        obtain ⟨_, e5⟩ := split_first (nx ']' (by decide)) hun e4
        injection e5 with _ e6
        refine ⟨e6, ?_⟩
        obtain ⟨u0, hu0⟩ := run_eats _ _ _ hv0
        have := hu0.rest
        dsimp only at this
        rw [e6] at this
        have hu : u0 = cs "[[Category:" ++ (x ++ cs "]]") := (List.append_cancel_right this).symm
        rw [hu0.pre, hu, List.reverse_append (as := pre)]
    · intro a y e _; exact skip_post p14_starts post (no '[' (by decide)).2 a y e _ _
  apply markup_of k p b _ _ e2 (hnot '{' (by decide)) e15 ?_ h
  have hb := h.not_mem '[' (by decide)
  have hb' : ∀ c ∈ pre ++ post, decide (c = '[') = false := by
    intro c hc
    simp only [decide_eq_false_iff_not]
    rintro rfl
    exact hb hc
  unfold Verif.Wiki.round linkPass
  dsimp only
  rw [tagPass_id _ (hnot '<' (by decide)), e14, sub_starts (p5_starts k) _ _ hb', sub_starts p6_starts _ _ hb', ite_self, tablePass_id k _ h.quiet]

theorem replaceOnce_at (m new pre post : Str) (c : Char) (h : c ∉ pre) : replaceOnce (c :: m) new (pre ++ (c :: m) ++ post) = pre ++ new ++ post := by
  induction pre with
  | nil =>
    rw [List.nil_append, List.nil_append, List.cons_append, replaceOnce, if_pos]
    · rw [← List.cons_append, List.drop_left]
    · rw [List.isPrefixOf_iff_prefix]
      exact ⟨post, by simp⟩
  | cons d pre ih =>
    rw [List.cons_append, List.cons_append, replaceOnce, if_neg, ih (fun hm => h (by simp [hm]))]
    · rfl
    · intro hp
      obtain ⟨z, hz⟩ := List.isPrefixOf_iff_prefix.1 hp
      injection hz with h1 _
      exact h (by simp [h1])

theorem caption_eq (a cap : Str) (h : '|' ∉ cap) : caption (a ++ '|' :: cap ++ [']', ']']) = cap := by
  unfold caption
  rw [show (a ++ '|' :: cap ++ [']', ']']).length - 2 = (a ++ '|' :: cap).length by simp; omega, List.take_left, List.reverse_append, List.reverse_cons,
    List.append_assoc, List.takeWhile_append_of_pos]
  · simp
  · intro c hc
    simp only [decide_not, Bool.not_eq_eq_eq_not, Bool.not_true, decide_eq_false_iff_not]
    rintro rfl
    exact h (List.mem_reverse.1 hc)

/-- Of a picture, the caption is left. -/
theorem C139_file (k : Cls) (p b : Bool) (pre x cap post : Str) (kind : String) (hkind : kind ∈ ["File:", "Image:"])
    (h : Simple (pre ++ cap ++ post)) (hx : '[' ∉ x ∧ ']' ∉ x ∧ '{' ∉ x) :
    removeMarkup k p b (pre ++ (cs "[[" ++ cs kind ++ x ++ cs "|" ++ cap ++ cs "]]") ++ post) = pre ++ cap ++ post := by
  obtain ⟨c0, r0, hc0, hr0⟩ : ∃ c0 r0, cs kind = c0 :: r0 ∧ ((c0 = 'F' ∧ r0 = cs "ile:") ∨ (c0 = 'I' ∧ r0 = cs "mage:")) := by
    simp only [List.mem_cons, List.not_mem_nil, or_false] at hkind
    rcases hkind with rfl | rfl
    · exact ⟨'F', cs "ile:", by decide, Or.inl ⟨rfl, rfl⟩⟩
    · exact ⟨'I', cs "mage:", by decide, Or.inr ⟨rfl, rfl⟩⟩
  have no : ∀ c ∈ cs "<[]{|", c ∉ pre ∧ c ∉ cap ∧ c ∉ post := by
    intro c hc
    have := h.not_mem c hc
    simp only [List.mem_append, not_or] at this
    exact ⟨this.1.1, this.1.2, this.2⟩
  have hpre := (no '[' (by decide)).1
  have es : pre ++ (cs "[[" ++ cs kind ++ x ++ cs "|" ++ cap ++ cs "]]") ++ post = pre ++ '[' :: '[' :: (c0 :: (r0 ++ (x ++ '|' :: (cap ++ ']' :: ']' :: post)))) := by
    rw [hc0]; simp [cs]
  have em : (cs "[[" ++ cs kind ++ x ++ cs "|" ++ cap ++ cs "]]") = '[' :: ('[' :: c0 :: (r0 ++ (x ++ '|' :: (cap ++ [']', ']'])))) := by
    rw [hc0]; simp [cs]
  have hkn : ∀ c ∈ cs "[]{", c ≠ c0 ∧ c ∉ r0 := by
    intro c hc
    have : c = '[' ∨ c = ']' ∨ c = '{' := by simpa [cs] using hc
    rcases hr0 with ⟨rfl, rfl⟩ | ⟨rfl, rfl⟩ <;> rcases this with rfl | rfl | rfl <;> decide
  have hq : '[' ∉ c0 :: (r0 ++ (x ++ '|' :: (cap ++ ']' :: ']' :: post))) := by
    simp only [List.mem_cons, List.mem_append, not_or]
    exact ⟨(hkn '[' (by decide)).1, (hkn '[' (by decide)).2, hx.1, by decide, (no '[' (by decide)).2.1, by decide, by decide, (no '[' (by decide)).2.2⟩
  have hbr : '{' ∉ pre ++ '[' :: '[' :: (c0 :: (r0 ++ (x ++ '|' :: (cap ++ ']' :: ']' :: post)))) := by
    simp only [List.mem_cons, List.mem_append, not_or]
    exact ⟨(no '{' (by decide)).1, by decide, by decide, (hkn '{' (by decide)).1, (hkn '{' (by decide)).2, hx.2.2, by decide,
      (no '{' (by decide)).2.1, by decide, by decide, (no '{' (by decide)).2.2⟩
  have e2 : sub (p2 k) (const []) (pre ++ '[' :: '[' :: (c0 :: (r0 ++ (x ++ '|' :: (cap ++ ']' :: ']' :: post))))) =
      pre ++ '[' :: '[' :: (c0 :: (r0 ++ (x ++ '|' :: (cap ++ ']' :: ']' :: post)))) := by
    apply sub_none
    intro a y e _
    rw [List.eq_nil_iff_forall_not_mem]
    intro v hv
    obtain ⟨c1, c2, u, z, g1, g2, _, _⟩ := p2_mem k _ _ hv
    dsimp only at g1
    have e1 : (a ++ ['\n']) ++ '[' :: '[' :: (c1 :: c2 :: (u ++ ':' :: z)) = pre ++ '[' :: '[' :: (c0 :: (r0 ++ (x ++ '|' :: (cap ++ ']' :: ']' :: post)))) := by
      rw [e, g1]; simp [cs]
    obtain ⟨_, e3⟩ := split_open hpre hq e1
    injection e3 with e4 _
    rw [e4] at g2
    rcases hr0 with ⟨rfl, _⟩ | ⟨rfl, _⟩ <;> exact absurd g2.1 (by decide)
  have hfind : finditer p15 (pre ++ ((cs "[[" ++ cs kind ++ x ++ cs "|" ++ cap ++ cs "]]") ++ post)) = [cs "[[" ++ cs kind ++ x ++ cs "|" ++ cap ++ cs "]]"] := by
    have hst : Starts p15 (fun x => decide (x = '[')) := starts_seq (starts_lit '[' ['[']) _
    apply find_one
    · simp [cs]
    · intro a y e hy; exact skip_pre hst pre _ hpre a y e hy _ _
    · have e1 : p15.run ⟨pre.reverse, (cs "[[" ++ cs kind ++ x ++ cs "|" ++ cap ++ cs "]]") ++ post, []⟩ =
          (Re.seq (.alt (.seq (.chr fun c => c = 'f' || c = 'F') (lit (cs "ile:"))) (.seq (.chr fun c => c = 'i' || c = 'I') (lit (cs "mage"))))
            (Re.seq (.star true (.chr fun c => c ≠ ']')) (lit (cs "]]")))).run
            ⟨(cs "[[").reverse ++ pre.reverse, cs kind ++ (x ++ '|' :: (cap ++ (cs "]]" ++ post))), []⟩ := by
        rw [show (cs "[[" ++ cs kind ++ x ++ cs "|" ++ cap ++ cs "]]") ++ post = cs "[[" ++ (cs kind ++ (x ++ '|' :: (cap ++ (cs "]]" ++ post)))) by
          simp [show cs "|" = ['|'] by decide]]
        exact lit_seq_run _ _ _ _ _
      have hall := head_of_all (p15.run ⟨pre.reverse, (cs "[[" ++ cs kind ++ x ++ cs "|" ++ cap ++ cs "]]") ++ post, []⟩)
        (fun v => v.rest = post ∧ v.pre = (pre ++ (cs "[[" ++ cs kind ++ x ++ cs "|" ++ cap ++ cs "]]")).reverse) ?_ ?_
      · obtain ⟨v, g1, g2, g3⟩ := hall
        exact ⟨v, g1, g2, g3⟩
      · rw [e1]
        intro hnil
        have hmem : ∀ (w : Str), cs kind ++ (x ++ '|' :: cap) = w ++ (cs kind ++ (x ++ '|' :: cap)).drop w.length → ']' ∉ (cs kind ++ (x ++ '|' :: cap)) := by
          intro w _
          rw [hc0]
          simp only [List.cons_append, List.mem_cons, List.mem_append, not_or]
          exact ⟨(hkn ']' (by decide)).1, (hkn ']' (by decide)).2, hx.2.1, by decide, (no ']' (by decide)).2.1⟩
        have hstar : ∀ (q l : Str), ']' ∉ l → (⟨(cs "]]").reverse ++ (l.reverse ++ q), post, []⟩ : St) ∈
            (Re.seq (.star true (.chr fun c => decide (c ≠ ']'))) (lit (cs "]]"))).run ⟨q, l ++ (cs "]]" ++ post), []⟩ := by
          intro q l hl
          refine (mem_seq _ _ _ _).2 ⟨⟨l.reverse ++ q, cs "]]" ++ post, []⟩, (mem_star_chr _ _ _ _).2 ⟨l, ?_, rfl, rfl, rfl⟩,
            (mem_lit _ _ _).2 ⟨rfl, rfl, rfl⟩⟩
          intro c hc
          simp only [decide_eq_true_eq]
          rintro rfl
          exact hl hc
        have hlx : ']' ∉ x ++ '|' :: cap := by
          simp only [List.mem_append, List.mem_cons, not_or]
          exact ⟨hx.2.1, by decide, (no ']' (by decide)).2.1⟩
        rcases hr0 with ⟨rfl, rfl⟩ | ⟨rfl, rfl⟩
        · have : ∃ t, t ∈ (Re.seq (.alt (.seq (.chr fun c => c = 'f' || c = 'F') (lit (cs "ile:"))) (.seq (.chr fun c => c = 'i' || c = 'I') (lit (cs "mage"))))
              (Re.seq (.star true (.chr fun c => c ≠ ']')) (lit (cs "]]")))).run
              ⟨(cs "[[").reverse ++ pre.reverse, cs kind ++ (x ++ '|' :: (cap ++ (cs "]]" ++ post))), []⟩ := by
            refine ⟨_, (mem_seq _ _ _ _).2 ⟨⟨(cs "ile:").reverse ++ 'F' :: ((cs "[[").reverse ++ pre.reverse), (x ++ '|' :: cap) ++ (cs "]]" ++ post), []⟩,
              (mem_alt _ _ _ _).2 (Or.inl ((mem_seq _ _ _ _).2
                ⟨⟨'F' :: ((cs "[[").reverse ++ pre.reverse), cs "ile:" ++ (x ++ '|' :: (cap ++ (cs "]]" ++ post))), []⟩,
                  (mem_chr _ _ _).2 ⟨'F', by decide, by rw [hc0]; rfl, rfl, rfl⟩, (mem_lit _ _ _).2 ⟨by simp, rfl, rfl⟩⟩)), hstar _ _ hlx⟩⟩
          obtain ⟨t, ht⟩ := this
          rw [hnil] at ht
          simp at ht
        · have : ∃ t, t ∈ (Re.seq (.alt (.seq (.chr fun c => c = 'f' || c = 'F') (lit (cs "ile:"))) (.seq (.chr fun c => c = 'i' || c = 'I') (lit (cs "mage"))))
              (Re.seq (.star true (.chr fun c => c ≠ ']')) (lit (cs "]]")))).run
              ⟨(cs "[[").reverse ++ pre.reverse, cs kind ++ (x ++ '|' :: (cap ++ (cs "]]" ++ post))), []⟩ := by
            have hlx' : ']' ∉ ':' :: (x ++ '|' :: cap) := by
              simp only [List.mem_cons, not_or] at hlx ⊢
              exact ⟨by decide, hlx⟩
            refine ⟨_, (mem_seq _ _ _ _).2 ⟨⟨(cs "mage").reverse ++ 'I' :: ((cs "[[").reverse ++ pre.reverse), (':' :: (x ++ '|' :: cap)) ++ (cs "]]" ++ post), []⟩,
              (mem_alt _ _ _ _).2 (Or.inr ((mem_seq _ _ _ _).2
                ⟨⟨'I' :: ((cs "[[").reverse ++ pre.reverse), cs "mage" ++ (':' :: (x ++ '|' :: (cap ++ (cs "]]" ++ post)))), []⟩,
                  (mem_chr _ _ _).2 ⟨'I', by decide, by rw [hc0]; rfl, rfl, rfl⟩, (mem_lit _ _ _).2 ⟨by simp, rfl, rfl⟩⟩)), hstar _ _ hlx'⟩⟩
          obtain ⟨t, ht⟩ := this
          rw [hnil] at ht
          simp at ht
      · intro v hv
        obtain ⟨u0, hu0⟩ := run_eats _ _ _ hv
        obtain ⟨v1, g1, hv⟩ := (mem_seq _ _ _ _).1 hv
        obtain ⟨v2, g2, hv⟩ := (mem_seq _ _ _ _).1 hv
        obtain ⟨v3, g3, g4⟩ := (mem_seq _ _ _ _).1 hv
        obtain ⟨u, f1, f2, _⟩ := (mem_star_chr _ _ _ _).1 g3
        have f3 := ((mem_lit _ _ _).1 g4).1
        have f4 := ((mem_lit _ _ _).1 g1).1
        obtain ⟨w, hw⟩ := run_eats _ _ _ g2
        dsimp only at f4
        have hun : ']' ∉ u := by
          intro hm
          have := f1 _ hm
          exact absurd this (by decide)
        have hwn : ']' ∉ w := by
          have hww : w = 'f' :: cs "ile:" ∨ w = 'F' :: cs "ile:" ∨ w = 'i' :: cs "mage" ∨ w = 'I' :: cs "mage" := by
            rcases (mem_alt _ _ _ _).1 g2 with g2 | g2
            · obtain ⟨z, i1, i2⟩ := (mem_seq _ _ _ _).1 g2
              obtain ⟨c, j1, j2, _⟩ := (mem_chr _ _ _).1 i1
              have j3 := ((mem_lit _ _ _).1 i2).1
              have : w ++ v2.rest = (c :: cs "ile:") ++ v2.rest := by rw [← hw.rest, j2, j3]; rfl
              have := List.append_cancel_right this
              simp only [Bool.or_eq_true, decide_eq_true_eq] at j1
              rcases j1 with rfl | rfl
              · exact Or.inl this
              · exact Or.inr (Or.inl this)
            · obtain ⟨z, i1, i2⟩ := (mem_seq _ _ _ _).1 g2
              obtain ⟨c, j1, j2, _⟩ := (mem_chr _ _ _).1 i1
              have j3 := ((mem_lit _ _ _).1 i2).1
              have : w ++ v2.rest = (c :: cs "mage") ++ v2.rest := by rw [← hw.rest, j2, j3]; rfl
              have := List.append_cancel_right this
              simp only [Bool.or_eq_true, decide_eq_true_eq] at j1
              rcases j1 with rfl | rfl
              · exact Or.inr (Or.inr (Or.inl this))
              · exact Or.inr (Or.inr (Or.inr this))
          rcases hww with rfl | rfl | rfl | rfl <;> decide
        have e4 : (w ++ u) ++ ']' :: (']' :: v.rest) = (c0 :: (r0 ++ (x ++ '|' :: cap))) ++ ']' :: (']' :: post) := by
          have f5 : cs "[[" ++ (c0 :: (r0 ++ (x ++ '|' :: cap)) ++ ']' :: ']' :: post) = cs "[[" ++ (w ++ (u ++ (cs "]]" ++ v.rest))) := by
            rw [← f3, ← f2, ← hw.rest, ← f4, em]; simp [cs]
          have := List.append_cancel_left f5
          rw [this]; simp [cs]
        have hkr : ']' ∉ c0 :: (r0 ++ (x ++ '|' :: cap)) := by
          simp only [List.mem_cons, List.mem_append, not_or]
          exact ⟨(hkn ']' (by decide)).1, (hkn ']' (by decide)).2, hx.2.1, by decide, (no ']' (by decide)).2.1⟩
        obtain ⟨_, e5⟩ := split_first hkr (by simp only [List.mem_append, not_or]; exact ⟨hwn, hun⟩) e4
        injection e5 with _ e6
        refine ⟨e6, ?_⟩
        have := hu0.rest
        dsimp only at this
        rw [e6] at this
        have hu := (List.append_cancel_right this).symm
        rw [hu0.pre, hu, List.reverse_append (as := pre)]
    · intro a y e _; exact skip_post hst post (no '[' (by decide)).2.2 a y e _ _
  have ef : removeFile (pre ++ (cs "[[" ++ cs kind ++ x ++ cs "|" ++ cap ++ cs "]]") ++ post) = pre ++ cap ++ post := by
    unfold removeFile
    rw [List.append_assoc, hfind, List.foldl_cons, List.foldl_nil, ← List.append_assoc]
    have hcap : caption (cs "[[" ++ cs kind ++ x ++ cs "|" ++ cap ++ cs "]]") = cap := by
      have := caption_eq (cs "[[" ++ cs kind ++ x) cap (no '|' (by decide)).2.1
      rw [show cs "[[" ++ cs kind ++ x ++ cs "|" ++ cap ++ cs "]]" = cs "[[" ++ cs kind ++ x ++ '|' :: cap ++ [']', ']'] by simp [cs]]
      exact this
    rw [hcap, em]
    exact replaceOnce_at _ _ _ _ _ hpre
  unfold removeMarkup
  simp only
  rw [es, e2, noOpen_of hbr, ← es, ef, rounds_simple k b _ _ (h.round k b) h, promote_eq, h.promote, ite_self]

/-- a link to the page in another language, on a line of its own -/
def langLink (p : Str × Str) : Str := cs "\n[[" ++ (p.1 ++ ':' :: (p.2 ++ cs "]]"))

/-- a code of a language (two small letters, then letters or hyphens), and the name of a page -/
def LangLink (k : Cls) (p : Str × Str) : Prop :=
  (∃ c1 c2 u, p.1 = c1 :: c2 :: u ∧ ('a' ≤ c1 ∧ c1 ≤ 'z') ∧ ('a' ≤ c2 ∧ c2 ≤ 'z') ∧ ∀ c ∈ u, k.word c = true ∨ c = '-') ∧
  p.2 ≠ [] ∧ ∀ c ∈ p.2, c ≠ ':' ∧ c ≠ ']'

theorem lang_mem (k : Cls) (p : Str × Str) (h : LangLink k p) (q v : Str) :
    (⟨(langLink p).reverse ++ q, v, []⟩ : St) ∈ (lang k).run ⟨q, langLink p ++ v, []⟩ := by
  obtain ⟨l, x⟩ := p
  obtain ⟨⟨c1, c2, u, h1, h2, h3, h4⟩, h5, h6⟩ := h
  dsimp only at h1 h5 h6
  subst h1
  cases x with
  | nil => exact absurd rfl h5
  | cons d x =>
    refine (mem_seq _ _ _ _).2 ⟨⟨(cs "\n[[").reverse ++ q, c1 :: c2 :: (u ++ ':' :: (d :: x ++ (cs "]]" ++ v))), []⟩,
      (mem_lit _ _ _).2 ⟨by simp [langLink], rfl, rfl⟩, ?_⟩
    refine (mem_seq _ _ _ _).2 ⟨⟨c1 :: ((cs "\n[[").reverse ++ q), c2 :: (u ++ ':' :: (d :: x ++ (cs "]]" ++ v))), []⟩,
      (mem_chr _ _ _).2 ⟨c1, by simpa using h2, rfl, rfl, rfl⟩, ?_⟩
    refine (mem_seq _ _ _ _).2 ⟨⟨c2 :: c1 :: ((cs "\n[[").reverse ++ q), u ++ ':' :: (d :: x ++ (cs "]]" ++ v)), []⟩,
      (mem_chr _ _ _).2 ⟨c2, by simpa using h3, rfl, rfl, rfl⟩, ?_⟩
    refine (mem_seq _ _ _ _).2 ⟨⟨u.reverse ++ c2 :: c1 :: ((cs "\n[[").reverse ++ q), ':' :: (d :: x ++ (cs "]]" ++ v)), []⟩,
      (mem_star_chr _ _ _ _).2 ⟨u, by intro c hc; simpa using h4 c hc, rfl, rfl, rfl⟩, ?_⟩
    refine (mem_seq _ _ _ _).2 ⟨⟨':' :: (u.reverse ++ c2 :: c1 :: ((cs "\n[[").reverse ++ q)), d :: x ++ (cs "]]" ++ v), []⟩,
      (mem_chr _ _ _).2 ⟨':', by simp, rfl, rfl, rfl⟩, ?_⟩
    refine (mem_seq _ _ _ _).2 ⟨⟨x.reverse ++ d :: ':' :: (u.reverse ++ c2 :: c1 :: ((cs "\n[[").reverse ++ q)), cs "]]" ++ v, []⟩, ?_,
      (mem_lit _ _ _).2 ⟨rfl, by simp [langLink], rfl⟩⟩
    refine (mem_seq _ _ _ _).2 ⟨⟨d :: ':' :: (u.reverse ++ c2 :: c1 :: ((cs "\n[[").reverse ++ q)), x ++ (cs "]]" ++ v), []⟩,
      (mem_chr _ _ _).2 ⟨d, by simpa using h6 d (by simp), rfl, rfl, rfl⟩, ?_⟩
    exact (mem_star_chr _ _ _ _).2 ⟨x, by intro c hc; simpa using h6 c (by simp [hc]), rfl, rfl, rfl⟩

theorem langLink_length (p : Str × Str) : 0 < (langLink p).length := by simp [langLink, cs]

theorem langs_mem (k : Cls) (ls : List (Str × Str)) (h : ∀ p ∈ ls, LangLink k p) (n : Nat) (hn : ls.length ≤ n) (q : Str) :
    (⟨(ls.flatMap langLink).reverse ++ q, [], []⟩ : St) ∈ starN (lang k).run true n ⟨q, ls.flatMap langLink, []⟩ := by
  induction ls generalizing n q with
  | nil =>
    cases n with
    | zero => simp [starN]
    | succ n => simp [starN]
  | cons p ls ih =>
    cases n with
    | zero => simp at hn
    | succ n =>
      unfold starN
      simp only [if_true, List.mem_append]
      left
      refine List.mem_flatMap.2 ⟨⟨(langLink p).reverse ++ q, ls.flatMap langLink, []⟩, List.mem_filter.2 ⟨?_, ?_⟩, ?_⟩
      · exact lang_mem k p (h p (by simp)) q _
      · have := langLink_length p
        simp only [List.flatMap_cons, List.length_append, decide_eq_true_eq]
        omega
      · have := ih (fun p hp => h p (by simp [hp])) n (by simpa using hn) ((langLink p).reverse ++ q)
        simpa using this

theorem langs_last (ls : List (Str × Str)) (h : ls ≠ []) : ∃ z, ls.flatMap langLink = z ++ [']'] := by
  induction ls with
  | nil => exact absurd rfl h
  | cons p ls ih =>
    cases ls with
    | nil => exact ⟨cs "\n[[" ++ (p.1 ++ ':' :: (p.2 ++ [']'])), by simp [langLink, cs]⟩
    | cons p' ls =>
      obtain ⟨z, hz⟩ := ih (by simp)
      exact ⟨langLink p ++ z, by rw [List.flatMap_cons, hz, List.append_assoc]⟩

/-- The links to the page in other languages, at the end of the text, are removed. -/
theorem C139_languages (k : Cls) (p b : Bool) (pre : Str) (ls : List (Str × Str)) (h : Simple pre) (hls : ls ≠ []) (hl : ∀ p ∈ ls, LangLink k p) :
    removeMarkup k p b (pre ++ ls.flatMap langLink) = pre := by
  have hpre := h.not_mem '[' (by decide)
  have e2 : sub (p2 k) (const []) (pre ++ ls.flatMap langLink) = pre := by
    have hstart : Starts (p2 k) (fun x => decide (x = '\n')) := starts_seq (starts_seq (starts_seq (starts_lit '\n' _) _) _) _
    have := sub_one (p2 k) (const []) pre (ls.flatMap langLink) [] ?_ [] ?_ ?_ ?_
    · simpa using this
    · obtain ⟨z, hz⟩ := langs_last ls hls
      rw [hz]; simp
    · intro a y e hy
      rw [List.eq_nil_iff_forall_not_mem]
      intro v hv
      obtain ⟨c1, c2, u, z, g1, _⟩ := p2_mem k _ _ hv
      dsimp only at g1
      cases y with
      | nil => exact hy rfl
      | cons y1 y =>
        have g2 : y ++ (ls.flatMap langLink ++ []) = '[' :: '[' :: (c1 :: c2 :: (u ++ ':' :: z)) := by
          have := congrArg List.tail g1
          simpa [cs] using this
        cases y with
        | cons y2 y =>
          injection g2 with g3 _
          exact hpre (by rw [e, g3]; simp)
        | nil =>
          cases ls with
          | nil => exact hls rfl
          | cons p ls =>
            have := congrArg List.head? g2
            simp [langLink, cs] at this
    · have hne : (p2 k).run ⟨pre.reverse, ls.flatMap langLink ++ [], []⟩ ≠ [] := by
        intro hnil
        have : (⟨(ls.flatMap langLink).reverse ++ pre.reverse, [], []⟩ : St) ∈ (p2 k).run ⟨pre.reverse, ls.flatMap langLink ++ [], []⟩ := by
          refine (mem_seq _ _ _ _).2 ⟨⟨(ls.flatMap langLink).reverse ++ pre.reverse, [], []⟩, ?_, ?_⟩
          · cases ls with
            | nil => exact absurd rfl hls
            | cons p ls =>
              refine (mem_seq _ _ _ _).2 ⟨⟨(langLink p).reverse ++ pre.reverse, ls.flatMap langLink, []⟩, ?_, ?_⟩
              · rw [List.append_nil]
                exact lang_mem k p (hl p (by simp)) _ _
              · have hlen : ls.length ≤ (ls.flatMap langLink).length := by
                  clear hls hnil hl
                  induction ls with
                  | nil => simp
                  | cons p' ls ih =>
                    have := langLink_length p'
                    simp only [List.flatMap_cons, List.length_append, List.length_cons]
                    omega
                have := langs_mem k ls (fun p hp => hl p (by simp [hp])) _ hlen ((langLink p).reverse ++ pre.reverse)
                simpa [Re.run] using this
          · simp [seqs, eol, Re.run]
        rw [hnil] at this
        simp at this
      obtain ⟨v, g1, g2⟩ := head_of_all _ (fun v => v.rest = [] ∧ v.pre = (pre ++ ls.flatMap langLink).reverse) hne (by
        intro v hv
        obtain ⟨u0, hu0⟩ := run_eats _ _ _ hv
        obtain ⟨w, _, g2⟩ := (mem_seq _ _ _ _).1 hv
        have hvr : v.rest = [] ∨ v.rest = ['\n'] := by
          unfold seqs eol Re.run at g2
          split at g2
          · rename_i hc
            rcases List.mem_singleton.1 g2 with rfl
            by_cases hw : v.rest = []
            · exact Or.inl hw
            · right
              by_contra hw2
              have : (Re.alt .fin (.seq (ch '\n') .fin)).run v = [] := by
                rw [List.eq_nil_iff_forall_not_mem]
                intro t ht
                rcases (mem_alt _ _ _ _).1 ht with ht | ht
                · unfold Re.run at ht
                  rw [if_neg hw] at ht
                  simp at ht
                · obtain ⟨z, i1, i2⟩ := (mem_seq _ _ _ _).1 ht
                  obtain ⟨c, j1, j2, _⟩ := (mem_chr _ _ _).1 i1
                  have : c = '\n' := by simpa using j1
                  subst this
                  unfold Re.run at i2
                  split at i2
                  · rename_i hz
                    rw [hz] at j2
                    exact hw2 j2
                  · simp at i2
              rw [this] at hc
              simp at hc
          · simp at g2
        have hr := hu0.rest
        dsimp only at hr
        rw [List.append_nil] at hr
        rcases hvr with hvr | hvr
        · refine ⟨hvr, ?_⟩
          rw [hvr, List.append_nil] at hr
          rw [hu0.pre, hr]
          simp
        · exfalso
          obtain ⟨z, hz⟩ := langs_last ls hls
          rw [hvr, hz] at hr
          have := congrArg List.getLast? hr
          simp at this)
      exact ⟨v, g1, g2.1, g2.2, rfl⟩
    · intro x y e hy
      exact absurd (List.append_eq_nil_iff.1 e.symm).2 hy
  unfold removeMarkup
  simp only
  rw [e2, noOpen_of (h.not_mem '{' (by decide)), removeFile_id pre (fun hi => hpre (hi.subset (by simp [cs]))),
    rounds_simple k b _ _ (h.round k b) h, promote_eq, h.promote, ite_self]

/-- A template is removed, and nothing else. -/
theorem C139_template (k : Cls) (p b : Bool) (pre t post : Str) (h : Simple (pre ++ post)) (ht : IsTemplate t) (hb : '[' ∉ t) :
    removeMarkup k p b (pre ++ t ++ post) = pre ++ post := by
  have no : ∀ c ∈ cs "<[]{|", c ∉ pre ∧ c ∉ post := by
    intro c hc
    have := h.not_mem c hc
    simpa only [List.mem_append, not_or] using this
  have hno : '[' ∉ pre ++ t ++ post := by
    simp only [List.mem_append, not_or]
    exact ⟨⟨(no '[' (by decide)).1, hb⟩, (no '[' (by decide)).2⟩
  have e2 := p2_id k (pre ++ t ++ post) (fun hi => hno (hi.subset (by simp [cs])))
  have et : removeTemplate (pre ++ t ++ post) = pre ++ post := by
    have := C59_removes ⟨[(pre, t)], post, []⟩ ⟨?_, ?_, Or.inl rfl⟩
    · simpa [Cut.text, Cut.kept] using this
    · intro q hq
      rcases List.mem_singleton.1 hq with rfl
      refine ⟨⟨fun hi => (no '{' (by decide)).1 (hi.subset (by simp)), ?_⟩, ht⟩
      intro hl
      exact (no '{' (by decide)).1 (List.mem_of_getLast? hl)
    · exact fun hi => (no '{' (by decide)).2 (hi.subset (by simp))
  have hf : removeFile (pre ++ post) = pre ++ post := removeFile_id _ (fun hi => h.not_mem '[' (by decide) (hi.subset (by simp [cs])))
  unfold removeMarkup
  simp only
  rw [e2, et, hf, rounds_simple k b _ _ (h.round k b) h, promote_eq, h.promote, ite_self]

/-! ## Findings -/

/-- ASCII letters, digits and the underscore -/
def exCls : Cls := ⟨fun c => c.isAlphanum || c = '_', fun c => c.isDigit⟩

theorem exCls_ok : exCls.Ok := by
  intro c hc
  have : c = '[' ∨ c = ']' ∨ c = '|' ∨ c = ':' ∨ c = '<' ∨ c = '{' := by simpa [cs] using hc
  rcases this with rfl | rfl | rfl | rfl | rfl | rfl <;> decide

/-- Findings.  Only three levels of links are taken apart: the name of the page of the outermost of four is left in the text.  A line of
plain text that begins with a word like "rowspan" is deleted.  A footnote ends at the first empty element inside it, and the rest of
it is left.  A caption that contains a link is cut at the link.  A picture written in small letters in the last line is taken for a
link to a language, and its caption is deleted.  Braces that come together when a tag between them is removed are left. -/
theorem C139_findings :
    removeMarkup exCls true true (cs "[a|[b|[c|[d|e]]]]") = cs "a|e" ∧
    removeMarkup exCls true true (cs "x\nrowspan is a word\nz") = cs "x\n\nz" ∧
    removeMarkup exCls true true (cs "a<ref>see <br/>there</ref>b") = cs "athereb" ∧
    removeMarkup exCls true true (cs "[[File:x|see [[b|c]] d]]") = cs "c d" ∧
    removeMarkup exCls true true (cs "a\n[[file:x|cap]]") = cs "a" ∧
    removeMarkup exCls true true (cs "a\n[[File:x|cap]]") = cs "a\ncap" ∧
    removeMarkup exCls true true (cs "{<b>{x}}") = cs "{{x}}" := by
  decide +kernel

/-! ### the hypotheses are met -/

theorem simple_of (s : Str) (h : (s.all fun c => decide (c ∉ cs "<[]{|")) = true) (hm : (tableMarks.all fun w => decide (¬ cs w <:+: s)) = true) :
    Simple s where
  chars := fun c hc => by simpa using List.all_eq_true.1 h c hc
  marks := fun w hw => by simpa using List.all_eq_true.1 hm w hw

example : Simple (cs "Hello! See: it's (a) \"text\", {not} a table.") → False := by
  intro h
  exact h.not_mem '{' (by decide) (by decide)
example : Simple (cs "Hello! See: it's (a) text.\nOf two lines; 3 > 2") := simple_of _ (by decide +kernel) (by decide +kernel)
example : Simple (cs "see ") ∧ Simple (cs "New York City") ∧ Simple (cs "the city!") ∧ Simple (cs " now.") :=
  ⟨simple_of _ (by decide +kernel) (by decide +kernel), simple_of _ (by decide +kernel) (by decide +kernel),
    simple_of _ (by decide +kernel) (by decide +kernel), simple_of _ (by decide +kernel) (by decide +kernel)⟩
example : LangLink exCls (cs "de-at", cs "Wien") := ⟨⟨'d', 'e', cs "-at", by decide, by decide, by decide, by decide⟩, by decide, by decide⟩

end Verif.Wiki
