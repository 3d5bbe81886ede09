import Verif.Wiki.SegModel
import Verif.Wiki.CorpusProps
import Mathlib.Tactic.Common
import Mathlib.Tactic.Tauto
import Mathlib.Data.List.Basic

/-!
# C125: sections, links and articles of a segmented Wikipedia dump
-/

namespace Verif.WikiSeg

open Verif Verif.Text

/-! ## Specification -/

/-- What can stand between the equality signs of a recognised heading: at least two characters, the first and the
last of which are not `=`; newlines are possible in first and last place only. -/
def IsHeading (h : Str) : Prop := ∃ c mid d, h = c :: (mid ++ [d]) ∧ c ≠ '=' ∧ d ≠ '=' ∧ '\n' ∉ mid

/-- A heading line with the newlines around it. -/
def headingLine (h : Str) : Str := ['\n', '=', '='] ++ h ++ ['=', '=', '\n']

/-- No heading is recognised in the text. -/
def NoHeading (s : Str) : Prop := ∀ pre h post, IsHeading h → s ≠ pre ++ headingLine h ++ post

/-- A text put together from an introduction and sections. -/
def assemble (intro : Str) (sections : List (Str × Str)) : Str :=
  intro ++ sections.flatMap fun s => headingLine s.1 ++ s.2

/-! ## The matcher -/

theorem headEnd_sound {s h r : Str} (hm : headEnd s = some (h, r)) :
    ∃ d, h = [d] ∧ d ≠ '=' ∧ s = d :: '=' :: '=' :: '\n' :: r := by
  unfold headEnd at hm
  split at hm
  · split at hm
    · cases hm
    · rename_i c r' hc
      cases hm
      exact ⟨c, rfl, hc, rfl⟩
  · cases hm

theorem headStar_sound {s h r : Str} (hm : headStar s = some (h, r)) :
    ∃ mid d, h = mid ++ [d] ∧ d ≠ '=' ∧ '\n' ∉ mid ∧ s = mid ++ d :: '=' :: '=' :: '\n' :: r := by
  induction s generalizing h r with
  | nil => cases hm
  | cons c s ih =>
    unfold headStar at hm
    by_cases hc : c = '\n'
    · rw [if_pos hc] at hm
      obtain ⟨d, rfl, hd, hs⟩ := headEnd_sound hm
      exact ⟨[], d, rfl, hd, by simp, hs⟩
    · rw [if_neg hc] at hm
      cases hs : headStar s with
      | none =>
        rw [hs] at hm
        obtain ⟨d, rfl, hd, hs⟩ := headEnd_sound hm
        exact ⟨[], d, rfl, hd, by simp, hs⟩
      | some p =>
        obtain ⟨h', r'⟩ := p
        rw [hs] at hm
        cases hm
        obtain ⟨mid, d, rfl, hd, hn, rfl⟩ := ih hs
        exact ⟨c :: mid, d, rfl, hd, by simp [hn, Ne.symm hc], rfl⟩

theorem headMatch_sound {s h r : Str} (hm : headMatch s = some (h, r)) :
    IsHeading h ∧ s = headingLine h ++ r := by
  unfold headMatch at hm
  split at hm
  · rename_i c s
    split at hm
    · cases hm
    · rename_i hc
      cases hs : headStar s with
      | none => rw [hs] at hm; cases hm
      | some p =>
        obtain ⟨h', r'⟩ := p
        rw [hs] at hm
        cases hm
        obtain ⟨mid, d, rfl, hd, hn, rfl⟩ := headStar_sound hs
        exact ⟨⟨c, mid, d, rfl, hc, hd, hn⟩, by simp [headingLine]⟩
  · cases hm

theorem headEnd_eq (d : Char) (r : Str) (hd : d ≠ '=') :
    headEnd (d :: '=' :: '=' :: '\n' :: r) = some ([d], r) := by
  simp [headEnd, hd]

theorem headStar_complete (mid : Str) (d : Char) (r : Str) (hd : d ≠ '=') (hn : '\n' ∉ mid) :
    (headStar (mid ++ d :: '=' :: '=' :: '\n' :: r)).isSome := by
  induction mid with
  | nil =>
    rw [List.nil_append, headStar, headEnd_eq d r hd]
    split <;> rfl
  | cons c mid ih =>
    have ih := ih (fun h => hn (List.mem_cons_of_mem _ h))
    have hc : c ≠ '\n' := fun h => hn (by simp [h])
    obtain ⟨p, hp⟩ := Option.isSome_iff_exists.1 ih
    rw [List.cons_append, headStar, if_neg hc, hp]
    rfl

theorem headMatch_complete {h : Str} (hh : IsHeading h) (r : Str) : (headMatch (headingLine h ++ r)).isSome := by
  obtain ⟨c, mid, d, rfl, hc, hd, hn⟩ := hh
  have he : headingLine (c :: (mid ++ [d])) ++ r
      = '\n' :: '=' :: '=' :: c :: (mid ++ d :: '=' :: '=' :: '\n' :: r) := by simp [headingLine]
  obtain ⟨p, hp⟩ := Option.isSome_iff_exists.1 (headStar_complete mid d r hd hn)
  rw [he]
  simp [headMatch, hc, hp]

theorem headMatch_plain (c : Char) (mid : Str) (d : Char) (r : Str) (hc : c ≠ '=') (hd : d ≠ '=')
    (hd' : d ≠ '\n') (hn : '\n' ∉ mid) (hr : ¬ ['=', '=', '\n'] <+: r) :
    headMatch (headingLine (c :: (mid ++ [d])) ++ r) = some (c :: (mid ++ [d]), r) := by
  have h0 : headEnd ('\n' :: r) = none := by
    unfold headEnd
    split
    · rename_i h
      cases h
      exact absurd (by simp) hr
    · rfl
  have h1 : headStar ('\n' :: r) = none := by rw [headStar, if_pos rfl, h0]
  have h2 : headStar ('=' :: '\n' :: r) = none := by
    rw [headStar, if_neg (by decide), h1]
    rfl
  have h3 : headStar ('=' :: '=' :: '\n' :: r) = none := by
    rw [headStar, if_neg (by decide), h2]
    rfl
  have hs : headStar (mid ++ d :: '=' :: '=' :: '\n' :: r) = some (mid ++ [d], r) := by
    induction mid with
    | nil => rw [List.nil_append, headStar, if_neg hd', h3, headEnd_eq d r hd]; rfl
    | cons x mid ih =>
      have hx : x ≠ '\n' := fun h => hn (by simp [h])
      rw [List.cons_append, headStar, if_neg hx, ih (fun h => hn (List.mem_cons_of_mem _ h))]
      rfl
  have he : headingLine (c :: (mid ++ [d])) ++ r
      = '\n' :: '=' :: '=' :: c :: (mid ++ d :: '=' :: '=' :: '\n' :: r) := by simp [headingLine]
  rw [he]
  simp [headMatch, hc, hs]

/-! ## Splitting and finding -/

/-- The text from which a scan finds `first` and then the groups with the text behind each. -/
inductive Decomp (m : Str → Option (Str × Str)) : Str → Str → List (Str × Str) → Prop
  | done (s : Str) (h : ∀ a b, s = a ++ b → m b = none) : Decomp m s s []
  | step (c t g r c' : Str) (secs : List (Str × Str)) (hm : m t = some (g, r))
      (h : ∀ a b, c = a ++ b → b ≠ [] → m (b ++ t) = none) (hr : Decomp m r c' secs) :
      Decomp m (c ++ t) c ((g, c') :: secs)

theorem Decomp.cons {m : Str → Option (Str × Str)} {x : Char} {s c : Str} {secs : List (Str × Str)}
    (hx : m (x :: s) = none) (h : Decomp m s c secs) : Decomp m (x :: s) (x :: c) secs := by
  cases h with
  | done _ h =>
    refine .done _ fun a b hab => ?_
    cases a with
    | nil => rw [List.nil_append] at hab; rw [← hab]; exact hx
    | cons y a =>
      rw [List.cons_append, List.cons.injEq] at hab
      exact h a b hab.2
  | step c t g r c' secs hm h hr =>
    refine .step (x :: c) t g r c' secs hm (fun a b hab hb => ?_) hr
    cases a with
    | nil => rw [List.nil_append] at hab; rw [← hab]; exact hx
    | cons y a =>
      rw [List.cons_append, List.cons.injEq] at hab
      exact h a b hab.2 hb

theorem scan (m : Str → Option (Str × Str)) (hnil : m [] = none)
    (hlen : ∀ s h r, m s = some (h, r) → r.length < s.length) (n : Nat) (s : Str) (hn : s.length ≤ n) :
    ∃ c secs, Decomp m s c secs ∧ findAux m n s = secs.map Prod.fst ∧
      ∀ cur, splitAux m n cur s = (cur ++ c) :: secs.map Prod.snd := by
  induction n generalizing s with
  | zero =>
    have : s = [] := List.length_eq_zero_iff.1 (by omega)
    subst this
    refine ⟨[], [], .done _ fun a b hab => ?_, rfl, fun cur => rfl⟩
    have : b = [] := (List.append_eq_nil_iff.1 hab.symm).2
    rw [this, hnil]
  | succ n ih =>
    cases s with
    | nil =>
      refine ⟨[], [], .done _ fun a b hab => ?_, rfl, fun cur => by simp [splitAux]⟩
      have : b = [] := (List.append_eq_nil_iff.1 hab.symm).2
      rw [this, hnil]
    | cons x s =>
      cases hm : m (x :: s) with
      | none =>
        obtain ⟨c, secs, h1, h2, h3⟩ := ih s (by simpa using hn)
        refine ⟨x :: c, secs, h1.cons hm, ?_, fun cur => ?_⟩
        · rw [findAux, hm]
          exact h2
        · rw [splitAux, hm]
          simp [h3]
      | some p =>
        obtain ⟨g, r⟩ := p
        have hl := hlen _ _ _ hm
        obtain ⟨c, secs, h1, h2, h3⟩ := ih r (by simp at hn hl; omega)
        refine ⟨[], (g, c) :: secs, .step [] (x :: s) g r c secs hm (fun a b hab hb => ?_) h1, ?_, fun cur => ?_⟩
        · exact absurd (List.append_eq_nil_iff.1 hab.symm).2 hb
        · rw [findAux, hm]
          simp [h2]
        · rw [splitAux, hm]
          simp [h3]

theorem Decomp.inv {m : Str → Option (Str × Str)} {s c : Str} {secs : List (Str × Str)} (h : Decomp m s c secs) :
    (secs = [] ∧ c = s ∧ ∀ a b, s = a ++ b → m b = none) ∨
    ∃ t g r c' secs', s = c ++ t ∧ secs = (g, c') :: secs' ∧ m t = some (g, r) ∧
      (∀ a b, c = a ++ b → b ≠ [] → m (b ++ t) = none) ∧ Decomp m r c' secs' := by
  cases h with
  | done _ h => exact Or.inl ⟨rfl, rfl, h⟩
  | step _ t g r c' secs' hm h hr => exact Or.inr ⟨t, g, r, c', secs', rfl, rfl, hm, h, hr⟩

theorem Decomp.unique {m : Str → Option (Str × Str)} {s c c' : Str} {secs secs' : List (Str × Str)}
    (h : Decomp m s c secs) (h' : Decomp m s c' secs') : c = c' ∧ secs = secs' := by
  induction h generalizing c' secs' with
  | done s hn =>
    rcases h'.inv with ⟨rfl, rfl, _⟩ | ⟨t, g, r, c₁, secs₁, hs, _, hm, _, _⟩
    · exact ⟨rfl, rfl⟩
    · rw [hn c' t hs] at hm
      cases hm
  | step c t g r c₁ secs hm h hr ih =>
    rcases h'.inv with ⟨rfl, rfl, hn⟩ | ⟨u, g', r', c₁', secs₁', hs, rfl, hm', h', hr'⟩
    · rw [hn c t rfl] at hm
      cases hm
    · have key : c = c' ∧ t = u := by
        rcases List.append_eq_append_iff.1 hs with ⟨a, rfl, hu⟩ | ⟨a, rfl, hu⟩
        · cases ha : a with
          | nil => rw [ha] at hu; simp at hu ⊢; exact hu
          | cons y ys =>
            have := h' c a rfl (by simp [ha])
            rw [← hu, hm] at this
            cases this
        · cases ha : a with
          | nil => rw [ha] at hu; simp at hu ⊢; exact hu.symm
          | cons y ys =>
            have := h c' a rfl (by simp [ha])
            rw [← hu, hm'] at this
            cases this
      obtain ⟨rfl, rfl⟩ := key
      rw [hm] at hm'
      cases hm'
      obtain ⟨rfl, rfl⟩ := ih hr'
      exact ⟨rfl, rfl⟩

theorem headMatch_len (s h r : Str) (hm : headMatch s = some (h, r)) : r.length < s.length := by
  obtain ⟨_, rfl⟩ := headMatch_sound hm
  simp [headingLine]
  omega

/-- What `re.split` and `re.findall` give for the heading expression. -/
theorem scan_head (s : Str) : ∃ c secs, Decomp headMatch s c secs ∧
    reFindall headMatch s = secs.map Prod.fst ∧ reSplit headMatch s = c :: secs.map Prod.snd := by
  obtain ⟨c, secs, h1, h2, h3⟩ := scan headMatch rfl headMatch_len s.length s (Nat.le_refl _)
  exact ⟨c, secs, h1, h2, h3 []⟩

theorem decomp_spec {s c : Str} {secs : List (Str × Str)} (h : Decomp headMatch s c secs) :
    s = assemble c secs ∧ NoHeading c ∧ ∀ p ∈ secs, IsHeading p.1 ∧ NoHeading p.2 := by
  induction h with
  | done s hn =>
    refine ⟨by simp [assemble], ?_, by simp⟩
    intro pre h post hh he
    have := hn pre (headingLine h ++ post) (by rw [he, List.append_assoc])
    have hc := headMatch_complete hh post
    rw [this] at hc
    cases hc
  | step c t g r c' secs hm h hr ih =>
    obtain ⟨i1, i2, i3⟩ := ih
    obtain ⟨hg, ht⟩ := headMatch_sound hm
    refine ⟨?_, ?_, ?_⟩
    · rw [ht, i1]
      simp [assemble]
    · intro pre h' post hh he
      have := h pre (headingLine h' ++ post) (by rw [he, List.append_assoc]) (by simp [headingLine])
      have hc := headMatch_complete hh (post ++ t)
      rw [← List.append_assoc, this] at hc
      cases hc
    · intro p hp
      rcases List.mem_cons.1 hp with rfl | hp
      · exact ⟨hg, i2⟩
      · exact i3 p hp

/-- **C125.** Segmenting an article of the main namespace with text never fails, and nothing is lost: there are an
introduction and sections such that the text is their concatenation with the heading lines between them, the
sections returned are these, in order, with stripped headings (the first is called `Introduction`) and filtered
contents, and no heading is left inside a part. -/
theorem C125_sections (filt filtLinks : Str → Str) (links : Bool) (title : Option Str) (text : Str) :
    ∃ intro secs, text = assemble intro secs ∧ NoHeading intro ∧
      (∀ p ∈ secs, IsHeading p.1 ∧ NoHeading p.2) ∧
      segment filt filtLinks links ⟨some title, some (some text), some (some ['0'])⟩ =
        .ok (title, ("Introduction".toList, filt intro) :: secs.map (fun p => (strip uws p.1, filt p.2)),
          if links then some (findInterlinks filtLinks text) else none) := by
  obtain ⟨c, secs, hd, hf, hs⟩ := scan_head text
  obtain ⟨h1, h2, h3⟩ := decomp_spec hd
  refine ⟨c, secs, h1, h2, h3, ?_⟩
  have hintro : strip uws "Introduction".toList = "Introduction".toList := by decide +kernel
  unfold segment
  simp only [hf, hs, if_true, List.map_cons, List.length_cons, List.length_map, ne_eq, not_true_eq_false,
    if_false, hintro, List.zip_cons_cons, List.map_map]
  congr 4
  rw [List.zip_map']
  rfl

/-- A part of a text that neither holds a heading nor makes one with its neighbours. -/
structure PlainBody (b : Str) : Prop where
  noHeading : NoHeading (b ++ ['\n'])
  noOpen : ¬ ['\n', '=', '='] <:+ b
  noClose : ¬ ['=', '=', '\n'] <+: b ++ ['\n']

/-- An ordinary heading: one line of at least two characters that does not begin or end with `=`. -/
structure PlainHeading (h : Str) : Prop where
  noNewline : '\n' ∉ h
  two : 2 ≤ h.length
  first : h.head? ≠ some '='
  last : h.getLast? ≠ some '='

theorem PlainHeading.parts {h : Str} (hp : PlainHeading h) :
    ∃ c mid d, h = c :: (mid ++ [d]) ∧ c ≠ '=' ∧ d ≠ '=' ∧ d ≠ '\n' ∧ '\n' ∉ mid ∧ c ≠ '\n' := by
  obtain ⟨h1, h2, h3, h4⟩ := hp
  cases h with
  | nil => simp at h2
  | cons c t =>
    rcases List.eq_nil_or_concat t with rfl | ⟨mid, d, rfl⟩
    · simp at h2
    · refine ⟨c, mid, d, by simp, ?_, ?_, ?_, ?_, ?_⟩
      · rintro rfl; simp at h3
      · rintro rfl; apply h4; simp [List.getLast?_cons]
      · rintro rfl; simp at h1
      · intro hm; apply h1; simp [hm]
      · rintro rfl; simp at h1

theorem body_none {b h r : Str} (hb1 : NoHeading (b ++ ['\n'])) (hb2 : ¬ ['\n', '=', '='] <:+ b)
    (hh : PlainHeading h) (a x : Str) (hab : b = a ++ x) (hx : x ≠ []) :
    headMatch (x ++ (headingLine h ++ r)) = none := by
  obtain ⟨c0, mid0, d0, rfl, _, _, _, _, hc0⟩ := hh.parts
  cases hm : headMatch (x ++ (headingLine (c0 :: (mid0 ++ [d0])) ++ r)) with
  | none => rfl
  | some p =>
    exfalso
    obtain ⟨g, r'⟩ := p
    obtain ⟨⟨c, mid, d, rfl, hc, hd, hn⟩, he⟩ := headMatch_sound hm
    simp only [headingLine, List.cons_append, List.nil_append, List.append_assoc] at he
    match x, hx with
    | [x1], _ => simp at he
    | [x1, x2], _ => simp at he
    | [x1, x2, x3], _ =>
      simp only [List.cons_append, List.nil_append, List.cons.injEq] at he
      obtain ⟨rfl, rfl, rfl, _⟩ := he
      exact hb2 ⟨a, hab.symm⟩
    | x1 :: x2 :: x3 :: x4 :: x', _ =>
      simp only [List.cons_append, List.cons.injEq] at he
      obtain ⟨rfl, rfl, rfl, rfl, he⟩ := he
      have found : ∀ c', x' ++ ['\n'] = mid ++ (d :: '=' :: '=' :: '\n' :: c') → False := by
        intro c' hc'
        refine hb1 a (x4 :: (mid ++ [d])) c' ⟨x4, mid, d, rfl, hc, hd, hn⟩ ?_
        rw [hab]
        simp only [headingLine, List.append_assoc, List.cons_append, List.nil_append]
        rw [hc']
      have dnl : d = '\n' → '=' :: '=' :: c0 :: (mid0 ++ (d0 :: '=' :: '=' :: '\n' :: r))
          = '=' :: '=' :: '\n' :: r' → False := by
        intro _ h2
        simp only [List.cons.injEq, true_and] at h2
        exact hc0 h2.1
      rcases List.append_eq_append_iff.1 he with ⟨y, hy1, hy2⟩ | ⟨y, hy1, hy2⟩
      · cases y with
        | nil =>
          simp only [List.nil_append, List.cons.injEq] at hy2
          exact dnl hy2.1.symm (by simpa using hy2.2)
        | cons z zs =>
          simp only [List.cons_append, List.cons.injEq] at hy2
          rw [hy1] at hn
          exact hn (by simp [← hy2.1])
      · match y with
        | [] =>
          simp only [List.nil_append, List.cons.injEq] at hy2
          exact hc0 hy2.2.2.2.1.symm
        | [y1] => simp at hy2
        | [y1, y2] => simp at hy2
        | [y1, y2, y3] =>
          simp only [List.cons_append, List.nil_append, List.cons.injEq] at hy2
          obtain ⟨rfl, rfl, rfl, _⟩ := hy2
          exact found [] (by rw [hy1]; simp)
        | y1 :: y2 :: y3 :: y4 :: ys =>
          simp only [List.cons_append, List.cons.injEq] at hy2
          obtain ⟨rfl, rfl, rfl, rfl, _⟩ := hy2
          exact found (ys ++ ['\n']) (by rw [hy1]; simp)

theorem noHeading_left {a b : Str} (h : NoHeading (a ++ b)) : NoHeading a := by
  intro pre g post hg he
  exact h pre g (post ++ b) hg (by rw [he, List.append_assoc])

theorem close_of_append {b z : Str} (h : ['=', '=', '\n'] <+: b ++ '\n' :: z) : ['=', '=', '\n'] <+: b ++ ['\n'] := by
  obtain ⟨w, hw⟩ := h
  match b with
  | [] => simp at hw
  | [b1] => simp at hw
  | [b1, b2] =>
    simp only [List.cons_append, List.nil_append, List.cons.injEq] at hw
    obtain ⟨rfl, rfl, _⟩ := hw
    exact ⟨[], rfl⟩
  | b1 :: b2 :: b3 :: bs =>
    simp only [List.cons_append, List.nil_append, List.cons.injEq] at hw
    obtain ⟨rfl, rfl, rfl, _⟩ := hw
    exact ⟨bs ++ ['\n'], by simp⟩

theorem decomp_assemble (intro : Str) (secs : List (Str × Str)) (hi : NoHeading (intro ++ ['\n']))
    (hi' : ¬ ['\n', '=', '='] <:+ intro) (hs : ∀ p ∈ secs, PlainHeading p.1 ∧ PlainBody p.2) :
    Decomp headMatch (assemble intro secs) intro secs := by
  induction secs generalizing intro with
  | nil =>
    have : assemble intro [] = intro := by simp [assemble]
    rw [this]
    refine .done _ fun a b hab => ?_
    cases hm : headMatch b with
    | none => rfl
    | some p =>
      obtain ⟨hg, hb⟩ := headMatch_sound hm
      exact absurd (by rw [hab, hb, List.append_assoc]) (noHeading_left hi a p.1 p.2 hg)
  | cons p secs ih =>
    obtain ⟨h, b⟩ := p
    obtain ⟨hh, hb⟩ := hs (h, b) (by simp)
    have ih := ih b hb.noHeading hb.noOpen (fun q hq => hs q (List.mem_cons_of_mem _ hq))
    have he : assemble intro ((h, b) :: secs) = intro ++ (headingLine h ++ assemble b secs) := by
      simp [assemble]
    rw [he]
    refine .step intro _ h (assemble b secs) b secs ?_ ?_ ih
    · obtain ⟨c, mid, d, rfl, hc, hd, hd', hn, _⟩ := hh.parts
      refine headMatch_plain c mid d _ hc hd hd' hn fun hpre => hb.noClose ?_
      cases secs with
      | nil =>
        simp only [assemble, List.flatMap_nil, List.append_nil] at hpre
        exact hpre.trans (List.prefix_append _ _)
      | cons q secs =>
        apply close_of_append (z := ['=', '='] ++ q.1 ++ ['=', '=', '\n'] ++ q.2
          ++ secs.flatMap fun s => headingLine s.1 ++ s.2)
        simpa [assemble, headingLine] using hpre
    · intro a x hax hx
      exact body_none hi hi' hh a x hax hx

/-- **C125.** Segmentation recovers the sections a text was made of: with ordinary headings and bodies in which no
heading is hidden, the sections are exactly the ones put in. -/
theorem C125_recovers (filt filtLinks : Str → Str) (links : Bool) (title : Option Str) (intro : Str)
    (secs : List (Str × Str)) (hi : NoHeading (intro ++ ['\n'])) (hi' : ¬ ['\n', '=', '='] <:+ intro)
    (hs : ∀ p ∈ secs, PlainHeading p.1 ∧ PlainBody p.2) :
    segment filt filtLinks links ⟨some title, some (some (assemble intro secs)), some (some ['0'])⟩ =
      .ok (title, ("Introduction".toList, filt intro) :: secs.map (fun p => (strip uws p.1, filt p.2)),
        if links then some (findInterlinks filtLinks (assemble intro secs)) else none) := by
  obtain ⟨c, secs', hd, hf, hsp⟩ := scan_head (assemble intro secs)
  obtain ⟨rfl, rfl⟩ := hd.unique (decomp_assemble intro secs hi hi' hs)
  have hintro : strip uws "Introduction".toList = "Introduction".toList := by decide +kernel
  unfold segment
  simp only [hf, hsp, if_true, List.map_cons, List.length_cons, List.length_map, ne_eq, not_true_eq_false,
    if_false, hintro, List.zip_cons_cons, List.map_map]
  congr 4
  rw [List.zip_map']
  rfl

/-- Any text without equality signs is a plain body. -/
theorem plainBody_of_no_eq {b : Str} (h : '=' ∉ b) : PlainBody b := by
  refine ⟨?_, ?_, ?_⟩
  · intro pre g post _ he
    have : '=' ∈ b ++ ['\n'] := by rw [he]; simp [headingLine]
    simp [h] at this
  · rintro ⟨a, ha⟩
    exact h (by rw [← ha]; simp)
  · rintro ⟨a, ha⟩
    have : '=' ∈ b ++ ['\n'] := by rw [← ha]; simp
    simp [h] at this

/-- The hypotheses of `C125_recovers` are met by an article with two sections. -/
example : ∀ p ∈ [("History ".toList, "Long ago.\n".toList), ("See also".toList, "* x".toList)],
    PlainHeading p.1 ∧ PlainBody p.2 := by
  intro p hp
  simp only [List.mem_cons, List.not_mem_nil, or_false] at hp
  rcases hp with rfl | rfl
  · exact ⟨⟨by decide, by decide, by decide, by decide⟩, plainBody_of_no_eq (by decide)⟩
  · exact ⟨⟨by decide, by decide, by decide, by decide⟩, plainBody_of_no_eq (by decide)⟩

/-- **C125** (findings). A heading of one character is not recognised; the second of two headings on adjacent lines is
not recognised, and its line stays in the text of the first section; a heading on the first line of the text is not
recognised; a line that only begins with `==` is taken as a heading when the next line is `==`. -/
theorem C125_missed_headings :
    reFindall headMatch "a\n==B==\nc".toList = [] ∧
    reFindall headMatch "a\n==B C==\n==D E==\nf".toList = ["B C".toList] ∧
    reSplit headMatch "a\n==B C==\n==D E==\nf".toList = ["a".toList, "==D E==\nf".toList] ∧
    reFindall headMatch "==B C==\nd".toList = [] ∧
    reFindall headMatch "a\n==bc\n==\nd".toList = ["bc\n".toList] := by
  decide +kernel

/-- **C125.** A page of another namespace, or without text, has no sections and no links; a page without one of the
three elements is an error. -/
theorem C125_other_pages (filt filtLinks : Str → Str) (links : Bool) (p : Page) :
    (∀ title text ns, p = ⟨some title, some text, some ns⟩ → (ns ≠ some ['0'] ∨ text = none) →
      segment filt filtLinks links p = .ok (title, [], if links then some [] else none)) ∧
    (p.title = none ∨ p.text = none ∨ p.ns = none → segment filt filtLinks links p = .error .attribute) := by
  constructor
  · rintro title text ns rfl h
    unfold segment
    by_cases hn : ns = some ['0']
    · rcases h with h | h
      · exact absurd hn h
      · subst h
        simp
    · simp [hn]
  · obtain ⟨t, x, ns⟩ := p
    rintro (h | h | h) <;> dsimp only at h <;> subst h
    · rfl
    · cases t <;> rfl
    · cases t <;> cases x <;> rfl

/-! ## The articles of a dump -/

/-- The page has all its elements, and a title. -/
def Readable (p : Page) : Bool :=
  match p.title, p.text, p.ns with
  | some (some _), some _, some _ => true
  | _, _, _ => false

/-- The title of a page. -/
def titleOf (p : Page) : Str := (p.title.getD none).getD []

/-- The sections of a page. -/
def sectionsOf (filt filtLinks : Str → Str) (p : Page) : List (Str × Str) :=
  match segment filt filtLinks false p with
  | .ok (_, s, _) => s
  | .error _ => []

/-- The links of a page, if asked for. -/
def linksOf (filtLinks : Str → Str) (links : Bool) (p : Page) : Option (List (Str × Str)) :=
  if links then
    match p.text, p.ns with
    | some (some t), some (some ['0']) => some (findInterlinks filtLinks t)
    | _, _ => some []
  else none

/-- An article: the title does not begin with the name of another namespace, the page belongs to the main namespace
and has text, the introduction is no redirection, and the bodies of the sections have enough characters. -/
def IsArticle (filt filtLinks lower : Str → Str) (minChars : Int) (p : Page) : Prop :=
  (∀ ns ∈ ["Wikipedia", "Category", "File", "Portal", "Template", "MediaWiki", "User", "Help", "Book", "Draft",
      "WikiProject", "Special", "Talk"], ¬ (ns.toList ++ [':']) <+: titleOf p) ∧
  (p.ns = some (some ['0']) ∧ ∃ t, p.text = some (some t)) ∧
  (∀ intro rest, sectionsOf filt filtLinks p = intro :: rest →
    ¬ "#redirect".toList <+: lower (lstrip uws intro.2)) ∧
  minChars ≤ ((sectionsOf filt filtLinks p).map fun s => (strip uws s.2).length).sum

theorem segment_readable (filt filtLinks : Str → Str) (links : Bool) (p : Page) (h : Readable p = true) :
    segment filt filtLinks links p =
      .ok (some (titleOf p), sectionsOf filt filtLinks p, linksOf filtLinks links p) ∧
    (sectionsOf filt filtLinks p ≠ [] ↔ p.ns = some (some ['0']) ∧ ∃ t, p.text = some (some t)) := by
  obtain ⟨t, x, ns⟩ := p
  unfold Readable at h
  rcases t with _ | _ | t <;> rcases x with _ | x <;> rcases ns with _ | ns <;> try cases h
  by_cases hn : ns = some ['0']
  · subst hn
    cases x with
    | none =>
      have := (C125_other_pages filt filtLinks links ⟨some (some t), some none, some (some ['0'])⟩).1
        _ _ _ rfl (Or.inr rfl)
      have h2 := (C125_other_pages filt filtLinks false ⟨some (some t), some none, some (some ['0'])⟩).1
        _ _ _ rfl (Or.inr rfl)
      rw [this]
      simp [sectionsOf, h2, titleOf, linksOf]
    | some x =>
      obtain ⟨c, secs, h1, h2, h3, h4⟩ := C125_sections filt filtLinks false (some t) x
      obtain ⟨c', secs', hd, hf, hsp⟩ := scan_head x
      have hsame : segment filt filtLinks links ⟨some (some t), some (some x), some (some ['0'])⟩ =
          .ok (some t, sectionsOf filt filtLinks ⟨some (some t), some (some x), some (some ['0'])⟩,
            if links then some (findInterlinks filtLinks x) else none) := by
        unfold sectionsOf segment
        simp [hf, hsp]
      rw [hsame]
      refine ⟨by simp [titleOf, linksOf], ?_⟩
      simp [sectionsOf, h4]
  · have := (C125_other_pages filt filtLinks links ⟨some (some t), some x, some ns⟩).1
        _ _ _ rfl (Or.inl hn)
    have h2 := (C125_other_pages filt filtLinks false ⟨some (some t), some x, some ns⟩).1
        _ _ _ rfl (Or.inl hn)
    rw [this]
    refine ⟨?_, ?_⟩
    · simp only [sectionsOf, h2, titleOf, linksOf]
      cases links with
      | false => rfl
      | true =>
        rcases x with _ | x
        · rfl
        · rcases ns with _ | ns
          · rfl
          · have : ns ≠ ['0'] := fun e => hn (by rw [e])
            simp only [if_true]
            split
            · rename_i h3 h4
              cases h4
              exact absurd rfl this
            · rfl
    · simp [sectionsOf, h2, hn]

theorem consumeGroups_eq (lower : Str → Str) (minChars : Int) (gs : List (List (Except Err Out))) :
    consumeGroups lower minChars gs = consume lower minChars gs.flatten := by
  have happ : ∀ a b : List (Except Err Out), consume lower minChars (a ++ b) =
      match consume lower minChars a with
      | (out, some e) => (out, some e)
      | (out, none) => (out ++ (consume lower minChars b).1, (consume lower minChars b).2) := by
    intro a b
    induction a with
    | nil => rfl
    | cons x a ih =>
      rcases x with e | ⟨_ | t, s, l⟩
      · rfl
      · rfl
      · simp only [List.cons_append, consume]
        split
        · exact ih
        · split
          · exact ih
          · split
            · exact ih
            · rw [ih]
              rcases consume lower minChars a with ⟨o, _ | e⟩ <;> rfl
  induction gs with
  | nil => rfl
  | cons g gs ih =>
    rw [List.flatten_cons, happ, consumeGroups, ih]
    all_goals (rcases consume lower minChars g with ⟨o, _ | e⟩ <;> rfl)

theorem ignored_iff (names : List String) (t : Str) :
    ((names.map String.toList).any fun ns => (ns ++ [':']).isPrefixOf t) = true ↔
      ¬ ∀ ns ∈ names, ¬ (ns.toList ++ [':']) <+: t := by
  simp [List.any_eq_true]

open Classical in
/-- **C125.** For every number of worker processes and every order in which they finish, the articles are those of the
dump, each once and in order, up to the first page that lacks an element or a title, at which the iteration fails; if
there is none, it ends and the number of articles is known. -/
theorem C125_articles (filt filtLinks lower : Str → Str) (links : Bool) (processes : Nat) (hp : 0 < processes)
    (minChars : Int) (pages : List Page) (dones : Nat → List Nat)
    (hd : ∀ g i, i < 10 * processes → i ∈ dones g) :
    articles filt filtLinks lower links processes minChars pages dones =
      (((pages.takeWhile Readable).filter fun p => decide (IsArticle filt filtLinks lower minChars p)).map
        fun p => (titleOf p, sectionsOf filt filtLinks p, linksOf filtLinks links p),
       if ∀ p ∈ pages, Readable p = true then none else some .attribute) := by
  have hmap : ((Chunk.chunks (10 * processes) pages).zipIdx.map fun g =>
      Wiki.imap (segment filt filtLinks links) g.1 (dones g.2))
      = (Chunk.chunks (10 * processes) pages).map fun g => g.map (segment filt filtLinks links) := by
    conv => rhs; rw [← List.zipIdx_map_fst 0 (Chunk.chunks (10 * processes) pages), List.map_map]
    apply List.map_congr_left
    intro g hg
    have hlen : g.1.length ≤ 10 * processes :=
      ((Chunk.C15_sizes (by omega) pages).1 g.1 (List.fst_mem_of_mem_zipIdx hg)).2
    rw [Wiki.imap_eq _ _ _ fun i hi => hd g.2 i (by omega)]
    rfl
  unfold articles
  rw [hmap, consumeGroups_eq, ← List.map_flatten, Chunk.C15_concat (by omega)]
  clear hmap
  induction pages with
  | nil => simp [consume]
  | cons p pages ih =>
    by_cases hr : Readable p = true
    · obtain ⟨hseg, hne⟩ := segment_readable filt filtLinks links p hr
      have hall : (∀ q ∈ p :: pages, Readable q = true) ↔ ∀ q ∈ pages, Readable q = true := by
        simp [hr]
      have hns : (Wiki.ignoredNamespaces.any fun ns => (ns ++ [':']).isPrefixOf (titleOf p)) = true ↔
          ¬ ∀ ns ∈ ["Wikipedia", "Category", "File", "Portal", "Template", "MediaWiki", "User", "Help", "Book",
            "Draft", "WikiProject", "Special", "Talk"], ¬ (ns.toList ++ [':']) <+: titleOf p := by
        have he : Wiki.ignoredNamespaces = ["Wikipedia", "Category", "File", "Portal", "Template", "MediaWiki", "User",
            "Help", "Book", "Draft", "WikiProject", "Special", "Talk"].map String.toList := rfl
        rw [he]
        exact ignored_iff _ (titleOf p)
      have hred : redirect lower (sectionsOf filt filtLinks p) = false ↔
          (p.ns = some (some ['0']) ∧ ∃ t, p.text = some (some t)) ∧
          ∀ intro rest, sectionsOf filt filtLinks p = intro :: rest →
            ¬ "#redirect".toList <+: lower (lstrip uws intro.2) := by
        rw [← hne]
        unfold redirect
        cases hs : sectionsOf filt filtLinks p with
        | nil => simp
        | cons s rest =>
          rw [← Bool.not_eq_true, List.isPrefixOf_iff_prefix]
          constructor
          · intro h
            refine ⟨by simp, ?_⟩
            intro i r hir
            cases hir
            exact h
          · rintro ⟨_, h⟩
            exact h s rest rfl
      rw [List.map_cons, hseg, List.takeWhile_cons_of_pos hr]
      simp only [hall]
      by_cases ha : IsArticle filt filtLinks lower minChars p
      · rw [List.filter_cons_of_pos (by simpa using ha), List.map_cons]
        obtain ⟨a1, a2, a3, a4⟩ := ha
        have b1 : ¬ (Wiki.ignoredNamespaces.any fun ns => (ns ++ [':']).isPrefixOf (titleOf p)) = true := by
          rw [hns]; exact not_not.2 a1
        have b2 : redirect lower (sectionsOf filt filtLinks p) = false := hred.2 ⟨a2, a3⟩
        have b3 : ¬ (chars (sectionsOf filt filtLinks p) : Int) < minChars := by
          unfold chars; omega
        rw [consume, if_neg b1, b2, if_neg (by simp), if_neg b3, ih]
      · rw [List.filter_cons_of_neg (by simpa using ha), ← ih, consume]
        by_cases b1 : (Wiki.ignoredNamespaces.any fun ns => (ns ++ [':']).isPrefixOf (titleOf p)) = true
        · rw [if_pos b1]
        rw [if_neg b1]
        by_cases b2 : redirect lower (sectionsOf filt filtLinks p) = true
        · rw [if_pos b2]
        rw [if_neg b2]
        by_cases b3 : (chars (sectionsOf filt filtLinks p) : Int) < minChars
        · rw [if_pos b3]
        · exfalso
          apply ha
          rw [hns, not_not] at b1
          obtain ⟨c1, c2⟩ := hred.1 (Bool.eq_false_iff.2 b2)
          refine ⟨b1, c1, c2, ?_⟩
          unfold chars at b3
          omega
    · have hall : ¬ ∀ q ∈ p :: pages, Readable q = true := fun h => hr (h p (by simp))
      rw [List.takeWhile_cons_of_neg hr, if_neg hall, List.map_cons]
      obtain ⟨t, x, ns⟩ := p
      rcases t with _ | _ | t
      · rw [(C125_other_pages filt filtLinks links _).2 (Or.inl rfl)]
        rfl
      · rcases x with _ | x
        · rw [(C125_other_pages filt filtLinks links _).2 (Or.inr (Or.inl rfl))]
          rfl
        · rcases ns with _ | ns
          · rw [(C125_other_pages filt filtLinks links _).2 (Or.inr (Or.inr rfl))]
            rfl
          · have : ∃ s l, segment filt filtLinks links ⟨some none, some x, some ns⟩ = .ok (none, s, l) := by
              by_cases hn : ns = some ['0']
              · subst hn
                cases x with
                | none =>
                  exact ⟨_, _, (C125_other_pages filt filtLinks links ⟨some none, some none, some (some ['0'])⟩).1
                    _ _ _ rfl (Or.inr rfl)⟩
                | some x =>
                  obtain ⟨c, secs, _, _, _, h4⟩ := C125_sections filt filtLinks links none x
                  exact ⟨_, _, h4⟩
              · exact ⟨_, _, (C125_other_pages filt filtLinks links ⟨some none, some x, some ns⟩).1
                    _ _ _ rfl (Or.inl hn)⟩
            obtain ⟨s, l, hs⟩ := this
            rw [hs]
            rfl
      · rcases x with _ | x
        · rw [(C125_other_pages filt filtLinks links _).2 (Or.inr (Or.inl rfl))]
          rfl
        · rcases ns with _ | ns
          · rw [(C125_other_pages filt filtLinks links _).2 (Or.inr (Or.inr rfl))]
            rfl
          · exact absurd rfl hr

/-- **C125.** The length of the corpus is set exactly when the iteration has ended without error, and is then the number
of articles. -/
theorem C125_length (out : List Article × Option Err) :
    lengthAfter out = if out.2 = none then some out.1.length else none := by
  obtain ⟨a, _ | e⟩ := out <;> rfl

/-- **C125.** The file has one line for each article yielded, in order, also when the iteration fails: each line read
back gives the title, the section titles and texts in order, and the links; the exception is passed on. -/
theorem C125_file (dumps : Record → Str) (loads : Str → Option Record) (hj : ∀ r, loads (dumps r) = some r)
    (hline : ∀ r, '\n' ∉ dumps r) (out : List Article × Option Err) :
    (writeAll dumps out).2 = out.2 ∧
    (pyLines (writeAll dumps out).1).map (fun l => loads l.dropLast) =
      out.1.map fun a => some ⟨a.1, a.2.1.map Prod.fst, a.2.1.map Prod.snd, a.2.2⟩ := by
  refine ⟨rfl, ?_⟩
  unfold writeAll
  obtain ⟨as, e⟩ := out
  dsimp only
  induction as with
  | nil => rfl
  | cons a as ih =>
    rw [List.flatMap_cons, List.append_assoc, List.singleton_append, pyLines_cons_line (hline _), List.map_cons, ih]
    simp [hj, record]

/-! ## Links -/

theorem linkEnd_sound {s h r : Str} (hm : linkEnd s = some (h, r)) : s = h ++ ']' :: ']' :: r := by
  induction s generalizing h r with
  | nil => cases hm
  | cons c s ih =>
    unfold linkEnd at hm
    split at hm
    · rename_i hc
      cases hm
      obtain ⟨rfl, hs⟩ := hc
      cases s with
      | nil => cases hs
      | cons d s => cases hs; rfl
    · split at hm
      · cases hm
      · cases hs : linkEnd s with
        | none => rw [hs] at hm; cases hm
        | some p =>
          obtain ⟨h', r'⟩ := p
          rw [hs] at hm
          cases hm
          rw [ih hs]
          rfl

theorem linkMatch_sound {s h r : Str} (hm : linkMatch s = some (h, r)) :
    s = ['[', '['] ++ h ++ [']', ']'] ++ r := by
  unfold linkMatch at hm
  split at hm
  · rw [linkEnd_sound hm]
    simp
  · cases hm

theorem find_mem (n : Nat) (s g : Str) (h : g ∈ findAux linkMatch n s) :
    ∃ pre post, s = pre ++ ['[', '['] ++ g ++ [']', ']'] ++ post := by
  induction n generalizing s with
  | zero => cases h
  | succ n ih =>
    cases s with
    | nil => cases h
    | cons c s =>
      unfold findAux at h
      cases hm : linkMatch (c :: s) with
      | none =>
        rw [hm] at h
        obtain ⟨pre, post, rfl⟩ := ih s h
        exact ⟨c :: pre, post, by simp⟩
      | some p =>
        obtain ⟨g', r⟩ := p
        rw [hm] at h
        have hs := linkMatch_sound hm
        rcases List.mem_cons.1 h with rfl | h
        · exact ⟨[], r, by simpa using hs⟩
        · obtain ⟨pre, post, rfl⟩ := ih r h
          refine ⟨['[', '['] ++ g' ++ [']', ']'] ++ pre, post, ?_⟩
          rw [hs]
          simp

theorem splitOn_head (c : Char) (s : Str) : ∃ rest, splitOn c s = s.takeWhile (· != c) :: rest := by
  induction s with
  | nil => exact ⟨[], rfl⟩
  | cons x s ih =>
    obtain ⟨rest, h⟩ := ih
    by_cases hx : x = c
    · subst hx
      refine ⟨splitOn x s, ?_⟩
      simp [splitOn]
    · refine ⟨rest, ?_⟩
      simp [splitOn, h, hx]

/-- **C125.** Every link found stands in the filtered text between double brackets, its target being what comes before
the first bar; no target has a bracket in it. -/
theorem C125_links_sound (filt : Str → Str) (raw : Str) (p : Str × Str) (h : p ∈ findInterlinks filt raw) :
    '[' ∉ p.1 ∧ ']' ∉ p.1 ∧ ∃ pre inner post, filt raw = pre ++ ['[', '['] ++ inner ++ [']', ']'] ++ post ∧
      p.1 = inner.takeWhile (· != '|') := by
  unfold findInterlinks at h
  obtain ⟨h1, h2⟩ := List.mem_filter.1 h
  obtain ⟨g, hg, rfl⟩ := List.mem_map.1 h1
  simp only [Bool.and_eq_true, Bool.not_eq_true', ← Bool.not_eq_true, List.contains_iff_mem] at h2
  obtain ⟨pre, post, hs⟩ := find_mem _ _ _ hg
  refine ⟨h2.1, h2.2, pre, g, post, hs, ?_⟩
  obtain ⟨rest, hr⟩ := splitOn_head '|' g
  unfold linkOf
  rw [hr]
  cases rest <;> rfl

/-- A link in a text: its parts between the bars. -/
def linkText (parts : List Str) : Str := ['[', '['] ++ joinWith ['|'] parts ++ [']', ']']

theorem linkEnd_eq (s r : Str) (hs : ']' ∉ s) (hn : '\n' ∉ s) : linkEnd (s ++ ']' :: ']' :: r) = some (s, r) := by
  induction s with
  | nil => simp [linkEnd]
  | cons c s ih =>
    have ih := ih (fun h => hs (List.mem_cons_of_mem _ h)) (fun h => hn (List.mem_cons_of_mem _ h))
    have h1 : c ≠ ']' := fun h => hs (by simp [h])
    have h2 : c ≠ '\n' := fun h => hn (by simp [h])
    rw [List.cons_append, linkEnd, if_neg (by simp [h1]), if_neg h2, ih]

theorem find_skip (n : Nat) (s t : Str) (hs : '[' ∉ s) (hn : (s ++ t).length ≤ n) :
    findAux linkMatch n (s ++ t) = findAux linkMatch (n - s.length) t := by
  induction s generalizing n with
  | nil => rfl
  | cons c s ih =>
    cases n with
    | zero => simp at hn
    | succ n =>
      have hc : c ≠ '[' := fun h => hs (by simp [h])
      have hm : linkMatch (c :: (s ++ t)) = none := by
        unfold linkMatch
        split
        · rename_i heq
          exact absurd (List.cons.inj heq).1 hc
        · rfl
      rw [List.cons_append, findAux, hm]
      dsimp only
      rw [ih n (fun h => hs (List.mem_cons_of_mem _ h)) (by simpa using hn)]
      simp

theorem mem_joinWith {c : Char} {ps : List Str} (hc : c ≠ '|') (h : ∀ p ∈ ps, c ∉ p) : c ∉ joinWith ['|'] ps := by
  induction ps with
  | nil => simp [joinWith]
  | cons p ps ih =>
    cases ps with
    | nil => simpa [joinWith] using h
    | cons q ps =>
      have := ih (fun x hx => h x (List.mem_cons_of_mem _ hx))
      simp only [joinWith, List.mem_append, List.mem_singleton, not_or]
      exact ⟨⟨h p (by simp), hc⟩, this⟩

/-- **C125.** In a (filtered) text in which links stand between stretches of ordinary text, all links are found, in
order: the target is the first part, the label the second part, if there is one, and the target otherwise; further
parts are left out. -/
theorem C125_links (filt : Str → Str) (raw before : Str) (doc : List (List Str × Str))
    (hf : filt raw = before ++ doc.flatMap fun p => linkText p.1 ++ p.2)
    (hb : '[' ∉ before) (hd : ∀ p ∈ doc, '[' ∉ p.2 ∧ p.1 ≠ [] ∧ ∀ q ∈ p.1, '|' ∉ q ∧ '[' ∉ q ∧ ']' ∉ q ∧ '\n' ∉ q) :
    findInterlinks filt raw = doc.map fun p => (p.1.headD [], (p.1[1]?).getD (p.1.headD [])) := by
  have key : ∀ (doc : List (List Str × Str)) (before : Str) (n : Nat), '[' ∉ before →
      (∀ p ∈ doc, '[' ∉ p.2 ∧ p.1 ≠ [] ∧ ∀ q ∈ p.1, '|' ∉ q ∧ '[' ∉ q ∧ ']' ∉ q ∧ '\n' ∉ q) →
      (before ++ doc.flatMap fun p => linkText p.1 ++ p.2).length ≤ n →
      findAux linkMatch n (before ++ doc.flatMap fun p => linkText p.1 ++ p.2)
        = doc.map fun p => joinWith ['|'] p.1 := by
    intro doc
    induction doc with
    | nil =>
      intro before n hb _ hn
      rw [find_skip n before _ hb hn]
      cases n - before.length <;> simp [findAux]
    | cons p doc ih =>
      intro before n hb hd hn
      obtain ⟨h1, h2, h3⟩ := hd p (by simp)
      rw [find_skip n before _ hb hn]
      simp only [List.flatMap_cons, List.length_append] at hn
      have hlt : (linkText p.1).length = (joinWith ['|'] p.1).length + 4 := by simp [linkText]
      obtain ⟨k, hk⟩ : ∃ k, n - before.length = k + 1 := ⟨n - before.length - 1, by omega⟩
      have hm : linkMatch (linkText p.1 ++ (p.2 ++ doc.flatMap fun p => linkText p.1 ++ p.2))
          = some (joinWith ['|'] p.1, p.2 ++ doc.flatMap fun p => linkText p.1 ++ p.2) := by
        have he : linkText p.1 ++ (p.2 ++ doc.flatMap fun p => linkText p.1 ++ p.2)
            = '[' :: '[' :: (joinWith ['|'] p.1 ++ ']' :: ']' :: (p.2 ++ doc.flatMap fun p => linkText p.1 ++ p.2)) := by
          simp [linkText]
        rw [he]
        unfold linkMatch
        exact linkEnd_eq _ _ (mem_joinWith (by decide) fun q hq => (h3 q hq).2.2.1)
          (mem_joinWith (by decide) fun q hq => (h3 q hq).2.2.2)
      have hcons : ∃ c s, linkText p.1 ++ (p.2 ++ doc.flatMap fun p => linkText p.1 ++ p.2) = c :: s :=
        ⟨'[', _, rfl⟩
      rw [List.flatMap_cons, List.append_assoc, hk]
      obtain ⟨c, s, hcs⟩ := hcons
      rw [hcs] at hm ⊢
      rw [findAux, hm]
      dsimp only
      rw [ih p.2 k h1 (fun q hq => hd q (List.mem_cons_of_mem _ hq)) (by simp only [List.length_append]; omega)]
      rfl
  unfold findInterlinks reFindall
  rw [hf, key doc before _ hb hd (Nat.le_refl _), List.map_map]
  have hlink : ∀ p ∈ doc, (linkOf ∘ fun p : List Str × Str => joinWith ['|'] p.1) p =
      (p.1.headD [], (p.1[1]?).getD (p.1.headD [])) := by
    intro p hp
    obtain ⟨_, h2, h3⟩ := hd p hp
    simp only [Function.comp, linkOf]
    rw [splitOn_joinWith h2 fun q hq => (h3 q hq).1]
    rcases hp1 : p.1 with _ | ⟨a, _ | ⟨b, l⟩⟩
    · exact absurd hp1 h2
    · rfl
    · rfl
  rw [List.map_congr_left hlink, List.filter_eq_self]
  intro x hx
  obtain ⟨p, hp, rfl⟩ := List.mem_map.1 hx
  obtain ⟨_, h2, h3⟩ := hd p hp
  rcases hp1 : p.1 with _ | ⟨a, l⟩
  · exact absurd hp1 h2
  · have := h3 a (by simp [hp1])
    simp [this.2.1, this.2.2.1]

/-- Two links in a text meet the hypotheses of `C125_links`. -/
example : findInterlinks id "a [[B c|d]] e [[F]]".toList = [("B c".toList, "d".toList), ("F".toList, "F".toList)] := by
  decide +kernel

/-- **C125** (findings). A link inside another one's label hides both; of a link with several bars the second part is
taken as the label, not the last. -/
theorem C125_links_lost :
    findInterlinks id "[[a [[B]] c]]".toList = [] ∧
    findInterlinks id "[[File:X|thumb|label]]".toList = [("File:X".toList, "thumb".toList)] := by
  decide +kernel

end Verif.WikiSeg
